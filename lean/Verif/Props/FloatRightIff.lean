import Verif.Props.FloatAlgebra
import Verif.Props.FloatSpecial

/-!
# Exactly when the unit is neutral (C61) and sums commute (C62) in floating point
-/

namespace RA
open Spec TensorKey TensorBasis DenseAlg

section
variable (F : FloatFmt) (p : Profile) (N : Nat)

/-! ## C61 -/

theorem flSum_nan (l : List (Fl × Fl)) (h : ∃ e ∈ l, Fl.mul F e.1 e.2 = .nan) : flSum F l = .nan := by
  induction l using List.reverseRecOn with
  | nil => simp at h
  | append_singleton l e ih =>
    rw [flSum_snoc]
    obtain ⟨e', he', hn⟩ := h
    rcases List.mem_append.1 he' with he' | he'
    · rw [ih ⟨e', he', hn⟩]
      rfl
    · rw [List.mem_singleton.1 he'] at hn
      rw [hn]
      cases flSum F l <;> rfl

theorem add_inf_fin (s : Bool) (y : Fl) (hy : y.isFin = true) : Fl.add F (.inf s) y = .inf s ∧ Fl.add F y (.inf s) = .inf s := by
  cases y <;> first | (cases hy; done) | exact ⟨rfl, rfl⟩

theorem flSum_inf (hF : Fl.Ok F) (l zs : List (Fl × Fl)) (s : Bool) (hl : flSum F l = .inf s)
    (hz : ∀ e ∈ zs, e.1.isFin = true ∧ e.2.isFin = true ∧ (e.1.val = 0 ∨ e.2.val = 0)) : flSum F (l ++ zs) = .inf s := by
  induction zs using List.reverseRecOn with
  | nil => rwa [List.append_nil]
  | append_singleton zs e ih =>
    obtain ⟨f1, f2, f3⟩ := hz e (by simp)
    rw [← List.append_assoc, flSum_snoc, ih fun e' he' => hz e' (by simp [he'])]
    exact (add_inf_fin F s _ (mul_zero_val F hF e.1 e.2 f1 f2 f3).1).1

theorem unit_pairs_right_any (a : List Nat → Option Fl) (m : Nat) (h1 : 1 ≤ N) (w : List Nat) (hw : ValidWord N w) :
    ∃ zs, storedPairs a (stored N (unitVec m)) w = (match a w with | some x => [(x, .fin 1)] | none => []) ++ zs ∧
      ∀ e, e ∈ zs ↔ ∃ u v x, u ++ v = w ∧ v ≠ [] ∧ wordIndex N v ≤ m ∧ a u = some x ∧ e = (x, .zero false) := by
  obtain ⟨l, hl, hne⟩ := splits_head w
  have hmem : ∀ uv, uv ∈ l ↔ uv.1 ++ uv.2 = w ∧ uv.2 ≠ [] := by
    intro uv
    constructor
    · intro h
      exact ⟨(splits_spec w uv.1 uv.2).1 (by rw [hl]; exact List.mem_cons_of_mem _ h), hne uv h⟩
    · rintro ⟨h, h'⟩
      have := (splits_spec w uv.1 uv.2).2 h
      rw [hl] at this
      rcases List.mem_cons.1 this with h2 | h2
      · exact absurd (congrArg Prod.snd h2) h'
      · exact h2
  refine ⟨l.filterMap fun uv => match a uv.1, stored N (unitVec m) uv.2 with
    | some x, some y => some (x, y)
    | _, _ => none, ?_, ?_⟩
  · unfold storedPairs
    rw [hl, List.filterMap_cons]
    rw [show stored N (unitVec m) [] = some (.fin 1) from rfl]
    cases a w <;> rfl
  · intro e
    rw [List.mem_filterMap]
    constructor
    · rintro ⟨⟨u, v⟩, huv, he⟩
      obtain ⟨h3, h4⟩ := (hmem _).1 huv
      simp only at h3 h4 he
      have hv : ValidWord N v := fun x hx => hw x (by rw [← h3]; simp [hx])
      rw [stored_unit N m h1 v hv, if_neg h4] at he
      cases hau : a u with
      | none => rw [hau] at he; cases he
      | some x =>
        rw [hau] at he
        split_ifs at he with hm
        · cases he
          exact ⟨u, v, x, h3, h4, hm, hau, rfl⟩
    · rintro ⟨u, v, x, h3, h4, hm, hau, rfl⟩
      refine ⟨(u, v), (hmem _).2 ⟨h3, h4⟩, ?_⟩
      have hv : ValidWord N v := fun x hx => hw x (by rw [← h3]; simp [hx])
      simp only
      rw [stored_unit N m h1 v hv, if_neg h4, if_pos hm, hau]

theorem unit_pairs_left_any (b : List Nat → Option Fl) (m : Nat) (h1 : 1 ≤ N) (w : List Nat) (hw : ValidWord N w) :
    ∃ zs, storedPairs (stored N (unitVec m)) b w = zs ++ (match b w with | some x => [(.fin 1, x)] | none => []) ∧
      ∀ e, e ∈ zs ↔ ∃ u v x, u ++ v = w ∧ u ≠ [] ∧ wordIndex N u ≤ m ∧ b v = some x ∧ e = (.zero false, x) := by
  obtain ⟨l, hl, hne⟩ := splits_last w
  have hmem : ∀ uv, uv ∈ l ↔ uv.1 ++ uv.2 = w ∧ uv.1 ≠ [] := by
    intro uv
    constructor
    · intro h
      exact ⟨(splits_spec w uv.1 uv.2).1 (by rw [hl]; exact List.mem_append_left _ h), hne uv h⟩
    · rintro ⟨h, h'⟩
      have := (splits_spec w uv.1 uv.2).2 h
      rw [hl] at this
      rcases List.mem_append.1 this with h2 | h2
      · exact h2
      · exact absurd (congrArg Prod.fst (List.mem_singleton.1 h2)) h'
  refine ⟨l.filterMap fun uv => match stored N (unitVec m) uv.1, b uv.2 with
    | some x, some y => some (x, y)
    | _, _ => none, ?_, ?_⟩
  · unfold storedPairs
    rw [hl, List.filterMap_append]
    congr 1
    rw [List.filterMap_cons]
    rw [show stored N (unitVec m) [] = some (.fin 1) from rfl]
    cases b w <;> rfl
  · intro e
    rw [List.mem_filterMap]
    constructor
    · rintro ⟨⟨u, v⟩, huv, he⟩
      obtain ⟨h3, h4⟩ := (hmem _).1 huv
      simp only at h3 h4 he
      have hu : ValidWord N u := fun x hx => hw x (by rw [← h3]; simp [hx])
      rw [stored_unit N m h1 u hu, if_neg h4] at he
      cases hbv : b v with
      | none => rw [hbv] at he; split_ifs at he
      | some x =>
        rw [hbv] at he
        split_ifs at he with hm
        · cases he
          exact ⟨u, v, x, h3, h4, hm, hbv, rfl⟩
    · rintro ⟨u, v, x, h3, h4, hm, hbv, rfl⟩
      refine ⟨(u, v), (hmem _).2 ⟨h3, h4⟩, ?_⟩
      have hu : ValidWord N u := fun x hx => hw x (by rw [← h3]; simp [hx])
      simp only
      rw [stored_unit N m h1 u hu, if_neg h4, if_pos hm, hbv]

theorem mul_zero_nan (x : Fl) (h : x.isFin = false) : Fl.mul F x (.zero false) = .nan ∧ Fl.mul F (.zero false) x = .nan := by
  cases x <;> first | (cases h; done) | exact ⟨rfl, rfl⟩

/-- The words a padded unit stores. -/
theorem unit_index_iff {du m : Nat} (hu : FullTo N (unitVec m) du) (v : List Nat) (hv : ValidWord N v) : wordIndex N v ≤ m ↔ v.length ≤ du := by
  have hm : m + 1 = geomSum N (du + 1) := by
    rw [← hu.1]
    simp [unitVec, Dense.ofVec, Dense.size]
  obtain ⟨b1, b2⟩ := wordIndex_bounds hv
  constructor
  · intro h
    by_contra hc
    have := geomSum_mono (N := N) (show du + 1 ≤ v.length by omega)
    omega
  · intro h
    have := geomSum_mono (N := N) (show v.length + 1 ≤ du + 1 by omega)
    omega

theorem stored_fin_iff (a : Dense Fl) (u : List Nat) : (coef (floatCoeff F) N a u).isFin = false ↔ ∃ x, stored N a u = some x ∧ x.isFin = false := by
  unfold coef
  cases h : stored N a u with
  | none => simp [floatCoeff, Fl.isFin]
  | some x => simp

/-- C61, exactly when the product with a unit that stores all words up to length `du` compares equal at the word `w`: on the right of `a` when the coefficient
of `w` is a number and the coefficients of the proper prefixes of `w` that are at most `du` letters shorter are finite; on the left the same with
suffixes. -/
theorem C61_float_unit_right_iff_partial (hF : F = .f32 ∨ F = .f64) (h2 : 2 ≤ N) (a l r : Dense Fl) (m da du D : Nat) (ha : FullTo N a da)
    (hu : FullTo N (unitVec m) du) (hp : N ^ (min D (da + du) + 1) < 2 ^ 64) (hv : ∀ x ∈ a.data, x.Valid F)
    (hr : (DenseAlg.ops (floatCoeff F) p N).multiply a (unitVec m) (some D) = .ok r)
    (hl : (DenseAlg.ops (floatCoeff F) p N).multiply (unitVec m) a (some D) = .ok l) (w : List Nat) (hw : ValidWord N w) (hlen : w.length ≤ min D (da + du)) :
    ((floatCoeff F).eq (coef (floatCoeff F) N r w) (coef (floatCoeff F) N a w) = true ↔
      coef (floatCoeff F) N a w ≠ .nan ∧ ∀ u v, u ++ v = w → v ≠ [] → v.length ≤ du → (coef (floatCoeff F) N a u).isFin = true) ∧
    ((floatCoeff F).eq (coef (floatCoeff F) N l w) (coef (floatCoeff F) N a w) = true ↔
      coef (floatCoeff F) N a w ≠ .nan ∧ ∀ u v, u ++ v = w → u ≠ [] → u.length ≤ du → (coef (floatCoeff F) N a v).isFin = true) := by
  have hok := fmt_ok' hF
  have hst : ∀ u x, stored N a u = some x → x.Valid F := fun u x h => hv x (List.mem_of_getElem? h)
  have hcv : (coef (floatCoeff F) N a w).Valid F := by
    unfold coef
    cases h : stored N a w with
    | none => exact trivial
    | some x => exact hst w x h
  -- what is left when the padding contributes zeros only
  have fin : ∀ y c : Fl, y.Valid F → c.Valid F → (c.isFin = true → y.isFin = true ∧ y.val = c.val) → (∀ s, c = .inf s → y = .inf s) → c ≠ .nan →
      (floatCoeff F).eq y c = true := by
    intro y c hy hc h1 h2 h3
    by_cases hf : c.isFin = true
    · exact ((C50_eq F _ _).2 hy hc (h1 hf).1 hf).2 (h1 hf).2
    · cases c with
      | nan => exact absurd rfl h3
      | inf s => rw [h2 s rfl, C50_eq_iff]; exact ⟨by simp, by simp, .inl rfl⟩
      | zero s => exact absurd rfl hf
      | fin q => exact absurd rfl hf
  constructor
  · rw [(product_coef F p N h2 a (unitVec m) r da du D (ha.hasDegree h2) (hu.hasDegree h2) hp hr w hw hlen).1]
    obtain ⟨zs, e1, e2⟩ := unit_pairs_right_any N (stored N a) m (by omega) w hw
    rw [e1]
    constructor
    · intro h
      refine ⟨((C50_eq_iff F _ _).1 h).2.1, fun u v huv hne hdu => ?_⟩
      by_contra hc
      obtain ⟨x, hx, hxf⟩ := (stored_fin_iff F N a u).1 (by simpa using hc)
      have hvv : ValidWord N v := fun y hy => hw y (by rw [← huv]; simp [hy])
      refine ((C50_eq_iff F _ _).1 h).1 (flSum_nan F _ ⟨(x, .zero false), List.mem_append_right _ ((e2 _).2
        ⟨u, v, x, huv, hne, (unit_index_iff N hu v hvv).2 hdu, hx, rfl⟩), (mul_zero_nan F x hxf).1⟩)
    · rintro ⟨hn, hfin⟩
      have hz : ∀ e ∈ zs, e.1.isFin = true ∧ e.2.isFin = true ∧ (e.1.val = 0 ∨ e.2.val = 0) := by
        intro e he
        obtain ⟨u, v, x, huv, hne, hm, hx, rfl⟩ := (e2 e).1 he
        have hvv : ValidWord N v := fun y hy => hw y (by rw [← huv]; simp [hy])
        have := hfin u v huv hne ((unit_index_iff N hu v hvv).1 hm)
        unfold coef at this
        rw [hx] at this
        exact ⟨this, rfl, .inr rfl⟩
      refine fin _ _ (flSum_valid F hok _) hcv ?_ ?_ hn
      · unfold coef
        cases h : stored N a w with
        | none =>
          intro _
          exact flSum_zeros F hok [] zs rfl hz
        | some x =>
          simp only [Option.getD_some]
          intro hf
          have h1 := add_zero_val F hok x (.zero false) hf (hst w x h) rfl rfl
          rw [← (flSum_single F hF x (hst w x h)).1] at h1
          obtain ⟨z1, z2⟩ := flSum_zeros F hok _ zs h1.1 hz
          exact ⟨z1, z2.trans h1.2⟩
      · unfold coef
        cases h : stored N a w with
        | none => intro s hs; cases hs
        | some x =>
          simp only [Option.getD_some]
          rintro s rfl
          refine flSum_inf F hok _ zs s ?_ hz
          rw [(flSum_single F hF _ (hst w _ h)).1]
          rfl
  · rw [(product_coef F p N h2 (unitVec m) a l du da D (hu.hasDegree h2) (ha.hasDegree h2) (by rwa [Nat.add_comm du da]) hl w hw (by omega)).1]
    obtain ⟨zs, e1, e2⟩ := unit_pairs_left_any N (stored N a) m (by omega) w hw
    rw [e1]
    constructor
    · intro h
      refine ⟨((C50_eq_iff F _ _).1 h).2.1, fun u v huv hne hdu => ?_⟩
      by_contra hc
      obtain ⟨x, hx, hxf⟩ := (stored_fin_iff F N a v).1 (by simpa using hc)
      have huu : ValidWord N u := fun y hy => hw y (by rw [← huv]; simp [hy])
      refine ((C50_eq_iff F _ _).1 h).1 (flSum_nan F _ ⟨(.zero false, x), List.mem_append_left _ ((e2 _).2
        ⟨u, v, x, huv, hne, (unit_index_iff N hu u huu).2 hdu, hx, rfl⟩), (mul_zero_nan F x hxf).2⟩)
    · rintro ⟨hn, hfin⟩
      have hz : ∀ e ∈ zs, e.1.isFin = true ∧ e.2.isFin = true ∧ (e.1.val = 0 ∨ e.2.val = 0) := by
        intro e he
        obtain ⟨u, v, x, huv, hne, hm, hx, rfl⟩ := (e2 e).1 he
        have huu : ValidWord N u := fun y hy => hw y (by rw [← huv]; simp [hy])
        have := hfin u v huv hne ((unit_index_iff N hu u huu).1 hm)
        unfold coef at this
        rw [hx] at this
        exact ⟨rfl, this, .inl rfl⟩
      obtain ⟨z1, z2⟩ := flSum_zeros F hok [] zs rfl hz
      rw [List.nil_append] at z1 z2
      refine fin _ _ (flSum_valid F hok _) hcv ?_ ?_ hn
      · unfold coef
        cases h : stored N a w with
        | none =>
          intro _
          simp only [List.append_nil]
          exact ⟨z1, z2⟩
        | some x =>
          simp only [Option.getD_some]
          intro hf
          rw [flSum_snoc]
          rw [show Fl.mul F (Fl.fin 1, x).1 (Fl.fin 1, x).2 = x from ((C50_commutative F _ _).2).trans (C50_neutral F hF x (hst w x h)).1,
            show Fl.add F (flSum F zs) x = Fl.add F x (flSum F zs) from (C50_commutative F _ _).1]
          exact add_zero_val F hok x _ hf (hst w x h) z1 z2
      · unfold coef
        cases h : stored N a w with
        | none => intro s hs; cases hs
        | some x =>
          simp only [Option.getD_some]
          rintro s rfl
          rw [flSum_snoc]
          rw [show Fl.mul F (Fl.fin 1, Fl.inf s).1 (Fl.fin 1, Fl.inf s).2 = .inf s from
            ((C50_commutative F _ _).2).trans (C50_neutral F hF _ (hst w _ h)).1]
          exact (add_inf_fin F s _ z1).2

/-- An infinite constant term spoils the words of one letter when the unit stores them, and only these when longer words are not stored. -/
example : ∃ r l, (DenseAlg.ops (floatCoeff .f64) .release 2).multiply (.ofVec [.inf true, .fin 1, .zero true]) (unitVec 2) (some 2) = .ok r ∧
    (DenseAlg.ops (floatCoeff .f64) .release 2).multiply (unitVec 2) (.ofVec [.inf true, .fin 1, .zero true]) (some 2) = .ok l ∧
    (floatCoeff .f64).eq (coef (floatCoeff .f64) 2 r [1]) (.fin 1) = false ∧ (floatCoeff .f64).eq (coef (floatCoeff .f64) 2 r []) (.inf true) = true ∧
    (floatCoeff .f64).eq (coef (floatCoeff .f64) 2 l [1, 2]) (.zero false) = true := by
  have ha : FullTo 2 (.ofVec [Fl.inf true, .fin 1, .zero true]) 1 := ⟨rfl, by decide⟩
  have hu : FullTo 2 (unitVec 2) 1 := ⟨rfl, by decide⟩
  obtain ⟨r, hr, _⟩ := C33_multiply (floatCoeff .f64) .release 2 (by omega) _ _ 1 1 2 (ha.hasDegree (by omega)) (hu.hasDegree (by omega)) (by decide) (by decide)
    ⟨by decide, by decide⟩
  obtain ⟨l, hl, _⟩ := C33_multiply (floatCoeff .f64) .release 2 (by omega) _ _ 1 1 2 (hu.hasDegree (by omega)) (ha.hasDegree (by omega)) (by decide) (by decide)
    ⟨by decide, by decide⟩
  have hv : ∀ x ∈ (Dense.ofVec [Fl.inf true, .fin 1, .zero true]).data, x.Valid .f64 := by
    intro x hx
    simp only [Dense.ofVec, List.mem_cons, List.not_mem_nil, or_false] at hx
    rcases hx with rfl | rfl | rfl
    · trivial
    · exact fin_one_valid .f64 (.inr rfl)
    · trivial
  have key := fun w => C61_float_unit_right_iff_partial .f64 .release 2 (.inr rfl) (by omega) _ l r 2 1 1 2 ha hu (by decide) hv hr hl w
  refine ⟨r, l, hr, hl, ?_, ?_, ?_⟩
  · rw [Bool.eq_false_iff]
    intro h
    cases ((key [1] (by decide) (by decide)).1.1 h).2 [] [1] rfl (by decide) (by decide)
  · refine (key [] (by decide) (by decide)).1.2 ⟨nofun, fun u v huv hne => absurd (List.append_eq_nil_iff.1 huv).2 hne⟩
  · refine (key [1, 2] (by decide) (by decide)).2.2 ⟨nofun, fun u v huv hne hu => ?_⟩
    match u, hne, hu with
    | [x], _, _ =>
      cases huv
      rfl

/-! ## C62 -/

/-- C62, exactly when the sum of two dense vectors does not depend on their order, bit for bit: when the longer vector has no negative zero behind the end of
the shorter one. -/
theorem C62_add_comm_iff_partial (hF : F = .f32 ∨ F = .f64) {K : Type} (B : Basis K) (a b : Dense Fl)
    (ha : ∀ x ∈ a.data, x.Valid F) (hb : ∀ x ∈ b.data, x.Valid F) :
    ∃ r r', (Dense.ops (floatCoeff F) B).add a b = .ok r ∧ (Dense.ops (floatCoeff F) B).add b a = .ok r' ∧
      (r.data = r'.data ↔ ∀ i, (b.size ≤ i → a.data[i]? ≠ some (.zero true)) ∧ (a.size ≤ i → b.data[i]? ≠ some (.zero true))) := by
  obtain ⟨r, h1, h2⟩ := Dense.addInplace_data (floatCoeff F) (Dense.ofVec a.data) b
  obtain ⟨r', h1', h2'⟩ := Dense.addInplace_data (floatCoeff F) (Dense.ofVec b.data) a
  refine ⟨r, r', h1, h1', ?_⟩
  have hz : ∀ x : Fl, x.Valid F → (Fl.add F (.zero false) x = x ↔ x ≠ .zero true) := by
    intro x hx
    rw [show Fl.add F (.zero false) x = Fl.add F x (.zero false) from (C50_commutative F _ _).1]
    constructor
    · rintro h rfl
      cases h
    · exact (C50_neutral F hF x hx).2.2.1
  have key : ∀ i, r.data[i]? = r'.data[i]? ↔ (b.size ≤ i → a.data[i]? ≠ some (.zero true)) ∧ (a.size ≤ i → b.data[i]? ≠ some (.zero true)) := by
    intro i
    have hsa : a.size ≤ i ↔ a.data[i]? = none := by rw [List.getElem?_eq_none_iff]; rfl
    have hsb : b.size ≤ i ↔ b.data[i]? = none := by rw [List.getElem?_eq_none_iff]; rfl
    rw [hsa, hsb, h2, h2', Dense.combine_getElem?, Dense.combine_getElem?, Dense.ofVec_data, Dense.ofVec_data]
    cases h3 : a.data[i]? with
    | none =>
      cases h4 : b.data[i]? with
      | none => simp
      | some v =>
        have := hz v (hb _ (List.mem_of_getElem? h4))
        refine ⟨fun h => ⟨nofun, fun _ h' => this.1 (Option.some.inj h) (Option.some.inj h')⟩, fun h => ?_⟩
        exact congrArg some (this.2 fun h' => h.2 rfl (congrArg some h'))
    | some u =>
      cases h4 : b.data[i]? with
      | none =>
        have := hz u (ha _ (List.mem_of_getElem? h3))
        refine ⟨fun h => ⟨fun _ h' => this.1 (Option.some.inj h).symm (Option.some.inj h'), nofun⟩, fun h => ?_⟩
        exact congrArg some (this.2 fun h' => h.1 rfl (congrArg some h')).symm
      | some v => exact ⟨fun _ => ⟨nofun, nofun⟩, fun _ => congrArg some (C50_commutative F _ _).1⟩
  constructor
  · intro h i
    exact (key i).1 (by rw [h])
  · intro h
    exact List.ext_getElem? fun i => (key i).2 (h i)

example : ∃ r r', (Dense.ops (floatCoeff .f64) integerBasis).add (.ofVec [.zero true, .nan]) (.ofVec [.inf false]) = .ok r ∧
    (Dense.ops (floatCoeff .f64) integerBasis).add (.ofVec [.inf false]) (.ofVec [.zero true, .nan]) = .ok r' ∧ r.data = r'.data := by
  obtain ⟨r, r', h1, h2, h3⟩ := C62_add_comm_iff_partial .f64 (.inr rfl) integerBasis (.ofVec [.zero true, .nan]) (.ofVec [.inf false])
    (by intro x hx; simp only [Dense.ofVec, List.mem_cons, List.not_mem_nil, or_false] at hx; rcases hx with rfl | rfl <;> trivial)
    (by intro x hx; simp only [Dense.ofVec, List.mem_cons, List.not_mem_nil, or_false] at hx; subst hx; trivial)
  refine ⟨r, r', h1, h2, h3.2 fun i => ⟨fun hi => ?_, fun hi => ?_⟩⟩
  · match i, hi with
    | 1, _ => nofun
    | i + 2, _ => nofun
  · match i, hi with
    | i + 2, _ => nofun

end
end RA
