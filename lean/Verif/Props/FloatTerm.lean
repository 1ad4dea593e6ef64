import Verif.Props.FloatScale
import Verif.Props.Product

/-!
# Floating-point products of words and of sparse tensors (C86)
-/

namespace RA
open Spec TensorKey TensorBasis DenseAlg Fl

/-- The value with the sign of a zero forgotten. -/
def Fl.unsigned (x : Fl) : Fl := if x = .zero true then .zero false else x

section
variable (F : FloatFmt)

theorem add_zero_unsigned (hF : F = .f32 ∨ F = .f64) (x : Fl) (hx : x.Valid F) (s : Bool) (hs : x ≠ .zero true) : Fl.add F x (.zero s) = x := by
  cases s with
  | false => exact (C50_neutral F hF x hx).2.2.1 hs
  | true => exact (C50_neutral F hF x hx).2.2.2.1

theorem zero_add_unsigned (hF : F = .f32 ∨ F = .f64) (x : Fl) (hx : x.Valid F) : Fl.add F (.zero false) x = Fl.unsigned x := by
  rw [show Fl.add F (.zero false) x = Fl.add F x (.zero false) from (C50_commutative F _ _).1]
  unfold Fl.unsigned
  split_ifs with h
  · subst h; rfl
  · exact add_zero_unsigned F hF x hx false h

theorem unsigned_ne (x : Fl) : Fl.unsigned x ≠ .zero true := by
  unfold Fl.unsigned
  split_ifs with h
  · nofun
  · exact h

theorem unsigned_valid (x : Fl) (hx : x.Valid F) : (Fl.unsigned x).Valid F := by
  unfold Fl.unsigned
  split_ifs
  · trivial
  · exact hx

/-- A product one of whose factors is zero and whose other factor is finite. -/
theorem mul_zero_fin (x y : Fl) (hx : x.isFin = true) (hy : y.isFin = true) (h : x.val = 0 ∨ y.val = 0) : ∃ s, Fl.mul F x y = .zero s := by
  rw [mul_round F x y hx hy, show x.val * y.val = 0 by rcases h with h | h <;> rw [h] <;> ring]
  unfold Fl.round
  rw [if_pos rfl]
  exact ⟨_, rfl⟩

theorem foldl_zeros (hF : F = .f32 ∨ F = .f64) (l : List Fl) (hl : ∀ x ∈ l, ∃ s, x = .zero s) (x : Fl) (hx : x.Valid F) (hs : x ≠ .zero true) :
    l.foldl (Fl.add F) x = x := by
  induction l with
  | nil => rfl
  | cons y l ih =>
    obtain ⟨s, rfl⟩ := hl y (by simp)
    rw [List.foldl_cons, add_zero_unsigned F hF x hx s hs]
    exact ih fun z hz => hl z (by simp [hz])

theorem splits_nodup (w : List Nat) : (splits w).Nodup := by
  unfold splits
  rw [List.nodup_map_iff_inj_on (List.nodup_reverse.2 List.nodup_range)]
  intro i hi j hj h
  simp only [List.mem_reverse, List.mem_range] at hi hj
  have := congrArg (fun e : List Nat × List Nat => e.1.length) h
  simp only [List.length_take] at this
  omega

variable (p : Profile) (N : Nat)

/-- C86.  If all but one of the terms `a_u b_v` of a coefficient vanish, the coefficient is the remaining product, rounded once: adding the others changes
nothing, except that a zero has no sign. -/
theorem C86_single_term (hF : F = .f32 ∨ F = .f64) (h2 : 2 ≤ N) (a b r : Dense Fl) (da db D : Nat) (ha : HasDegree N a da) (hb : HasDegree N b db)
    (hp : N ^ (min D (da + db) + 1) < 2 ^ 64) (hr : (DenseAlg.ops (floatCoeff F) p N).multiply a b (some D) = .ok r) (u v : List Nat)
    (hw : ValidWord N (u ++ v)) (hl : u.length + v.length ≤ min D (da + db)) (x y : Fl) (hx : stored N a u = some x) (hy : stored N b v = some y)
    (hz : ∀ u' v' x' y', u' ++ v' = u ++ v → u' ≠ u → stored N a u' = some x' → stored N b v' = some y' →
      x'.isFin = true ∧ y'.isFin = true ∧ (x'.val = 0 ∨ y'.val = 0)) :
    coef (floatCoeff F) N r (u ++ v) = Fl.unsigned (Fl.mul F x y) := by
  rw [(product_coef F p N h2 a b r da db D ha hb hp hr (u ++ v) hw (by rw [List.length_append]; exact hl)).1]
  obtain ⟨l1, l2, hs⟩ := List.append_of_mem ((splits_spec (u ++ v) u v).2 rfl)
  have hnd := splits_nodup (u ++ v)
  rw [hs] at hnd
  have hmem : ∀ e ∈ l1 ++ l2, e.1 ++ e.2 = u ++ v := by
    intro e he
    refine (splits_spec _ _ _).1 ?_
    rw [hs]
    rcases List.mem_append.1 he with h | h
    · exact List.mem_append_left _ h
    · exact List.mem_append_right _ (List.mem_cons_of_mem _ h)
  have hne : ∀ e ∈ l1 ++ l2, e.1 ≠ u := by
    intro e he h1
    have h2 : e = (u, v) := by
      have := hmem e he
      rw [h1] at this
      exact Prod.ext h1 (List.append_cancel_left this)
    have := (List.nodup_middle.1 hnd)
    rw [List.nodup_cons] at this
    exact this.1 (h2 ▸ he)
  let g : List Nat × List Nat → Option (Fl × Fl) := fun uv => match stored N a uv.1, stored N b uv.2 with
    | some x, some y => some (x, y)
    | _, _ => none
  have hzero : ∀ l : List (List Nat × List Nat), (∀ e ∈ l, e ∈ l1 ++ l2) → ∀ z ∈ (l.filterMap g).map (fun e => Fl.mul F e.1 e.2), ∃ s, z = Fl.zero s := by
    intro l hsub z hzm
    obtain ⟨e, he, rfl⟩ := List.mem_map.1 hzm
    obtain ⟨⟨u', v'⟩, huv, hg⟩ := List.mem_filterMap.1 he
    have m := hsub _ huv
    simp only [g] at hg
    cases h1 : stored N a u' with
    | none => rw [h1] at hg; cases hg
    | some x' =>
      cases h3 : stored N b v' with
      | none => rw [h1, h3] at hg; cases hg
      | some y' =>
        rw [h1, h3] at hg
        cases hg
        obtain ⟨f1, f2, f3⟩ := hz u' v' x' y' (hmem _ m) (hne _ m) h1 h3
        exact mul_zero_fin F x' y' f1 f2 f3
  have hpairs : storedPairs (stored N a) (stored N b) (u ++ v) = l1.filterMap g ++ (x, y) :: l2.filterMap g := by
    unfold storedPairs
    rw [hs, List.filterMap_append, List.filterMap_cons]
    simp only [hx, hy]
    rfl
  have hv := mul_valid F (fmt_ok' hF) x y
  unfold flSum
  rw [hpairs, List.map_append, List.map_cons, List.foldl_append, List.foldl_cons,
    foldl_zeros F hF _ (hzero l1 fun e he => List.mem_append_left _ he) (.zero false) trivial nofun, zero_add_unsigned F hF _ hv]
  exact foldl_zeros F hF _ (hzero l2 fun e he => List.mem_append_right _ he) _ (unsigned_valid F _ hv) (unsigned_ne _)

/-- C86.  If all terms of a coefficient vanish, it is `+0`. -/
theorem C86_no_term (hF : F = .f32 ∨ F = .f64) (h2 : 2 ≤ N) (a b r : Dense Fl) (da db D : Nat) (ha : HasDegree N a da) (hb : HasDegree N b db)
    (hp : N ^ (min D (da + db) + 1) < 2 ^ 64) (hr : (DenseAlg.ops (floatCoeff F) p N).multiply a b (some D) = .ok r) (w : List Nat) (hw : ValidWord N w)
    (hz : ∀ u v x y, u ++ v = w → stored N a u = some x → stored N b v = some y → x.isFin = true ∧ y.isFin = true ∧ (x.val = 0 ∨ y.val = 0)) :
    coef (floatCoeff F) N r w = .zero false := by
  by_cases hl : w.length ≤ min D (da + db)
  · rw [(product_coef F p N h2 a b r da db D ha hb hp hr w hw hl).1]
    refine foldl_zeros F hF _ (fun z hzm => ?_) _ trivial nofun
    obtain ⟨e, he, rfl⟩ := List.mem_map.1 hzm
    obtain ⟨⟨u, v⟩, huv, hg⟩ := List.mem_filterMap.1 he
    simp only at hg
    cases h1 : stored N a u with
    | none => rw [h1] at hg; cases hg
    | some x =>
      cases h3 : stored N b v with
      | none => rw [h1, h3] at hg; cases hg
      | some y =>
        rw [h1, h3] at hg
        cases hg
        obtain ⟨f1, f2, f3⟩ := hz u v x y ((splits_spec _ _ _).1 huv) h1 h3
        exact mul_zero_fin F x y f1 f2 f3
  · unfold coef
    rw [(C33_multiply_returns (floatCoeff F) p N h2 a b r da db D ha hb hp hr).2 w hw, if_neg hl]
    rfl

theorem stored_of_coef {a : Dense Fl} {u : List Nat} {x : Fl} (h : stored N a u = some x) : coef (floatCoeff F) N a u = x := by
  unfold coef
  rw [h]
  rfl

theorem full_stored {a : Dense Fl} {da : Nat} (ha : FullTo N a da) {u : List Nat} (hu : ValidWord N u) (hl : u.length ≤ da) :
    stored N a u = some (coef (floatCoeff F) N a u) := by
  unfold coef
  have : wordIndex N u < a.data.length := by
    have e : a.data.length = geomSum N (da + 1) := ha.1
    rw [e]
    exact (wordIndex_bounds hu).2.trans_le (geomSum_mono (by omega))
  unfold stored
  rw [List.getElem?_eq_getElem this]
  rfl

/-- C86.  The product of two words with finite coefficients is the concatenated word with the rounded product of the coefficients, bitwise. -/
theorem C86_word_product (hF : F = .f32 ∨ F = .f64) (h2 : 2 ≤ N) (hN : N < 2 ^ 31) (u v : List Nat) (hu : ValidWord N u) (hv : ValidWord N v)
    (h1 : 1 ≤ u.length + v.length) (hl : u.length + v.length ≤ maxDepth N) (hp : N ^ (u.length + v.length + 1) < 2 ^ 64)
    (D : Nat) (hD : u.length + v.length ≤ D) (s t : Fl) (hs : s.isFin = true) (ht : t.isFin = true) (ku kv : TensorKey)
    (hku : fromLetters p N u = .ok ku) (hkv : fromLetters p N v = .ok kv) :
    ∃ a b k r c, (DenseAlg.ops (floatCoeff F) p N).fromKeyScalar ku s = .ok a ∧ (DenseAlg.ops (floatCoeff F) p N).fromKeyScalar kv t = .ok b ∧
      concatenate p N ku kv = .ok k ∧ (DenseAlg.ops (floatCoeff F) p N).multiply a b (some D) = .ok r ∧
      (DenseAlg.ops (floatCoeff F) p N).fromKeyScalar k (Fl.unsigned (Fl.mul F s t)) = .ok c ∧ r.data = c.data := by
  obtain ⟨k, hk, hk', _⟩ := C05_concatenate p N (by omega) (by omega) u v hu hv (by simpa using hl) (Or.inl hN) ku kv hku hkv
  obtain ⟨a, a1, a2, a3⟩ := fromKeyScalar_word (floatCoeff F) p N h2 (by omega) u hu (by omega) (pow_lt64_mono h2 (by omega) hp) s
  obtain ⟨b, b1, b2, b3⟩ := fromKeyScalar_word (floatCoeff F) p N h2 (by omega) v hv (by omega) (pow_lt64_mono h2 (by omega) hp) t
  obtain ⟨c, c1, c2, c3⟩ := fromKeyScalar_word (floatCoeff F) p N h2 (by omega) (u ++ v) (ValidWord.append.2 ⟨hu, hv⟩) (by simpa using hl) (by simpa using hp)
    (Fl.unsigned (Fl.mul F s t))
  rw [hku, Res.bind_ok] at a1
  rw [hkv, Res.bind_ok] at b1
  rw [hk', Res.bind_ok] at c1
  have hmin : min D (u.length + v.length) = u.length + v.length := Nat.min_eq_right hD
  obtain ⟨r, r1, r2, _⟩ := C33_multiply (floatCoeff F) p N h2 a b _ _ D (a2.hasDegree h2) (b2.hasDegree h2) (by omega) (by rw [hmin]; exact hp)
    ⟨by rw [a2.1]; exact geomSum_mono (by omega), by rw [b2.1]; exact geomSum_mono (by omega)⟩
  refine ⟨a, b, k, r, c, a1, b1, hk, r1, c1, data_ext_coef (floatCoeff F) (N := N) (by omega) ?_ fun w hw => ?_⟩
  · rw [r2.1, c2.1, hmin, List.length_append]
  · have fin : ∀ u' v' x' y', ValidWord N u' → ValidWord N v' → stored N a u' = some x' → stored N b v' = some y' → (u' ≠ u ∨ v' ≠ v) →
        x'.isFin = true ∧ y'.isFin = true ∧ (x'.val = 0 ∨ y'.val = 0) := by
      intro u' v' x' y' hu' hv' hx' hy' hne
      have e1 := a3 u' hu'
      have e2 := b3 v' hv'
      rw [stored_of_coef F N hx'] at e1
      rw [stored_of_coef F N hy'] at e2
      rw [e1, e2]
      by_cases q1 : u' = u
      · have q2 : v' ≠ v := hne.resolve_left (fun h => h q1)
        rw [if_pos q1, if_neg q2]
        exact ⟨hs, rfl, .inr rfl⟩
      · rw [if_neg q1]
        refine ⟨rfl, ?_, .inl rfl⟩
        split_ifs
        · exact ht
        · rfl
    have valid : ∀ u' v', u' ++ v' = w → ValidWord N u' ∧ ValidWord N v' := fun u' v' h => ValidWord.append.1 (h ▸ hw)
    rw [c3 w hw]
    split_ifs with hwe
    · subst hwe
      have := C86_single_term F p N hF h2 a b r _ _ D (a2.hasDegree h2) (b2.hasDegree h2) (by rw [hmin]; exact hp) r1 u v hw (by rw [hmin]) _ _
        (full_stored F N a2 hu le_rfl) (full_stored F N b2 hv le_rfl)
        (fun u' v' x' y' he hne hx' hy' => fin u' v' x' y' (valid u' v' he).1 (valid u' v' he).2 hx' hy' (.inl hne))
      rw [this, a3 u hu, b3 v hv, if_pos rfl, if_pos rfl]
    · refine C86_no_term F p N hF h2 a b r _ _ D (a2.hasDegree h2) (b2.hasDegree h2) (by rw [hmin]; exact hp) r1 w hw (fun u' v' x' y' he hx' hy' =>
        fin u' v' x' y' (valid u' v' he).1 (valid u' v' he).2 hx' hy' ?_)
      by_contra hc
      push Not at hc
      exact hwe (by rw [← he, hc.1, hc.2])

/-- C86.  Multiplying by a word shifts the coefficients of a finite tensor, exactly: `(1 u) b` has at `u v` the coefficient of `b` at `v`, bit for bit up to
the sign of a zero, and `+0` at all words that do not begin with `u`; multiplying on the right shifts to the words that end in `u`. -/
theorem C86_shift (hF : F = .f32 ∨ F = .f64) (h2 : 2 ≤ N) (hN : N < 2 ^ 32) (u : List Nat) (hu : ValidWord N u) (hul : u.length ≤ maxDepth N)
    (b : Dense Fl) (db D : Nat) (hb : FullTo N b db) (hbv : ∀ x ∈ b.data, x.Valid F ∧ x.isFin = true) (h1 : 1 ≤ min D (u.length + db))
    (hpu : N ^ (u.length + 1) < 2 ^ 64) (hp : N ^ (min D (u.length + db) + 1) < 2 ^ 64) (ku : TensorKey) (hku : fromLetters p N u = .ok ku) :
    ∃ a l r, (DenseAlg.ops (floatCoeff F) p N).fromKey ku = .ok a ∧ (DenseAlg.ops (floatCoeff F) p N).multiply a b (some D) = .ok l ∧
      (DenseAlg.ops (floatCoeff F) p N).multiply b a (some D) = .ok r ∧
      (∀ v, ValidWord N v → v.length ≤ db → u.length + v.length ≤ D → coef (floatCoeff F) N l (u ++ v) = Fl.unsigned (coef (floatCoeff F) N b v) ∧
        coef (floatCoeff F) N r (v ++ u) = Fl.unsigned (coef (floatCoeff F) N b v)) ∧
      (∀ w, ValidWord N w → (∀ v, w ≠ u ++ v) → coef (floatCoeff F) N l w = .zero false) ∧
      (∀ w, ValidWord N w → (∀ v, w ≠ v ++ u) → coef (floatCoeff F) N r w = .zero false) := by
  obtain ⟨a, a1, a2, a3⟩ := fromKeyScalar_word (floatCoeff F) p N h2 hN u hu hul hpu Fl.one
  rw [hku, Res.bind_ok] at a1
  have hcomm : min D (db + u.length) = min D (u.length + db) := by rw [Nat.add_comm]
  obtain ⟨l, l1, l2, _⟩ := C33_multiply (floatCoeff F) p N h2 a b _ _ D (a2.hasDegree h2) (hb.hasDegree h2) h1 hp
    ⟨by rw [a2.1]; exact geomSum_mono (by omega), by rw [hb.1]; exact geomSum_mono (by omega)⟩
  obtain ⟨r, r1, r2, _⟩ := C33_multiply (floatCoeff F) p N h2 b a _ _ D (hb.hasDegree h2) (a2.hasDegree h2) (hcomm ▸ h1) (by rw [hcomm]; exact hp)
    ⟨by rw [hb.1]; exact geomSum_mono (by omega), by rw [a2.1]; exact geomSum_mono (by omega)⟩
  have za : ∀ u' x', ValidWord N u' → u' ≠ u → stored N a u' = some x' → x' = .zero false := by
    intro u' x' hu' hne hx'
    have := a3 u' hu'
    rw [stored_of_coef F N hx', if_neg hne] at this
    exact this
  have fb : ∀ v' y', stored N b v' = some y' → y'.Valid F ∧ y'.isFin = true := fun v' y' h => hbv y' (List.mem_of_getElem? h)
  have sa := full_stored F N a2 hu le_rfl
  rw [a3 u hu, if_pos rfl] at sa
  have m1 : ∀ x : Fl, x.Valid F → Fl.mul F x Fl.one = x ∧ Fl.mul F Fl.one x = x := fun x hx =>
    ⟨(C50_neutral F hF x hx).1, ((C50_commutative F _ _).2).trans (C50_neutral F hF x hx).1⟩
  refine ⟨a, l, r, a1, l1, r1, fun v hv hvl hvD => ⟨?_, ?_⟩, fun w hw hne => ?_, fun w hw hne => ?_⟩
  · have sb := full_stored F N hb hv hvl
    have hwv : ValidWord N (u ++ v) := ValidWord.append.2 ⟨hu, hv⟩
    rw [C86_single_term F p N hF h2 a b l _ _ D (a2.hasDegree h2) (hb.hasDegree h2) hp l1 u v hwv (by omega) _ _ sa sb
      (fun u' v' x' y' he hne hx' hy' => by
        rw [za u' x' (ValidWord.append.1 (he ▸ hwv)).1 hne hx']
        exact ⟨rfl, (fb v' y' hy').2, .inl rfl⟩), (m1 _ (fb v _ sb).1).2]
  · have sb := full_stored F N hb hv hvl
    have hwv : ValidWord N (v ++ u) := ValidWord.append.2 ⟨hv, hu⟩
    rw [C86_single_term F p N hF h2 b a r _ _ D (hb.hasDegree h2) (a2.hasDegree h2) (by rw [hcomm]; exact hp) r1 v u hwv (by omega) _ _ sb sa
      (fun v' u' y' x' he hne hy' hx' => by
        rw [za u' x' (ValidWord.append.1 (he ▸ hwv)).2 (fun h => hne (by rw [h] at he; exact List.append_cancel_right he)) hx']
        exact ⟨(fb v' y' hy').2, rfl, .inr rfl⟩), (m1 _ (fb v _ sb).1).1]
  · refine C86_no_term F p N hF h2 a b l _ _ D (a2.hasDegree h2) (hb.hasDegree h2) hp l1 w hw (fun u' v' x' y' he hx' hy' => ?_)
    rw [za u' x' (ValidWord.append.1 (he ▸ hw)).1 (fun h => hne v' (by rw [← he, h])) hx']
    exact ⟨rfl, (fb v' y' hy').2, .inl rfl⟩
  · refine C86_no_term F p N hF h2 b a r _ _ D (hb.hasDegree h2) (a2.hasDegree h2) (by rw [hcomm]; exact hp) r1 w hw (fun v' u' y' x' he hy' hx' => ?_)
    rw [za u' x' (ValidWord.append.1 (he ▸ hw)).2 (fun h => hne v' (by rw [← he, h])) hx']
    exact ⟨(fb v' y' hy').2, rfl, .inr rfl⟩

/-- C86.  The product is graded in floating point too: if the finite tensors `a` and `b` vanish outside degrees `la..ua` and `lb..ub`, the coefficients of the
product outside degrees `la + lb .. ua + ub` are `+0`. -/
theorem C86_grading (hF : F = .f32 ∨ F = .f64) (h2 : 2 ≤ N) (a b r : Dense Fl) (da db D : Nat) (ha : HasDegree N a da) (hb : HasDegree N b db)
    (hp : N ^ (min D (da + db) + 1) < 2 ^ 64) (hr : (DenseAlg.ops (floatCoeff F) p N).multiply a b (some D) = .ok r)
    (hav : ∀ x ∈ a.data, x.isFin = true) (hbv : ∀ x ∈ b.data, x.isFin = true) (la ua lb ub : Nat)
    (hla : ∀ w, ValidWord N w → w.length < la ∨ ua < w.length → (coef (floatCoeff F) N a w).val = 0)
    (hlb : ∀ w, ValidWord N w → w.length < lb ∨ ub < w.length → (coef (floatCoeff F) N b w).val = 0) (w : List Nat) (hw : ValidWord N w)
    (h : w.length < la + lb ∨ ua + ub < w.length) : coef (floatCoeff F) N r w = .zero false := by
  refine C86_no_term F p N hF h2 a b r da db D ha hb hp hr w hw (fun u v x y he hx hy => ?_)
  obtain ⟨hu, hv⟩ := ValidWord.append.1 (he ▸ hw)
  have hlen : u.length + v.length = w.length := by rw [← he, List.length_append]
  have e1 := hla u hu
  have e2 := hlb v hv
  rw [stored_of_coef F N hx] at e1
  rw [stored_of_coef F N hy] at e2
  refine ⟨hav x (List.mem_of_getElem? hx), hbv y (List.mem_of_getElem? hy), ?_⟩
  by_cases q : u.length < la ∨ ua < u.length
  · exact .inl (e1 q)
  · exact .inr (e2 (by omega))

end

/-! ## Cases -/

/-- `(3 e1 + 5 e2) (e1 / 2 - 7 e2)` has a single term at each word of length two. -/
example (p : Profile) : ∃ r, (DenseAlg.ops (floatCoeff .f32) p 2).multiply scA scB (some 2) = .ok r ∧ coef (floatCoeff .f32) 2 r [2, 1] = .fin (5 / 2) := by
  obtain ⟨r, hr⟩ := sc_product .f32 p
  refine ⟨r, hr, ?_⟩
  have := C86_single_term .f32 p 2 (.inl rfl) (by omega) scA scB r 1 1 2 ⟨by decide, by decide⟩ ⟨by decide, by decide⟩ (by decide) hr [2] [1] (by decide) (by decide)
    (.fin 5) (.fin (1 / 2)) rfl rfl (by
      intro u v x y he hne hx hy
      have hs : (u, v) ∈ splits [2, 1] := (splits_spec _ _ _).2 he
      have hs' : splits [2, 1] = [([2, 1], []), ([2], [1]), ([], [2, 1])] := by decide
      rw [hs'] at hs
      simp only [List.mem_cons, List.not_mem_nil, or_false, Prod.mk.injEq] at hs
      rcases hs with ⟨rfl, rfl⟩ | ⟨rfl, rfl⟩ | ⟨rfl, rfl⟩
      · cases hx
      · exact absurd rfl hne
      · cases hy)
  rw [show [2, 1] = [2] ++ [1] from rfl, this]
  decide +kernel

/-- `(5 e2) (-1/8 e3 e1)` -/
example (p : Profile) : ∃ a b k r c, (DenseAlg.ops (floatCoeff .f64) p 3).fromKeyScalar (keyOf 3 [2]) (.fin 5) = .ok a ∧
    (DenseAlg.ops (floatCoeff .f64) p 3).fromKeyScalar (keyOf 3 [3, 1]) (.fin (-1 / 8)) = .ok b ∧
    concatenate p 3 (keyOf 3 [2]) (keyOf 3 [3, 1]) = .ok k ∧ (DenseAlg.ops (floatCoeff .f64) p 3).multiply a b (some 4) = .ok r ∧
    (DenseAlg.ops (floatCoeff .f64) p 3).fromKeyScalar k (Fl.unsigned (Fl.mul .f64 (.fin 5) (.fin (-1 / 8)))) = .ok c ∧ r.data = c.data :=
  C86_word_product .f64 p 3 (.inr rfl) (by omega) (by omega) [2] [3, 1] (by decide) (by decide) (by decide) (by decide +kernel) (by decide)
    4 (by decide) _ _ rfl rfl _ _ (fromLetters_ok _ _ (by omega) (by omega) _ (by decide) (by decide +kernel))
    (fromLetters_ok _ _ (by omega) (by omega) _ (by decide) (by decide +kernel))

/-- `e2 (e1 / 2 - 7 e2)` and `(e1 / 2 - 7 e2) e2` -/
example (p : Profile) : ∃ a l r, (DenseAlg.ops (floatCoeff .f32) p 2).fromKey (keyOf 2 [2]) = .ok a ∧ (DenseAlg.ops (floatCoeff .f32) p 2).multiply a scB (some 2) = .ok l ∧
    (DenseAlg.ops (floatCoeff .f32) p 2).multiply scB a (some 2) = .ok r ∧ coef (floatCoeff .f32) 2 l [2, 1] = .fin (1 / 2) ∧
    coef (floatCoeff .f32) 2 r [1, 2] = .fin (1 / 2) ∧ coef (floatCoeff .f32) 2 l [1, 2] = .zero false := by
  obtain ⟨a, l, r, h1, h2, h3, h4, h5, _⟩ := C86_shift .f32 p 2 (.inl rfl) (by omega) (by omega) [2] (by decide) (by decide +kernel) scB 1 2 ⟨rfl, by decide⟩
    (fun x hx => ⟨scB_valid _ (.inl rfl) x hx, by
      simp only [scB, Dense.ofVec, List.mem_cons, List.not_mem_nil, or_false] at hx
      rcases hx with rfl | rfl | rfl <;> rfl⟩) (by decide) (by decide) (by decide) _ (fromLetters_ok _ _ (by omega) (by omega) _ (by decide) (by decide +kernel))
  obtain ⟨q1, q2⟩ := h4 [1] (by decide) (by decide) (by decide)
  exact ⟨a, l, r, h1, h2, h3, q1.trans (by decide +kernel), q2.trans (by decide +kernel), h5 [1, 2] (by decide) (by intro v h; cases h)⟩

/-- The product of two tensors of degree one has no constant and no letters. -/
example (p : Profile) : ∃ r, (DenseAlg.ops (floatCoeff .f32) p 2).multiply scA scB (some 2) = .ok r ∧ coef (floatCoeff .f32) 2 r [1] = .zero false := by
  obtain ⟨r, hr⟩ := sc_product .f32 p
  refine ⟨r, hr, C86_grading .f32 p 2 (.inl rfl) (by omega) scA scB r 1 1 2 ⟨by decide, by decide⟩ ⟨by decide, by decide⟩ (by decide) hr ?_ ?_ 1 1 1 1 ?_ ?_ [1]
    (by decide) (by decide)⟩
  · intro x hx
    simp only [scA, Dense.ofVec, List.mem_cons, List.not_mem_nil, or_false] at hx
    rcases hx with rfl | rfl | rfl <;> rfl
  · intro x hx
    simp only [scB, Dense.ofVec, List.mem_cons, List.not_mem_nil, or_false] at hx
    rcases hx with rfl | rfl | rfl <;> rfl
  all_goals
    intro w hw hl
    by_cases h0 : w = []
    · subst h0; rfl
    · have hlw : 2 ≤ w.length := by
        have := List.length_pos_iff.2 h0
        omega
      have hi : 3 ≤ wordIndex 2 w := (geomSum_mono (N := 2) hlw).trans (wordIndex_bounds hw).1
      unfold coef stored
      rw [List.getElem?_eq_none (by exact hi)]
      rfl

end RA
