import Verif.Props.FloatTerm

/-!
# When commutators of floating-point tensors are antisymmetric (C77)
-/

namespace RA
open Spec TensorKey TensorBasis DenseAlg Fl

section
variable (F : FloatFmt)

theorem same_symm {x y : Fl} (h : Fl.Same x y) : Fl.Same y x := by
  rcases h with h | ⟨s, t, h, h'⟩
  · exact .inl h.symm
  · exact .inr ⟨t, s, h', h⟩

theorem same_trans {x y z : Fl} (h : Fl.Same x y) (h' : Fl.Same y z) : Fl.Same x z := by
  rcases h with rfl | ⟨s, t, rfl, rfl⟩
  · exact h'
  · rcases h' with rfl | ⟨s', t', _, rfl⟩
    · exact .inr ⟨s, t, rfl, rfl⟩
    · exact .inr ⟨s, t', rfl, rfl⟩

theorem neg_neg_fl (x : Fl) : Fl.neg (Fl.neg x) = x := by cases x <;> simp [Fl.neg]

theorem same_neg {x y : Fl} (h : Fl.Same x y) : Fl.Same (Fl.neg x) (Fl.neg y) := by
  rcases h with rfl | ⟨s, t, rfl, rfl⟩
  · exact .inl rfl
  · exact .inr ⟨_, _, rfl, rfl⟩

theorem same_of_neg {x y : Fl} (h : Fl.Same (Fl.neg x) (Fl.neg y)) : Fl.Same x y := by
  have := same_neg h
  rwa [neg_neg_fl, neg_neg_fl] at this

/-- The sign of a zero has no influence on a sum but on the sign of a zero. -/
theorem add_same (hF : F = .f32 ∨ F = .f64) {x x' y y' : Fl} (hx : x.Valid F) (hx' : x'.Valid F) (hy : y.Valid F) (hy' : y'.Valid F) (h : Fl.Same x x')
    (h' : Fl.Same y y') : Fl.Same (Fl.add F x y) (Fl.add F x' y') := by
  have h1 := (add_negated F (fmt_ok' hF) x (Fl.neg x') y (Fl.neg y') ⟨hx, same_neg (same_symm h)⟩ ⟨hy, same_neg (same_symm h')⟩).2
  have h2 := (add_negated F (fmt_ok' hF) x' (Fl.neg x') y' (Fl.neg y') ⟨hx', .inl rfl⟩ ⟨hy', .inl rfl⟩).2
  exact same_of_neg (same_trans (same_symm h1) h2)

theorem foldl_valid (hF : F = .f32 ∨ F = .f64) (l : List Fl) (hl : ∀ y ∈ l, y.Valid F) (x : Fl) (hx : x.Valid F) : (l.foldl (Fl.add F) x).Valid F := by
  induction l generalizing x with
  | nil => exact hx
  | cons y l ih => exact ih (fun z hz => hl z (List.mem_cons_of_mem _ hz)) _ (add_valid F (fmt_ok' hF) x y hx (hl y List.mem_cons_self))

theorem add_zero_same (hF : F = .f32 ∨ F = .f64) (x : Fl) (hx : x.Valid F) (s : Bool) : Fl.Same (Fl.add F x (.zero s)) x := by
  by_cases h : x = .zero true
  · subst h
    cases s <;> exact .inr ⟨_, _, rfl, rfl⟩
  · exact .inl (add_zero_unsigned F hF x hx s h)

theorem foldl_zeros_same (hF : F = .f32 ∨ F = .f64) (l : List Fl) (hl : ∀ x ∈ l, ∃ s, x = .zero s) (x : Fl) (hx : x.Valid F) :
    Fl.Same (l.foldl (Fl.add F) x) x := by
  induction l generalizing x with
  | nil => exact .inl rfl
  | cons y l ih =>
    obtain ⟨s, rfl⟩ := hl y List.mem_cons_self
    exact same_trans (ih (fun z hz => hl z (List.mem_cons_of_mem _ hz)) _ (add_valid F (fmt_ok' hF) x (.zero s) hx trivial)) (add_zero_same F hF x hx s)

/-- A sum with at most one term that is not zero. -/
theorem foldl_one_same (hF : F = .f32 ∨ F = .f64) (l1 l2 : List Fl) (t : Fl) (h1 : ∀ x ∈ l1, ∃ s, x = .zero s) (h2 : ∀ x ∈ l2, ∃ s, x = .zero s)
    (ht : t.Valid F) (x : Fl) (hx : x.Valid F) : Fl.Same ((l1 ++ t :: l2).foldl (Fl.add F) x) (Fl.add F x t) := by
  rw [List.foldl_append, List.foldl_cons]
  have v1 := foldl_valid F hF l1 (fun y hy => by obtain ⟨s, rfl⟩ := h1 y hy; trivial) x hx
  refine same_trans (foldl_zeros_same F hF l2 h2 _ (add_valid F (fmt_ok' hF) _ _ v1 ht)) ?_
  exact add_same F hF v1 hx ht ht (foldl_zeros_same F hF l1 h1 x hx) (.inl rfl)

/-- The products of the stored pairs, one of which may not vanish. -/
theorem pairs_one (N : Nat) (a b : Dense Fl)
    (hva : ∀ e ∈ a.data, e.Valid F ∧ e.isFin = true) (hvb : ∀ e ∈ b.data, e.Valid F ∧ e.isFin = true) (u v : List Nat)
    (hz : ∀ s t, s ++ t = u ++ v → s ≠ u → (coef (floatCoeff F) N a s).val = 0 ∨ (coef (floatCoeff F) N b t).val = 0) :
    ∃ l1 t l2, (∃ k, (storedPairs (stored N a) (stored N b) (u ++ v)).map (fun e => Fl.mul F e.1 e.2) = l1 ++ (List.replicate k t ++ l2) ∧ k ≤ 1 ∧
      (k = 0 → ∃ s, t = .zero s)) ∧ (∀ x ∈ l1, ∃ s, x = Fl.zero s) ∧ (∀ x ∈ l2, ∃ s, x = Fl.zero s) ∧
      t = Fl.mul F (coef (floatCoeff F) N a u) (coef (floatCoeff F) N b v) := by
  obtain ⟨l1, l2, hs⟩ := List.append_of_mem ((splits_spec (u ++ v) u v).2 rfl)
  have hnd := splits_nodup (u ++ v)
  rw [hs] at hnd
  have hmem : ∀ e ∈ l1 ++ l2, e.1 ++ e.2 = u ++ v := by
    intro e he
    refine (splits_spec _ _ _).1 ?_
    rw [hs]
    rcases List.mem_append.1 he with h | h
    · exact List.mem_append_left _ h
    · exact List.mem_append_right _ (List.mem_cons_of_mem _ h)
  have hne : ∀ e ∈ l1 ++ l2, e.1 ≠ u := by
    intro e he h1
    have h2 : e = (u, v) := by
      have := hmem e he
      rw [h1] at this
      exact Prod.ext h1 (List.append_cancel_left this)
    have := (List.nodup_middle.1 hnd)
    rw [List.nodup_cons] at this
    exact this.1 (h2 ▸ he)
  let g : List Nat × List Nat → Option (Fl × Fl) := fun uv => match stored N a uv.1, stored N b uv.2 with
    | some x, some y => some (x, y)
    | _, _ => none
  have hzero : ∀ l : List (List Nat × List Nat), (∀ e ∈ l, e ∈ l1 ++ l2) → ∀ z ∈ (l.filterMap g).map (fun e => Fl.mul F e.1 e.2), ∃ s, z = Fl.zero s := by
    intro l hsub z hzm
    obtain ⟨e, he, rfl⟩ := List.mem_map.1 hzm
    obtain ⟨⟨u', v'⟩, huv, hg⟩ := List.mem_filterMap.1 he
    have m := hsub _ huv
    simp only [g] at hg
    cases h1 : stored N a u' with
    | none => rw [h1] at hg; cases hg
    | some x' =>
      cases h3 : stored N b v' with
      | none => rw [h1, h3] at hg; cases hg
      | some y' =>
        rw [h1, h3] at hg
        cases hg
        have h := hz u' v' (hmem _ m) (hne _ m)
        rw [stored_of_coef F N h1, stored_of_coef F N h3] at h
        exact mul_zero_fin F x' y' (hva _ (List.mem_of_getElem? h1)).2 (hvb _ (List.mem_of_getElem? h3)).2 h
  have fin_coef : ∀ (c : Dense Fl) (s : List Nat), (∀ e ∈ c.data, e.Valid F ∧ e.isFin = true) → (coef (floatCoeff F) N c s).isFin = true := by
    intro c s hc
    unfold coef
    cases h : stored N c s with
    | none => rfl
    | some x => exact (hc x (List.mem_of_getElem? h)).2
  have key : ∃ k, storedPairs (stored N a) (stored N b) (u ++ v) =
      l1.filterMap g ++ (List.replicate k (coef (floatCoeff F) N a u, coef (floatCoeff F) N b v) ++ l2.filterMap g) ∧ k ≤ 1 ∧
        (k = 0 → ∃ s, Fl.mul F (coef (floatCoeff F) N a u) (coef (floatCoeff F) N b v) = .zero s) := by
    have e : storedPairs (stored N a) (stored N b) (u ++ v) = l1.filterMap g ++ ((u, v) :: l2).filterMap g := by
      unfold storedPairs
      rw [hs, List.filterMap_append]
      rfl
    rw [e]
    have none_case : stored N a u = none ∨ stored N b v = none → g (u, v) = none ∧
        ∃ s, Fl.mul F (coef (floatCoeff F) N a u) (coef (floatCoeff F) N b v) = .zero s := by
      intro h
      refine ⟨?_, mul_zero_fin F _ _ (fin_coef a u hva) (fin_coef b v hvb) ?_⟩
      · simp only [g]
        rcases h with h | h
        · rw [h]
        · rw [h]
          cases stored N a u <;> rfl
      · rcases h with h | h
        · left; unfold coef; rw [h]; rfl
        · right; unfold coef; rw [h]; rfl
    cases h1 : stored N a u with
    | none =>
      obtain ⟨n1, n2⟩ := none_case (.inl h1)
      exact ⟨0, by rw [List.filterMap_cons, n1]; rfl, by omega, fun _ => n2⟩
    | some x =>
      cases h3 : stored N b v with
      | none =>
        obtain ⟨n1, n2⟩ := none_case (.inr h3)
        exact ⟨0, by rw [List.filterMap_cons, n1]; rfl, by omega, fun _ => n2⟩
      | some y =>
        refine ⟨1, ?_, le_rfl, by omega⟩
        have : g (u, v) = some (x, y) := by simp only [g]; rw [h1, h3]
        rw [List.filterMap_cons, this, stored_of_coef F N h1, stored_of_coef F N h3]
        rfl
  obtain ⟨k, hk, hk1, hk0⟩ := key
  refine ⟨_, _, _, ⟨k, ?_, hk1, hk0⟩, hzero l1 fun e he => List.mem_append_left _ he, hzero l2 fun e he => List.mem_append_right _ he, rfl⟩
  rw [hk, List.map_append, List.map_append, List.map_replicate]

/-- Its sum, added to anything. -/
theorem pairs_one_sum (hF : F = .f32 ∨ F = .f64) (N : Nat) (a b : Dense Fl)
    (hva : ∀ e ∈ a.data, e.Valid F ∧ e.isFin = true) (hvb : ∀ e ∈ b.data, e.Valid F ∧ e.isFin = true) (u v : List Nat)
    (hz : ∀ s t, s ++ t = u ++ v → s ≠ u → (coef (floatCoeff F) N a s).val = 0 ∨ (coef (floatCoeff F) N b t).val = 0) (x : Fl) (hx : x.Valid F) :
    Fl.Same (((storedPairs (stored N a) (stored N b) (u ++ v)).map fun e => Fl.mul F e.1 e.2).foldl (Fl.add F) x)
      (Fl.add F x (Fl.mul F (coef (floatCoeff F) N a u) (coef (floatCoeff F) N b v))) ∧
    Fl.Same (((storedPairs (stored N a) (stored N b) (u ++ v)).map fun e => Fl.neg (Fl.mul F e.1 e.2)).foldl (Fl.add F) x)
      (Fl.add F x (Fl.neg (Fl.mul F (coef (floatCoeff F) N a u) (coef (floatCoeff F) N b v)))) := by
  obtain ⟨l1, t, l2, ⟨k, e, hk, hk0⟩, h1, h2, rfl⟩ := pairs_one F N a b hva hvb u v hz
  have n : ∀ l : List Fl, (∀ x ∈ l, ∃ s, x = Fl.zero s) → ∀ x ∈ l.map Fl.neg, ∃ s, x = Fl.zero s := by
    intro l hl x hx
    obtain ⟨y, hy, rfl⟩ := List.mem_map.1 hx
    obtain ⟨s, rfl⟩ := hl y hy
    exact ⟨_, rfl⟩
  have e' : (storedPairs (stored N a) (stored N b) (u ++ v)).map (fun e => Fl.neg (Fl.mul F e.1 e.2)) =
      l1.map Fl.neg ++ (List.replicate k (Fl.neg (Fl.mul F (coef (floatCoeff F) N a u) (coef (floatCoeff F) N b v))) ++ l2.map Fl.neg) := by
    rw [← List.map_replicate, ← List.map_append, ← List.map_append, ← e, List.map_map]
    rfl
  have vt := mul_valid F (fmt_ok' hF) (coef (floatCoeff F) N a u) (coef (floatCoeff F) N b v)
  rw [e, e']
  generalize Fl.mul F (coef (floatCoeff F) N a u) (coef (floatCoeff F) N b v) = t at *
  obtain rfl | rfl : k = 0 ∨ k = 1 := by omega
  · obtain ⟨s, rfl⟩ := hk0 rfl
    have z : ∀ l1 l2 : List Fl, (∀ x ∈ l1, ∃ s, x = Fl.zero s) → (∀ x ∈ l2, ∃ s, x = Fl.zero s) → ∀ s,
        Fl.Same ((l1 ++ (List.replicate 0 (Fl.zero s) ++ l2)).foldl (Fl.add F) x) (Fl.add F x (.zero s)) := by
      intro l1 l2 h1 h2 s
      refine same_trans (foldl_zeros_same F hF _ ?_ x hx) (same_symm (add_zero_same F hF x hx s))
      intro y hy
      rcases List.mem_append.1 hy with h | h
      · exact h1 y h
      · exact h2 y h
    exact ⟨z l1 l2 h1 h2 s, z _ _ (n l1 h1) (n l2 h2) _⟩
  · exact ⟨foldl_one_same F hF l1 l2 t h1 h2 vt x hx, foldl_one_same F hF _ _ _ (n l1 h1) (n l2 h2) (neg_valid F t vt) x hx⟩

variable (p : Profile) (N : Nat)

/-- The coefficients of a commutator: the terms of `a b` are added, then those of `b a` are subtracted. -/
theorem comm_fold (h2 : 2 ≤ N) (a b x : Dense Fl) (da db D : Nat) (ha : FullTo N a da) (hb : FullTo N b db) (hM : 1 ≤ min D (da + db))
    (hp : N ^ (min D (da + db) + 1) < 2 ^ 64) (hva : ∀ x ∈ a.data, x.Valid F) (hvb : ∀ x ∈ b.data, x.Valid F)
    (hx : (DenseAlg.ops (floatCoeff F) p N).commutator (floatCoeff F) a b (some D) = .ok x) (w : List Nat) (hw : ValidWord N w) :
    (w.length ≤ min D (da + db) → coef (floatCoeff F) N x w = ((storedPairs (stored N b) (stored N a) w).map fun e => Fl.neg (Fl.mul F e.1 e.2)).foldl (Fl.add F)
      (((storedPairs (stored N a) (stored N b) w).map fun e => Fl.mul F e.1 e.2).foldl (Fl.add F) (.zero false))) ∧
    (min D (da + db) < w.length → coef (floatCoeff F) N x w = .zero false) := by
  obtain ⟨x', h1, h3, h4⟩ := comm_coef F p N h2 a b da db D ha hb hM hp hva hvb
  obtain rfl : x = x' := Res.ok.inj (hx.symm.trans h1)
  refine ⟨fun hl => ?_, fun hl => ?_⟩
  · rw [h4 w hw hl]
    unfold flSum negPairs
    rw [List.map_append, List.foldl_append, List.map_map]
    congr 1
    apply List.map_congr_left
    intro e he
    obtain ⟨u, v, _, g1, g3⟩ := (mem_storedPairs _ _ _ _).1 he
    exact (neg_mul_left F e.1 e.2 (hvb _ (List.mem_of_getElem? g1)) (hva _ (List.mem_of_getElem? g3))).symm
  · unfold coef stored
    rw [List.getElem?_eq_none]
    · rfl
    · have e : x.data.length = geomSum N (min D (da + db) + 1) := h3.1
      rw [e]
      exact (geomSum_mono (by omega)).trans (wordIndex_bounds hw).1

/-- C77.  Exactly when it holds: `[a, b]` and `-[b, a]` compare equal at a word if and only if the sums of the terms `a_u b_v` and `-b_u a_v`, rounded after each
step, compare equal when the former are added first and when the latter are. -/
theorem C77_antisymmetry_iff_partial (hF : F = .f32 ∨ F = .f64) (h2 : 2 ≤ N) (a b x y : Dense Fl) (da db D : Nat) (ha : FullTo N a da)
    (hb : FullTo N b db) (hM : 1 ≤ min D (da + db)) (hp : N ^ (min D (da + db) + 1) < 2 ^ 64) (hva : ∀ e ∈ a.data, e.Valid F)
    (hvb : ∀ e ∈ b.data, e.Valid F) (hx : (DenseAlg.ops (floatCoeff F) p N).commutator (floatCoeff F) a b (some D) = .ok x)
    (hy : (DenseAlg.ops (floatCoeff F) p N).commutator (floatCoeff F) b a (some D) = .ok y) (w : List Nat) (hw : ValidWord N w)
    (hl : w.length ≤ min D (da + db)) :
    let P := (splits w).filterMap fun uv => match stored N a uv.1, stored N b uv.2 with
      | some x, some y => some (Fl.mul F x y)
      | _, _ => none
    let Q := (splits w).filterMap fun uv => match stored N b uv.1, stored N a uv.2 with
      | some x, some y => some (Fl.neg (Fl.mul F x y))
      | _, _ => none
    Fl.eq (coef (floatCoeff F) N x w) (Fl.neg (coef (floatCoeff F) N y w)) = true ↔
      Fl.eq ((P ++ Q).foldl (Fl.add F) (.zero false)) ((Q ++ P).foldl (Fl.add F) (.zero false)) = true := by
  intro P Q
  have hc : db + da = da + db := Nat.add_comm _ _
  have fm : ∀ (f g : List Nat → Option Fl) (k : Fl → Fl → Fl), ((splits w).filterMap fun uv => match f uv.1, g uv.2 with
      | some x, some y => some (k x y)
      | _, _ => none) = (storedPairs f g w).map fun e => k e.1 e.2 := by
    intro f g k
    unfold storedPairs
    rw [List.map_filterMap]
    congr 1
    funext uv
    cases f uv.1 <;> cases g uv.2 <;> rfl
  have eP : P = (storedPairs (stored N a) (stored N b) w).map fun e => Fl.mul F e.1 e.2 := fm _ _ fun x y => Fl.mul F x y
  have eQ : Q = (storedPairs (stored N b) (stored N a) w).map fun e => Fl.neg (Fl.mul F e.1 e.2) := fm _ _ fun x y => Fl.neg (Fl.mul F x y)
  have kx := (comm_fold F p N h2 a b x da db D ha hb hM hp hva hvb hx w hw).1 hl
  have ky := (comm_fold F p N h2 b a y db da D hb ha (by rw [hc]; exact hM) (by rw [hc]; exact hp) hvb hva hy w hw).1 (by rw [hc]; exact hl)
  have vm : ∀ (f g : List Nat → Option Fl), ∀ z ∈ (storedPairs f g w).map (fun e => Fl.mul F e.1 e.2), z.Valid F := by
    intro f g z hz
    obtain ⟨e, _, rfl⟩ := List.mem_map.1 hz
    exact mul_valid F (fmt_ok' hF) _ _
  have vn : ∀ (f g : List Nat → Option Fl), ∀ z ∈ (storedPairs f g w).map (fun e => Fl.neg (Fl.mul F e.1 e.2)), z.Valid F := by
    intro f g z hz
    obtain ⟨e, _, rfl⟩ := List.mem_map.1 hz
    exact neg_valid F _ (mul_valid F (fmt_ok' hF) _ _)
  have e1 : coef (floatCoeff F) N x w = (P ++ Q).foldl (Fl.add F) (.zero false) := by rw [kx, eP, eQ, List.foldl_append]
  have e2 : Fl.Same ((Q ++ P).foldl (Fl.add F) (.zero false)) (Fl.neg (coef (floatCoeff F) N y w)) := by
    rw [ky, ← List.foldl_append, eP, eQ]
    refine (foldl_rel (R := Negated F) (Q := Negated F) (add_negated F (fmt_ok' hF)) (l := _) (m := _) ?_ (.zero false) (.zero false) ⟨trivial, .inr ⟨_, _, rfl, rfl⟩⟩).2
    have f2 : ∀ (l : List (Fl × Fl)) (f g : Fl × Fl → Fl), (∀ e, Negated F (f e) (g e)) → List.Forall₂ (Negated F) (l.map f) (l.map g) := by
      intro l f g h
      induction l with
      | nil => exact .nil
      | cons e l ih => exact .cons (h e) ih
    exact List.rel_append (f2 _ _ _ fun e => ⟨mul_valid F (fmt_ok' hF) _ _, .inl rfl⟩)
      (f2 _ _ _ fun e => ⟨neg_valid F _ (mul_valid F (fmt_ok' hF) _ _), .inl (neg_neg_fl _).symm⟩)
  have eqs : ∀ x y z : Fl, Fl.Same y z → Fl.eq x y = Fl.eq x z := by
    intro x y z h
    rcases h with rfl | ⟨s, t, rfl, rfl⟩
    · rfl
    · cases x <;> rfl
  rw [e1, eqs _ _ _ e2]

/-- C77.  Where at most one term of `a b` and one of `b a` is not zero, the coefficient of the commutator is the difference of the two products, each rounded once,
and antisymmetric, whatever the finite numbers, also when the difference overflows. -/
theorem C77_single_terms_partial (hF : F = .f32 ∨ F = .f64) (h2 : 2 ≤ N) (a b x y : Dense Fl) (da db D : Nat) (ha : FullTo N a da)
    (hb : FullTo N b db) (hM : 1 ≤ min D (da + db)) (hp : N ^ (min D (da + db) + 1) < 2 ^ 64) (hva : ∀ e ∈ a.data, e.Valid F ∧ e.isFin = true)
    (hvb : ∀ e ∈ b.data, e.Valid F ∧ e.isFin = true) (hx : (DenseAlg.ops (floatCoeff F) p N).commutator (floatCoeff F) a b (some D) = .ok x)
    (hy : (DenseAlg.ops (floatCoeff F) p N).commutator (floatCoeff F) b a (some D) = .ok y) (w : List Nat) (hw : ValidWord N w)
    (u v u' v' : List Nat) (huv : u ++ v = w) (huv' : u' ++ v' = w)
    (hab : ∀ s t, s ++ t = w → s ≠ u → (coef (floatCoeff F) N a s).val = 0 ∨ (coef (floatCoeff F) N b t).val = 0)
    (hba : ∀ s t, s ++ t = w → s ≠ u' → (coef (floatCoeff F) N b s).val = 0 ∨ (coef (floatCoeff F) N a t).val = 0) :
    (w.length ≤ min D (da + db) → Fl.Same (coef (floatCoeff F) N x w) (Fl.sub F (Fl.mul F (coef (floatCoeff F) N a u) (coef (floatCoeff F) N b v))
      (Fl.mul F (coef (floatCoeff F) N b u') (coef (floatCoeff F) N a v')))) ∧
    Fl.Same (coef (floatCoeff F) N x w) (Fl.neg (coef (floatCoeff F) N y w)) ∧
    (a = b → (coef (floatCoeff F) N x w).isFin = true → (coef (floatCoeff F) N x w).val = 0) := by
  have hc : db + da = da + db := Nat.add_comm _ _
  have kx := comm_fold F p N h2 a b x da db D ha hb hM hp (fun e he => (hva e he).1) (fun e he => (hvb e he).1) hx w hw
  have ky := comm_fold F p N h2 b a y db da D hb ha (by rw [hc]; exact hM) (by rw [hc]; exact hp) (fun e he => (hvb e he).1) (fun e he => (hva e he).1) hy w hw
  have main : w.length ≤ min D (da + db) → Fl.Same (coef (floatCoeff F) N x w) (Fl.sub F (Fl.mul F (coef (floatCoeff F) N a u) (coef (floatCoeff F) N b v))
      (Fl.mul F (coef (floatCoeff F) N b u') (coef (floatCoeff F) N a v'))) ∧
      Fl.Same (coef (floatCoeff F) N y w) (Fl.add F (Fl.mul F (coef (floatCoeff F) N b u') (coef (floatCoeff F) N a v'))
        (Fl.neg (Fl.mul F (coef (floatCoeff F) N a u) (coef (floatCoeff F) N b v)))) := by
    intro hl
    have sab := fun x hx => by
      have := pairs_one_sum F hF N a b hva hvb u v (by rw [huv]; exact hab) x hx
      rw [huv] at this
      exact this
    have sba := fun x hx => by
      have := pairs_one_sum F hF N b a hvb hva u' v' (by rw [huv']; exact hba) x hx
      rw [huv'] at this
      exact this
    rw [kx.1 hl, ky.1 (by rw [hc]; exact hl)]
    have vm : ∀ (f g : List Nat → Option Fl), (((storedPairs f g w).map fun e => Fl.mul F e.1 e.2).foldl (Fl.add F) (.zero false)).Valid F := by
      intro f g
      refine foldl_valid F hF _ (fun z hz => ?_) _ trivial
      obtain ⟨e, _, rfl⟩ := List.mem_map.1 hz
      exact mul_valid F (fmt_ok' hF) _ _
    have z0 : ∀ t : Fl, t.Valid F → Fl.Same (Fl.add F (.zero false) t) t := by
      intro t ht
      rw [show Fl.add F (.zero false) t = Fl.add F t (.zero false) from (C50_commutative F _ _).1]
      exact add_zero_same F hF t ht false
    have vA := mul_valid F (fmt_ok' hF) (coef (floatCoeff F) N a u) (coef (floatCoeff F) N b v)
    have vB := mul_valid F (fmt_ok' hF) (coef (floatCoeff F) N b u') (coef (floatCoeff F) N a v')
    refine ⟨?_, ?_⟩
    · refine same_trans (sba _ (vm _ _)).2 (add_same F hF (vm _ _) vA (neg_valid F _ vB) (neg_valid F _ vB) ?_ (.inl rfl))
      exact same_trans (sab (.zero false) trivial).1 (z0 _ vA)
    · refine same_trans (sab _ (vm _ _)).2 (add_same F hF (vm _ _) vB (neg_valid F _ vA) (neg_valid F _ vA) ?_ (.inl rfl))
      exact same_trans (sba (.zero false) trivial).1 (z0 _ vB)
  have anti : Fl.Same (coef (floatCoeff F) N x w) (Fl.neg (coef (floatCoeff F) N y w)) := by
    by_cases hl : w.length ≤ min D (da + db)
    · obtain ⟨m1, m2⟩ := main hl
      refine same_trans m1 (same_trans ?_ (same_neg (same_symm m2)))
      have vA := mul_valid F (fmt_ok' hF) (coef (floatCoeff F) N a u) (coef (floatCoeff F) N b v)
      have vB := mul_valid F (fmt_ok' hF) (coef (floatCoeff F) N b u') (coef (floatCoeff F) N a v')
      have h := (add_negated F (fmt_ok' hF) _ _ _ _ ⟨vB, .inl rfl⟩ ⟨neg_valid F _ vA, .inl (neg_neg_fl _).symm⟩).2
      rw [show ∀ s t, Fl.add F s t = Fl.add F t s from fun s t => (C50_commutative F s t).1] at h
      exact h
    · rw [kx.2 (by omega), ky.2 (by omega)]
      exact .inr ⟨_, _, rfl, rfl⟩
  refine ⟨fun hl => (main hl).1, anti, ?_⟩
  rintro rfl hfin
  obtain rfl : x = y := Res.ok.inj (hx.symm.trans hy)
  have := (same_isFin anti).2
  rw [neg_val] at this
  linarith

/-- C77.  Homogeneous tensors: if `a` has only words of length `i` and `b` only words of length `j`, the commutator is antisymmetric at all words and
`[a, a]` is zero unless it overflows, whatever the finite numbers. -/
theorem C77_homogeneous_partial (hF : F = .f32 ∨ F = .f64) (h2 : 2 ≤ N) (a b x y : Dense Fl) (da db D : Nat) (ha : FullTo N a da)
    (hb : FullTo N b db) (hM : 1 ≤ min D (da + db)) (hp : N ^ (min D (da + db) + 1) < 2 ^ 64) (hva : ∀ e ∈ a.data, e.Valid F ∧ e.isFin = true)
    (hvb : ∀ e ∈ b.data, e.Valid F ∧ e.isFin = true) (hx : (DenseAlg.ops (floatCoeff F) p N).commutator (floatCoeff F) a b (some D) = .ok x)
    (hy : (DenseAlg.ops (floatCoeff F) p N).commutator (floatCoeff F) b a (some D) = .ok y) (i j : Nat)
    (hi : ∀ u, ValidWord N u → u.length ≠ i → (coef (floatCoeff F) N a u).val = 0) (hj : ∀ u, ValidWord N u → u.length ≠ j → (coef (floatCoeff F) N b u).val = 0)
    (w : List Nat) (hw : ValidWord N w) :
    Fl.Same (coef (floatCoeff F) N x w) (Fl.neg (coef (floatCoeff F) N y w)) ∧
    (a = b → (coef (floatCoeff F) N x w).isFin = true → (coef (floatCoeff F) N x w).val = 0) := by
  have pre : ∀ (k : Nat) (s t : List Nat), s ++ t = w → s ≠ w.take k → ValidWord N s ∧ s.length ≠ k := by
    rintro k s t rfl h
    refine ⟨(ValidWord.append.1 hw).1, fun hk => h ?_⟩
    rw [← hk, List.take_left]
  exact (C77_single_terms_partial F p N hF h2 a b x y da db D ha hb hM hp hva hvb hx hy w hw (w.take i) (w.drop i) (w.take j) (w.drop j)
    (List.take_append_drop i w) (List.take_append_drop j w) (fun s t hst hs => .inl (hi s (pre i s t hst hs).1 (pre i s t hst hs).2))
    (fun s t hst hs => .inl (hj s (pre j s t hst hs).1 (pre j s t hst hs).2))).2

end

/-! ## Examples -/

/-- `7 e1 + e2 / 2` and `3 e1 e2 - e2 e2`. -/
def hoA : Dense Fl := .ofVec [.zero false, .fin 7, .fin (1 / 2)]
def hoB : Dense Fl := .ofVec [.zero true, .zero false, .zero false, .zero false, .fin 3, .zero true, .fin (-1)]

theorem ho_ok : (∀ x ∈ hoA.data, x.Valid .f64 ∧ x.isFin = true) ∧ ∀ x ∈ hoB.data, x.Valid .f64 ∧ x.isFin = true := by
  have v : ∀ n : Int, n ≠ 0 → |n| < 2 ^ 24 → (Fl.fin n).Valid .f64 := fun n h0 h => int_valid n h0 h .f64 (.inr rfl)
  refine ⟨fun x hx => ?_, fun x hx => ?_⟩
  · simp only [hoA, Dense.ofVec, List.mem_cons, List.not_mem_nil, or_false] at hx
    rcases hx with rfl | rfl | rfl
    · exact ⟨trivial, rfl⟩
    · exact ⟨by simpa using v 7 (by decide) (by decide), rfl⟩
    · exact ⟨⟨by norm_num, 1, -1, by decide, by decide, by decide, by norm_num⟩, rfl⟩
  · simp only [hoB, Dense.ofVec, List.mem_cons, List.not_mem_nil, or_false] at hx
    rcases hx with rfl | rfl | rfl | rfl | rfl | rfl | rfl
    · exact ⟨trivial, rfl⟩
    · exact ⟨trivial, rfl⟩
    · exact ⟨trivial, rfl⟩
    · exact ⟨trivial, rfl⟩
    · exact ⟨by simpa using v 3 (by decide) (by decide), rfl⟩
    · exact ⟨trivial, rfl⟩
    · exact ⟨by simpa using v (-1) (by decide) (by decide), rfl⟩

theorem ho_homogeneous : (∀ u, ValidWord 2 u → u.length ≠ 1 → (coef (floatCoeff .f64) 2 hoA u).val = 0) ∧
    ∀ u, ValidWord 2 u → u.length ≠ 2 → (coef (floatCoeff .f64) 2 hoB u).val = 0 := by
  have big : ∀ (c : Dense Fl) (u : List Nat), c.data.length ≤ wordIndex 2 u → (coef (floatCoeff .f64) 2 c u).val = 0 := by
    intro c u h
    unfold coef stored
    rw [List.getElem?_eq_none h]
    rfl
  refine ⟨fun u hu hl => ?_, fun u hu hl => ?_⟩
  · obtain hs | hs : u.length = 0 ∨ 2 ≤ u.length := by omega
    · rw [List.length_eq_zero_iff.1 hs]
      rfl
    · exact big _ _ (le_trans (le_of_eq rfl) ((geomSum_mono hs).trans (wordIndex_bounds hu).1))
  · obtain hs | hs | hs : u.length = 0 ∨ u.length = 1 ∨ 3 ≤ u.length := by omega
    · rw [List.length_eq_zero_iff.1 hs]
      rfl
    · obtain ⟨k, rfl⟩ := List.length_eq_one_iff.1 hs
      have := hu k (by simp)
      obtain rfl | rfl : k = 1 ∨ k = 2 := by omega
      all_goals rfl
    · exact big _ _ (le_trans (le_of_eq rfl) ((geomSum_mono hs).trans (wordIndex_bounds hu).1))

/-- The coefficient of `e1 e2 e1` in their commutator is `-21`, and the opposite in the commutator of the factors exchanged. -/
example : ∃ x y, (DenseAlg.ops (floatCoeff .f64) .debug 2).commutator (floatCoeff .f64) hoA hoB (some 3) = .ok x ∧
    (DenseAlg.ops (floatCoeff .f64) .debug 2).commutator (floatCoeff .f64) hoB hoA (some 3) = .ok y ∧ coef (floatCoeff .f64) 2 x [1, 2, 1] = .fin (-21) ∧
    (∀ w, ValidWord 2 w → Fl.Same (coef (floatCoeff .f64) 2 x w) (Fl.neg (coef (floatCoeff .f64) 2 y w))) ∧
    Fl.Same (coef (floatCoeff .f64) 2 x [1, 2, 1]) (Fl.sub .f64 (Fl.mul .f64 (.fin 7) (.zero true)) (Fl.mul .f64 (.fin 3) (.fin 7))) := by
  have fa : FullTo 2 hoA 1 := ⟨rfl, by decide⟩
  have fb : FullTo 2 hoB 2 := ⟨rfl, by decide⟩
  obtain ⟨oa, ob⟩ := ho_ok
  obtain ⟨ga, gb⟩ := ho_homogeneous
  obtain ⟨x, hx, _, gx⟩ := comm_coef .f64 .debug 2 (by omega) _ _ 1 2 3 fa fb (by decide) (by decide) (fun x h => (oa x h).1) (fun x h => (ob x h).1)
  obtain ⟨y, hy, _⟩ := comm_coef .f64 .debug 2 (by omega) _ _ 2 1 3 fb fa (by decide) (by decide) (fun x h => (ob x h).1) (fun x h => (oa x h).1)
  have hw : ValidWord 2 [1, 2, 1] := by decide
  refine ⟨x, y, hx, hy, by rw [gx [1, 2, 1] hw (by decide)]; decide +kernel,
    fun w hw => (C77_homogeneous_partial .f64 .debug 2 (.inr rfl) (by omega) hoA hoB x y 1 2 3 fa fb (by decide) (by decide) oa ob hx hy 1 2 ga gb w hw).1, ?_⟩
  refine (C77_single_terms_partial .f64 .debug 2 (.inr rfl) (by omega) hoA hoB x y 1 2 3 fa fb (by decide) (by decide) oa ob hx hy [1, 2, 1] hw [1] [2, 1]
    [1, 2] [1] rfl rfl (fun s t hst hs => .inl (ga s (ValidWord.append.1 (hst ▸ hw)).1 fun hl => hs ?_))
    (fun s t hst hs => .inl (gb s (ValidWord.append.1 (hst ▸ hw)).1 fun hl => hs ?_))).1 (by decide)
  · rw [show [1] = [1, 2, 1].take 1 from rfl, ← hst, ← hl, List.take_left]
  · rw [show [1, 2] = [1, 2, 1].take 2 from rfl, ← hst, ← hl, List.take_left]

/-- The criterion for the witness of `C77_antisymmetry_refuted`: added in one order the terms give `-2^-60`, in the other `2^-60`. -/
example (x : Dense Fl) (hx : (DenseAlg.ops (floatCoeff .f64) .debug 2).commutator (floatCoeff .f64) (selfA 2) (selfA 2) (some 2) = .ok x) :
    Fl.eq (coef (floatCoeff .f64) 2 x [1, 1]) (Fl.neg (coef (floatCoeff .f64) 2 x [1, 1])) = false := by
  have fa := selfA_full 2 (by omega) (by decide)
  have oa := fun e he => (selfA_valid .f64 2 (.inr rfl) e he).1
  have h := C77_antisymmetry_iff_partial .f64 .debug 2 (.inr rfl) (by omega) (selfA 2) (selfA 2) x x 2 2 2 fa fa (by decide) (by decide) oa oa hx hx [1, 1]
    (by decide) (by decide)
  rw [Bool.eq_false_iff]
  intro hc
  exact absurd (h.1 hc) (by decide +kernel)

end RA
