import Verif.Props.VecProgram
import Verif.Props.Basis

/-!
# Programs over any basis: exact coefficients, floating point, memory safety (C113)
-/

namespace RA
open Spec TensorKey TensorBasis

section
variable {K S : Type} [DecidableEq K] {C : Coeff S S} {B : Basis K} {P : K → Prop} {idx : K → Nat}

/-! ## Exact coefficients -/

/-- Closures keep zero at zero. -/
def ModifyKeepsZero (z : S) : VStmt K S S → Prop
  | .modify _ _ f => f z = z
  | _ => True

omit [DecidableEq K] in
theorem field_respects [Field S] (hC : C.IsField) (s : VStmt K S S) (h : ModifyKeepsZero 0 s) : VRespects C (· = ·) s := by
  cases s with
  | terms i items => exact fun _ _ => rfl
  | modify i k f => exact ⟨fun _ _ h => by rw [h], by rw [hC.zero]; exact h⟩
  | scale i x | addScaled i j x | subScaled i j x => exact ⟨fun _ _ h => by rw [h], by rw [hC.mul, hC.zero, zero_mul]⟩
  | div i x | addDivided i j x | subDivided i j x => exact ⟨fun _ _ h => by rw [h], by rw [hC.div, hC.zero, zero_div]⟩
  | _ => trivial

theorem terms_sum_single [Field S] (items : List (K × S)) (u : K) (z : S) :
    ((items.filter fun e => e.1 = u).map (·.2)).foldl (· + ·) z = z + (items.map fun e => (Pi.single e.1 e.2 : K → S)).sum u := by
  induction items generalizing z with
  | nil => simp
  | cons e items ih =>
    simp only [List.filter_cons, List.map_cons, List.sum_cons, Pi.add_apply]
    by_cases h : e.1 = u
    · subst h
      simp [ih, add_assoc]
    · simp [h, ih, Ne.symm h]

theorem eval_linear [Field S] (hC : C.IsField) (a : Nat → K → S) (s : VStmt K S S) : s.eval C a = s.linear a := by
  have ha : C.add = (· + ·) := by funext x y; exact hC.add x y
  cases s <;> simp only [VStmt.eval, VStmt.linear, hC.zero, hC.uminus, hC.sub, hC.mul, hC.div, ha] <;>
    first
    | rfl
    | (congr 1; funext u; simp [Pi.single_apply, Function.update_apply, terms_sum_single, mul_comm, div_eq_mul_inv]; done)
    | (congr 1; funext u; simp only [Pi.single_apply, Function.update_apply, Pi.add_apply, Pi.sub_apply]; split_ifs with h <;> simp [h])

theorem evalVProg_linear [Field S] (hC : C.IsField) (prog : List (VStmt K S S)) : evalVProg C prog = linearVProg prog := by
  unfold evalVProg linearVProg
  rw [hC.zero, show VStmt.eval C = VStmt.linear (K := K) from by funext a s; exact eval_linear hC a s]
  rfl

/-- C113 over exact coefficients: every register of a program on dense vectors over any basis holds the element of the vector space of functions on keys that the program
says. -/
theorem C113_dense_exact [Field S] (hC : C.IsField) (hE : C.EqLawful) (hb : BasisOn B P idx) (prog : List (VStmt K S S))
    (hk : ∀ s ∈ prog, ∀ k ∈ s.keys, P k) (hs : ∀ s ∈ prog, OnDense s ∧ ModifyKeepsZero 0 s) :
    ∃ σ, runVProg C (Dense.ops C B) prog = .ok σ ∧ ∀ i k, P k → ∃ x, (Dense.ops C B).get (σ i) k = .ok x ∧ x.getD 0 = linearVProg prog i k := by
  have h := C113_dense (ring_blind hC.toIsRing hE) hb prog hk fun s h => ⟨(hs s h).1, field_respects hC s (hs s h).2⟩
  rw [evalVProg_linear hC, hC.zero] at h
  exact h

/-- C113 over exact coefficients: the same for sparse vectors. -/
theorem C113_sparse_exact [Field S] (hC : C.IsField) (hE : C.EqLawful) (prog : List (VStmt K S S)) (hs : ∀ s ∈ prog, OnSparse s ∧ ModifyKeepsZero 0 s) :
    ∃ σ, runVProg C (Sparse.ops C) prog = .ok σ ∧ ∀ i, (σ i).WF ∧ ∀ k, ∃ x, (Sparse.ops C).get (σ i) k = .ok x ∧ x.getD 0 = linearVProg prog i k := by
  obtain ⟨σ, e, h⟩ := C113_sparse (P := fun _ => True) (ring_blind hC.toIsRing hE) prog (fun _ _ _ _ => trivial)
    (fun s h => ⟨(hs s h).1, field_respects hC s (hs s h).2⟩) (by
      intro pre s _
      cases s with
      | scale i x =>
        intro h k _
        rw [(hE _ _).1 h, hC.mul, hC.zero, mul_zero]
      | _ => trivial)
  rw [evalVProg_linear hC, hC.zero] at h
  exact ⟨σ, e, fun i => ⟨(h i).1, fun k => (h i).2 k trivial⟩⟩

end

/-! ## Floating point -/

section
variable {K : Type} [DecidableEq K] {B : Basis K} {P : K → Prop} {idx : K → Nat} {F : FloatFmt}

/-- The numbers in a statement are floating-point numbers of the format; scalars that are multiplied with are finite, divisors are neither zero nor NaN; no closures. -/
def TameFloat (F : FloatFmt) : VStmt K Fl Fl → Prop
  | .key _ _ s | .addKey _ _ s | .subKey _ _ s | .put _ _ s => s.Valid F
  | .terms _ items => ∀ e ∈ items, e.2.Valid F
  | .modify .. => False
  | .scale _ s | .addScaled _ _ s | .subScaled _ _ s => s.isFin = true
  | .div _ r | .addDivided _ _ r | .subDivided _ _ r => r.Valid F ∧ r ≠ .nan ∧ ∀ t, r ≠ .zero t
  | _ => True

omit [DecidableEq K] in
theorem float_respects (hF : F = .f32 ∨ F = .f64) (s : VStmt K Fl Fl) (h : TameFloat F s) : VRespects (floatCoeff F) (FlSame F) s := by
  have hok := fmt_ok F hF
  have h0 : Fl.Valid F (.zero false) := trivial
  have hm : ∀ x : Fl, x.isFin = true → (∀ a b, FlSame F a b → FlSame F (Fl.mul F a x) (Fl.mul F b x)) ∧ FlSame F (Fl.mul F (.zero false) x) (.zero false) := by
    intro x ht
    refine ⟨fun a b h => ⟨mul_valid F hok _ _, mul_valid F hok _ _, ?_⟩, mul_valid F hok _ _, h0, (zero_mul_same _ _ ht).1⟩
    rcases h.2.2 with rfl | ⟨s, t, rfl, rfl⟩
    · exact .inl rfl
    · exact (zero_mul_same s x ht).1.trans (zero_mul_same t x ht).1.symm
  have hd : ∀ r : Fl, r.Valid F → r ≠ .nan → (∀ t, r ≠ .zero t) →
      (∀ a b, FlSame F a b → FlSame F (Fl.div F a r) (Fl.div F b r)) ∧ FlSame F (Fl.div F (.zero false) r) (.zero false) := by
    intro r hc ht1 ht2
    have hv : ∀ a : Fl, a.Valid F → (Fl.div F a r).Valid F := fun a ha => (C50_closed F hF a r ha hc 0).2.2.2.1
    refine ⟨fun a b h => ⟨hv _ h.1, hv _ h.2.1, ?_⟩, hv _ h0, h0, zero_div_same _ r ht1 ht2⟩
    rcases h.2.2 with rfl | ⟨s, t, rfl, rfl⟩
    · exact .inl rfl
    · exact (zero_div_same s r ht1 ht2).trans (zero_div_same t r ht1 ht2).symm
  cases s with
  | key | addKey | subKey | put => exact ⟨h, h, .inl rfl⟩
  | terms i items => exact fun e he => ⟨h e he, h e he, .inl rfl⟩
  | modify => exact h.elim
  | scale i x | addScaled i j x | subScaled i j x => exact hm x h
  | div i r | addDivided i j r | subDivided i j r => exact hd r h.1 h.2.1 h.2.2
  | _ => trivial

/-- C113 over `f32` or `f64`: dense vectors compute what the program says with the operations of the format, up to the sign of zeros. -/
theorem C113_dense_float (hF : F = .f32 ∨ F = .f64) (hb : BasisOn B P idx) (prog : List (VStmt K Fl Fl)) (hk : ∀ s ∈ prog, ∀ k ∈ s.keys, P k)
    (hs : ∀ s ∈ prog, OnDense s ∧ TameFloat F s) :
    ∃ σ, runVProg (floatCoeff F) (Dense.ops (floatCoeff F) B) prog = .ok σ ∧ ∀ i k, P k →
      ∃ x, (Dense.ops (floatCoeff F) B).get (σ i) k = .ok x ∧ SameUpToZero (x.getD (.zero false)) (evalVProg (floatCoeff F) prog i k) := by
  obtain ⟨σ, e, h⟩ := C113_dense (float_blind hF) hb prog hk fun s h => ⟨(hs s h).1, float_respects hF s (hs s h).2⟩
  exact ⟨σ, e, fun i k hk => let ⟨x, h1, h2⟩ := h i k hk; ⟨x, h1, h2.2.2⟩⟩

/-- C113 over `f32` or `f64`: a program gives the same coefficients on dense and on sparse vectors, up to the sign of zeros, if whatever is multiplied by zero is finite. -/
theorem C113_float (hF : F = .f32 ∨ F = .f64) (hb : BasisOn B P idx) (prog : List (VStmt K Fl Fl)) (hk : ∀ s ∈ prog, ∀ k ∈ s.keys, P k)
    (hs : ∀ s ∈ prog, OnDense s ∧ OnSparse s ∧ TameFloat F s)
    (hz : ∀ pre i z, pre ++ [.scale i (.zero z)] <+: prog → ∀ k, P k → (evalVProg (floatCoeff F) pre i k).isFin = true) :
    ∃ σ τ, runVProg (floatCoeff F) (Dense.ops (floatCoeff F) B) prog = .ok σ ∧ runVProg (floatCoeff F) (Sparse.ops (floatCoeff F)) prog = .ok τ ∧ ∀ i k, P k →
      ∃ x y, (Dense.ops (floatCoeff F) B).get (σ i) k = .ok x ∧ (Sparse.ops (floatCoeff F)).get (τ i) k = .ok y ∧
        SameUpToZero (x.getD (.zero false)) (y.getD (.zero false)) := by
  have hok := fmt_ok F hF
  obtain ⟨σ, τ, e1, e2, h⟩ := C113_agree (float_blind hF) hb prog hk (fun s h => ⟨(hs s h).1, (hs s h).2.1, float_respects hF s (hs s h).2.2⟩) (by
    intro pre s hpre
    cases s with
    | scale i x =>
      intro hx k hk
      have ht : x.isFin = true := (hs (.scale i x) (hpre.subset (by simp))).2.2
      have hx0 : ∃ z, x = .zero z := by
        have hx : Fl.eq x (.zero false) = true := hx
        cases x with
        | zero z => exact ⟨z, rfl⟩
        | nan => cases hx
        | inf s => cases ht
        | fin q => exact absurd hx (by simp [Fl.eq])
      obtain ⟨z, rfl⟩ := hx0
      exact ⟨mul_valid F hok _ _, trivial, (zero_mul_same z _ (hz pre i z hpre k hk)).2⟩
    | _ => trivial)
  exact ⟨σ, τ, e1, e2, fun i k hk => let ⟨x, y, h1, h2, h3⟩ := h i k hk; ⟨x, y, h1, h2, h3.2.2⟩⟩

end

/-! ## Memory safety with any basis -/

section
variable {K S R : Type} {C : Coeff S R} {B : Basis K} {idx dimK : K → Nat} {dimI : Nat → Nat}

/-- The basis gives dimensions above the indices for the vectors that the statement creates. -/
def InBounds (idx dimK : K → Nat) (dimI : Nat → Nat) : VStmt K S R → Prop
  | .key _ k _ => idx k < dimK k
  | .terms _ items => ∀ e ∈ items, (∀ e' ∈ items, idx e'.1 ≤ idx e.1) → idx e.1 < dimI (idx e.1)
  | _ => True

theorem fold_steps_ub (es : List (Nat × S)) (l : List S) (h : ∃ e ∈ es, l.length ≤ e.1) : es.foldlM (Dense.fromIteratorStep C) (Dense.ofVec l) = .ub := by
  induction es generalizing l with
  | nil => obtain ⟨e, he, _⟩ := h; cases he
  | cons e es ih =>
    rw [List.foldlM_cons]
    by_cases he : e.1 < l.length
    · have : Dense.fromIteratorStep C (Dense.ofVec l) e = .ok (Dense.ofVec (l.modify e.1 fun x => C.add x e.2)) := by
        unfold Dense.fromIteratorStep
        rw [Dense.ofVec_data, modifyUnchecked_ok _ he, Res.bind_ok, Dense.writeSlice_ofVec]
        rfl
      rw [this, Res.bind_ok]
      refine ih _ ?_
      obtain ⟨e', h1, h2⟩ := h
      rw [List.length_modify]
      rcases List.mem_cons.1 h1 with rfl | h1
      · omega
      · exact ⟨e', h1, h2⟩
    · unfold Dense.fromIteratorStep
      rw [Dense.ofVec_data, modifyUnchecked_ub _ (by omega)]
      rfl

theorem fromIterator_ub (items : List (K × S)) (hi : ∀ k, B.keyToIndex k = .ok (idx k)) (hd : ∀ i, B.dimForIndex i = .ok (dimI i))
    (h : ∃ e ∈ items, (∀ e' ∈ items, idx e'.1 ≤ idx e.1) ∧ dimI (idx e.1) ≤ idx e.1) : Dense.fromIterator C B items = .ub := by
  have hmap : items.mapM (fun e => do
      let i ← B.keyToIndex e.1
      return (i, e.2)) = (.ok (items.map fun e => (idx e.1, e.2)) : Res _) := by
    clear h
    induction items with
    | nil => rfl
    | cons e es ih =>
      rw [List.mapM_cons, hi, ih]
      rfl
  obtain ⟨e, he, hm, hle⟩ := h
  set vec := items.map fun e => (idx e.1, e.2) with hvec
  set srt := vec.mergeSort (fun a b => decide (a.1 ≤ b.1)) with hsrt
  have hperm : srt.Perm vec := List.mergeSort_perm _ _
  have hmem : (idx e.1, e.2) ∈ srt := hperm.mem_iff.2 (List.mem_map.2 ⟨e, he, rfl⟩)
  have hsne : srt ≠ [] := List.ne_nil_of_mem hmem
  have hpw : srt.Pairwise (fun a b => a.1 ≤ b.1) := by
    have := List.pairwise_mergeSort (le := fun a b : Nat × S => decide (a.1 ≤ b.1))
      (by intro a b c; simp; omega) (by intro a b; simp; omega) vec
    exact this.imp (by intro a b; simp)
  have hlast : srt.getLast? = some (srt.getLast hsne) := List.getLast?_eq_some_getLast hsne
  set last := srt.getLast hsne with hl
  have h1 : idx e.1 ≤ last.1 := by
    have he' := hmem
    rw [← List.dropLast_concat_getLast hsne, List.mem_append] at he'
    rcases he' with he' | he'
    · rw [← List.dropLast_concat_getLast hsne, List.pairwise_append] at hpw
      exact hpw.2.2 _ he' _ (by simp [hl])
    · simp only [List.mem_singleton] at he'
      rw [hl, ← he']
  have h2 : last.1 ≤ idx e.1 := by
    obtain ⟨e0, he0, hle0⟩ := List.mem_map.1 (hperm.mem_iff.1 (List.getLast_mem hsne))
    rw [hl, ← hle0]
    exact hm e0 he0
  have h3 : last.1 = idx e.1 := by omega
  unfold Dense.fromIterator
  rw [hmap, Res.bind_ok]
  simp only [← hsrt, hlast, hd, Res.bind_ok]
  exact fold_steps_ub srt _ ⟨_, hmem, by rw [List.length_replicate, h3]; exact hle⟩

theorem fromIterator_returns (items : List (K × S)) (hi : ∀ k, B.keyToIndex k = .ok (idx k)) (hd : ∀ i, B.dimForIndex i = .ok (dimI i))
    (h : ∀ e ∈ items, (∀ e' ∈ items, idx e'.1 ≤ idx e.1) → idx e.1 < dimI (idx e.1)) : ∃ d, Dense.fromIterator C B items = .ok d := by
  by_cases hne : items = []
  · subst hne
    exact ⟨Dense.new, by simp [Dense.fromIterator]⟩
  · obtain ⟨e, he, hm⟩ : ∃ e ∈ items, ∀ e' ∈ items, idx e'.1 ≤ idx e.1 := by
      clear h
      induction items with
      | nil => exact absurd rfl hne
      | cons e es ih =>
        by_cases h0 : es = []
        · subst h0
          exact ⟨e, by simp, by simp⟩
        · obtain ⟨e', h1, h2⟩ := ih h0
          by_cases h3 : idx e'.1 ≤ idx e.1
          · exact ⟨e, by simp, by simpa using fun a b h => (h2 (a, b) h).trans h3⟩
          · exact ⟨e', by simp [h1], by simpa using ⟨by omega, fun a b h => h2 (a, b) h⟩⟩
    have := h e he hm
    obtain ⟨d, h1, _⟩ := Dense.fromIterator_ok C B items idx (fun e _ => hi e.1) hne (dimI (idx e.1)) (fun e' h => (hm e' h).trans_lt this)
      (fun e' h' hm' => by rw [hd, Nat.le_antisymm (hm e' h') (hm' e he)])
    exact ⟨d, h1⟩

theorem dense_returns (hi : ∀ k, B.keyToIndex k = .ok (idx k)) (hk : ∀ k, B.dimForKey k = .ok (dimK k)) (hd : ∀ i, B.dimForIndex i = .ok (dimI i))
    (σ : Nat → Dense S) (s : VStmt K S R) :
    (InBounds idx dimK dimI s → ∃ σ', runVStmt C (Dense.ops C B) σ s = .ok σ') ∧ (¬InBounds idx dimK dimI s → runVStmt C (Dense.ops C B) σ s = .ub) := by
  have hg : ∀ d k f, ∃ r, (Dense.ops C B).getMut d k f = .ok r := by
    intro d k f
    show ∃ r, Dense.getMut B d k f = .ok r
    unfold Dense.getMut
    rw [hi, Res.bind_ok]
    split_ifs <;> exact ⟨_, rfl⟩
  have hins : ∀ d k x, (Dense.ops C B).insertSingle d k x = .ok d := by
    intro d k x
    show Dense.insertSingle B d k x = .ok d
    unfold Dense.insertSingle
    rw [hi]
    rfl
  cases s with
  | key i k x =>
    refine ⟨fun h => ⟨setReg σ i (Dense.ofVec ((List.replicate (dimK k) C.zero).modify (idx k) fun _ => x)), ?_⟩, fun h => ?_⟩
    · show (do let v ← Dense.fromKeyScalar C B k x; return setReg σ i v) = _
      rw [Dense.fromKeyScalar_ok C B (hk k) (hi k) h]
      rfl
    · show (do let v ← Dense.fromKeyScalar C B k x; return setReg σ i v) = _
      rw [Dense.fromKeyScalar_ub C B (hk k) (hi k) (not_lt.1 h)]
      rfl
  | terms i items =>
    refine ⟨fun h => ?_, fun h => ?_⟩
    · obtain ⟨d, h1⟩ := fromIterator_returns (C := C) items hi hd h
      refine ⟨setReg σ i d, ?_⟩
      show (do let v ← Dense.fromIterator C B items; return setReg σ i v) = _
      rw [h1]
      rfl
    · show (do let v ← Dense.fromIterator C B items; return setReg σ i v) = _
      rw [fromIterator_ub items hi hd (by
        unfold InBounds at h
        push Not at h
        exact h)]
      rfl
  | modify i k f =>
    refine ⟨fun _ => ?_, fun h => absurd trivial h⟩
    obtain ⟨r, hr⟩ := hg (σ i) k f
    refine ⟨setReg σ i r.2, ?_⟩
    show (do let r ← (Dense.ops C B).getMut (σ i) k f; return setReg σ i r.2) = _
    rw [hr]
    rfl
  | erase i k =>
    refine ⟨fun _ => ?_, fun h => absurd trivial h⟩
    obtain ⟨r, hr⟩ := hg (σ i) k fun _ => C.zero
    refine ⟨setReg σ i r.2, ?_⟩
    show (do let v ← (do let r ← (Dense.ops C B).getMut (σ i) k fun _ => C.zero; return r.2); return setReg σ i v) = _
    rw [hr]
    rfl
  | addKey i k x =>
    refine ⟨fun _ => ?_, fun h => absurd trivial h⟩
    obtain ⟨⟨b, d⟩, hr⟩ := hg (σ i) k fun y => C.add y x
    refine ⟨setReg σ i d, ?_⟩
    show (KeyExt.addScalarMultiply C (Dense.ops C B) (σ i) k x >>= fun v => pure (setReg σ i v)) = _
    unfold KeyExt.addScalarMultiply
    rw [hr]
    cases b
    · show (do let v ← (Dense.ops C B).insertSingle d k x; return setReg σ i v) = _
      rw [hins]
      rfl
    · rfl
  | subKey i k x =>
    refine ⟨fun _ => ?_, fun h => absurd trivial h⟩
    obtain ⟨⟨b, d⟩, hr⟩ := hg (σ i) k fun y => C.sub y x
    refine ⟨setReg σ i d, ?_⟩
    show (KeyExt.subScalarMultiply C (Dense.ops C B) (σ i) k x >>= fun v => pure (setReg σ i v)) = _
    unfold KeyExt.subScalarMultiply
    rw [hr]
    cases b
    · show (do let v ← (Dense.ops C B).insertSingle d k (C.uminus x); return setReg σ i v) = _
      rw [hins]
      rfl
    · rfl
  | put i k x =>
    refine ⟨fun _ => ⟨setReg σ i (σ i), ?_⟩, fun h => absurd trivial h⟩
    show (do let v ← (Dense.ops C B).insertSingle (σ i) k x; return setReg σ i v) = _
    rw [hins]
    rfl
  | clear i =>
    refine ⟨fun _ => ?_, fun h => absurd trivial h⟩
    have : ∃ d, (Dense.ops C B).clear (σ i) = .ok d := by
      show ∃ d, Dense.clear C (σ i) = .ok d
      unfold Dense.clear
      split <;> exact ⟨_, rfl⟩
    obtain ⟨d, hd⟩ := this
    refine ⟨setReg σ i d, ?_⟩
    show (do let v ← (Dense.ops C B).clear (σ i); return setReg σ i v) = _
    rw [hd]
    rfl
  | _ => exact ⟨fun _ => ⟨_, rfl⟩, fun h => absurd trivial h⟩

/-- C113, memory safety: with any basis whose methods return, a program on dense vectors (all statements allowed, any coefficients) either returns, or writes out of bounds;
it writes out of bounds exactly if the basis gives for some created vector a dimension that does not exceed the largest index. -/
theorem C113_memory (hi : ∀ k, B.keyToIndex k = .ok (idx k)) (hk : ∀ k, B.dimForKey k = .ok (dimK k)) (hd : ∀ i, B.dimForIndex i = .ok (dimI i))
    (prog : List (VStmt K S R)) :
    ((∃ σ, runVProg C (Dense.ops C B) prog = .ok σ) ↔ ∀ s ∈ prog, InBounds idx dimK dimI s) ∧
      (runVProg C (Dense.ops C B) prog = .ub ↔ ∃ s ∈ prog, ¬InBounds idx dimK dimI s) := by
  have h1 : (∀ s ∈ prog, InBounds idx dimK dimI s) → ∃ σ, runVProg C (Dense.ops C B) prog = .ok σ := by
    intro h
    unfold runVProg
    generalize (fun _ => (Dense.ops C B).new : Nat → Dense S) = σ
    induction prog generalizing σ with
    | nil => exact ⟨_, rfl⟩
    | cons s prog ih =>
      obtain ⟨σ', e⟩ := (dense_returns hi hk hd σ s).1 (h s (by simp))
      rw [List.foldlM_cons, e, Res.bind_ok]
      exact ih (fun s h' => h s (by simp [h'])) σ'
  have h2 : (∃ s ∈ prog, ¬InBounds idx dimK dimI s) → runVProg C (Dense.ops C B) prog = .ub := by
    clear h1
    intro h
    unfold runVProg
    generalize (fun _ => (Dense.ops C B).new : Nat → Dense S) = σ
    induction prog generalizing σ with
    | nil => obtain ⟨s, h, _⟩ := h; cases h
    | cons s prog ih =>
      rw [List.foldlM_cons]
      by_cases hs : InBounds idx dimK dimI s
      · obtain ⟨σ', e⟩ := (dense_returns hi hk hd σ s).1 hs
        rw [e, Res.bind_ok]
        obtain ⟨s', h1, h2⟩ := h
        rcases List.mem_cons.1 h1 with rfl | h1
        · exact absurd hs h2
        · exact ih ⟨s', h1, h2⟩ σ'
      · rw [(dense_returns hi hk hd σ s).2 hs]
        rfl
  refine ⟨⟨fun ⟨σ, e⟩ => ?_, h1⟩, ⟨fun e => ?_, h2⟩⟩
  · by_contra h
    push Not at h
    rw [h2 h] at e
    cases e
  · by_contra h
    push Not at h
    obtain ⟨σ, e'⟩ := h1 h
    rw [e'] at e
    cases e

end

/-! ## Examples -/

/-- The basis of the crate's tests satisfies the hypotheses for the keys below 255. -/
theorem integerBasis_on : BasisOn integerBasis (· < 255) id :=
  ⟨fun _ _ => rfl, fun _ _ _ _ h => h, fun _ h => ⟨255, rfl, h⟩, fun _ h => ⟨255, rfl, h⟩⟩

/-- The tensor basis satisfies the hypotheses for the keys of all words up to a degree `D` with `N ^ (D + 1) < 2⁶⁴`. -/
theorem tensorBasis_on (p : Profile) (N D : Nat) (h2 : 2 ≤ N) (hN : N < 2 ^ 32) (hm : D ≤ TensorKey.maxDepth N) (hp : N ^ (D + 1) < 2 ^ 64) :
    ∃ idx, BasisOn (tensorBasis p N) (fun k => ∃ w, ValidWord N w ∧ w.length ≤ D ∧ TensorKey.fromLetters p N w = .ok k) idx := by
  have hk : ∀ w k, ValidWord N w → w.length ≤ D → TensorKey.fromLetters p N w = .ok k → (tensorBasis p N).keyToIndex k = .ok (wordIndex N w) ∧ k = keyOf N w := by
    intro w k hw hl h
    rw [TensorKey.fromLetters_ok p N (by omega) hN w hw (hl.trans hm)] at h
    cases h
    exact ⟨TensorBasis.keyToIndex_keyOf p N (by omega) hN w hw (hl.trans hm), rfl⟩
  have hdim : ∀ w k, ValidWord N w → w.length ≤ D → TensorKey.fromLetters p N w = .ok k → _ := fun w k hw hl h =>
    C13_vector_dimension p N h2 hN w hw (hl.trans hm) ((Nat.pow_le_pow_right (by omega) (by omega)).trans_lt hp) k h
  refine ⟨fun k => match (tensorBasis p N).keyToIndex k with | .ok i => i | _ => 0, ?_, ?_, ?_, ?_⟩
  · rintro k ⟨w, hw, hl, h⟩
    rw [(hk w k hw hl h).1]
  · rintro k k' ⟨w, hw, hl, h⟩ ⟨w', hw', hl', h'⟩ he
    rw [(hk w k hw hl h).1, (hk w' k' hw' hl' h').1] at he
    rw [(hk w k hw hl h).2, (hk w' k' hw' hl' h').2, wordIndex_inj hw hw' he]
  · rintro k ⟨w, hw, hl, h⟩
    obtain ⟨i, dim, a1, a2, -, a4, -⟩ := hdim w k hw hl h
    exact ⟨dim, a2, by rw [show (tensorBasis p N).keyToIndex k = .ok i from a1]; exact a4⟩
  · rintro k ⟨w, hw, hl, h⟩
    obtain ⟨i, dim, a1, -, a3, a4, -⟩ := hdim w k hw hl h
    rw [show (tensorBasis p N).keyToIndex k = .ok i from a1]
    exact ⟨dim, a3, a4⟩

example : ∃ idx, BasisOn (tensorBasis .debug 3) (fun k => ∃ w, ValidWord 3 w ∧ w.length ≤ 5 ∧ TensorKey.fromLetters .debug 3 w = .ok k) idx :=
  tensorBasis_on .debug 3 5 (by omega) (by omega) (by decide +kernel) (by omega)

/-- Seven statements over the integers 0, …, 254 with all the statements that both kinds of vectors execute as they say. -/
def exampleVProg (s r : S) : List (VStmt Nat S S) :=
  [.key 0 7 s, .terms 1 [(200, s), (3, s)], .add 0 1, .div 0 r, .scale 1 s, .neg 1, .sub 0 1, .clear 1]

example : ∃ σ, runVProg (fieldCoeff Rat) (Dense.ops (fieldCoeff Rat) integerBasis) (exampleVProg 6 3 ++ [.copy 1 0, .addScaled 0 1 5, .subDivided 1 0 4, .swap 0 1]) = .ok σ ∧
    ∀ i k, k < 255 → ∃ x, (Dense.ops (fieldCoeff Rat) integerBasis).get (σ i) k = .ok x ∧
      x.getD 0 = linearVProg (exampleVProg 6 3 ++ [.copy 1 0, .addScaled 0 1 5, .subDivided 1 0 4, .swap 0 1]) i k :=
  C113_dense_exact (fieldCoeff_isField Rat) (fieldCoeff_eqLawful Rat) integerBasis_on _ (by simp [exampleVProg, VStmt.keys])
    (by simp [exampleVProg, OnDense, ModifyKeepsZero])

example : ∃ σ, runVProg (fieldCoeff Rat) (Sparse.ops (fieldCoeff Rat)) (exampleVProg 6 3 ++ [.put 0 9 4, .addKey 0 9 2, .subKey 1 1 1, .modify 0 9 (· * 2)]) = .ok σ ∧
    ∀ i, (σ i).WF ∧ ∀ k, ∃ x, (Sparse.ops (fieldCoeff Rat)).get (σ i) k = .ok x ∧
      x.getD 0 = linearVProg (exampleVProg 6 3 ++ [.put 0 9 4, .addKey 0 9 2, .subKey 1 1 1, .modify 0 9 (· * 2)]) i k :=
  C113_sparse_exact (fieldCoeff_isField Rat) (fieldCoeff_eqLawful Rat) _ (by simp [exampleVProg, OnSparse, ModifyKeepsZero])

example : ∃ σ τ, runVProg (floatCoeff .f32) (Dense.ops (floatCoeff .f32) integerBasis) (exampleVProg (.fin 6) (.fin 3)) = .ok σ ∧
    runVProg (floatCoeff .f32) (Sparse.ops (floatCoeff .f32)) (exampleVProg (.fin 6) (.fin 3)) = .ok τ ∧ ∀ i k, k < 255 →
      ∃ x y, (Dense.ops (floatCoeff .f32) integerBasis).get (σ i) k = .ok x ∧ (Sparse.ops (floatCoeff .f32)).get (τ i) k = .ok y ∧
        SameUpToZero (x.getD (.zero false)) (y.getD (.zero false)) :=
  C113_float (.inl rfl) integerBasis_on _ (by simp [exampleVProg, VStmt.keys])
    (by
      have h6 : Fl.Valid .f32 (.fin 6) := ⟨by decide, 3, 1, by decide, by decide, by decide, by norm_num⟩
      have h3 : Fl.Valid .f32 (.fin 3) := ⟨by decide, 3, 0, by decide, by decide, by decide, by simp⟩
      simp [exampleVProg, OnDense, OnSparse, TameFloat, h6, h3, Fl.isFin]
      rintro _ _ (⟨_, rfl⟩ | ⟨_, rfl⟩) <;> exact h6)
    (by
      intro pre i z h
      have := h.subset (show VStmt.scale i (.zero z) ∈ _ by simp)
      simp [exampleVProg] at this)

/-- The basis of the crate's tests with the key 255: `from_key_scalar` writes one place behind the 255 entries. -/
example : runVProg (fieldCoeff Rat) (Dense.ops (fieldCoeff Rat) integerBasis) [.key 0 254 1, .key 1 255 1] = .ub :=
  (C113_memory (idx := id) (dimK := fun _ => 255) (dimI := fun _ => 255) (fun _ => rfl) (fun _ => rfl) (fun _ => rfl) _).2.2 ⟨.key 1 255 1, by simp, by simp [InBounds]⟩

example : runVProg (fieldCoeff Rat) (Dense.ops (fieldCoeff Rat) integerBasis) [.terms 0 [(255, 1), (3, 2)]] = .ub :=
  (C113_memory (idx := id) (dimK := fun _ => 255) (dimI := fun _ => 255) (fun _ => rfl) (fun _ => rfl) (fun _ => rfl) _).2.2
    ⟨.terms 0 [(255, 1), (3, 2)], by simp, by simp [InBounds]⟩

example : ∃ σ, runVProg (fieldCoeff Rat) (Dense.ops (fieldCoeff Rat) integerBasis) [.key 0 254 1, .put 0 255 1, .erase 0 255, .addKey 0 1000 3] = .ok σ :=
  (C113_memory (idx := id) (dimK := fun _ => 255) (dimI := fun _ => 255) (fun _ => rfl) (fun _ => rfl) (fun _ => rfl) _).1.2 (by simp [InBounds])

end RA
