import Verif.Proofs.WordFn
import Verif.Props.Inplace
import Mathlib.Algebra.CharZero.Defs
import Mathlib.Tactic.LinearCombination

/-!
# Scaled products (C38), `exp`, `fmexp` and `log` (C39-C41)

The traits `Algebra` and `FreeTensor` are generic.  `CorrectTensor T C val` says that an implementation `T` of the methods they build on does what those
methods are documented to do: `val v` is the coefficient function of `v`, and products agree with the tensor product on all words up to the
truncation degree.  The statements below hold for every such implementation; `wordOps` is one.
-/

namespace RA
open Spec TensorKey TensorBasis DenseAlg WordFn

/-- An implementation of `Vector` and of the two required methods of `Algebra` whose operations are the tensor operations on coefficient functions. -/
structure CorrectTensor {V S : Type} [Field S] (T : AlgOps V TensorKey S S) (C : Coeff S S) (val : V → WordFn S) : Prop where
  unit : ∃ u, T.fromKey TensorKey.new = .ok u ∧ val u = 1
  new : val T.new = 0
  toOwned : ∀ v, ∃ r, T.toOwned v = .ok r ∧ val r = val v
  dropConst : ∀ v, ∃ b r, T.getMut v TensorKey.new (fun _ => C.zero) = .ok (b, r) ∧ val r = fun w => if w = [] then 0 else val v w
  addInplace : ∀ v o, ∃ r, T.addInplace v o = .ok r ∧ val r = val v + val o
  addScalarRdivide : ∀ v o (q : S), ∃ r, T.addScalarRdivide v o q = .ok r ∧ val r = val v + q⁻¹ • val o
  subScalarRdivide : ∀ v o (q : S), ∃ r, T.subScalarRdivide v o q = .ok r ∧ val r = val v - q⁻¹ • val o
  mulAddInto : ∀ v a b (f : S → S) (c : S) d, (∀ x, f x = c * x) →
    ∃ r, T.mulAddInto v a b f (some d) = .ok r ∧ EqTo d (val r) (val v + c • (val a * val b))
  mulInto : ∀ v b (f : S → S) (c : S) d, (∀ x, f x = c * x) →
    ∃ r, T.mulInto v b f (some d) = .ok r ∧ EqTo d (val r) (c • (val v * val b))

/-- Formal tensors, operated on directly. -/
noncomputable def wordOps (S : Type) [Field S] : AlgOps (WordFn S) TensorKey S S :=
  { (VecReq.full
      { eq := fun _ _ => false, new := 0, fromKey := fun k => if k = TensorKey.new then .ok 1 else .panic, fromKeyScalar := fun _ _ => .panic,
        fromIterator := fun _ => .panic, swap := fun a b => .ok (b, a), toOwned := fun v => .ok v, clear := fun _ => .ok 0,
        get := fun v k => if k = TensorKey.new then .ok (some (v [])) else .panic
        getMut := fun v k f => if k = TensorKey.new then .ok (true, fun w => if w = [] then f (v w) else v w) else .panic
        insertSingle := fun _ _ _ => .panic, insert := fun _ _ => .panic, erase := fun _ _ => .panic,
        uminusInplace := fun v => .ok (-v), addInplace := fun v o => .ok (v + o), subInplace := fun v o => .ok (v - o),
        scalarLmultiplyInplace := fun v s => .ok (s • v), scalarRdivideInplace := fun v r => .ok (r⁻¹ • v) } : VecOps (WordFn S) TensorKey S S) with
    mulAddInto := fun v a b f d => .ok fun w => if (match d with | some d => decide (w.length ≤ d) | none => true) then v w + f ((a * b) w) else v w
    mulInto := fun v b f d => .ok fun w => if (match d with | some d => decide (w.length ≤ d) | none => true) then f ((v * b) w) else v w }

theorem wordOps_correct (S : Type) [Field S] [DecidableEq S] : CorrectTensor (wordOps S) (fieldCoeff S) id where
  unit := ⟨1, rfl, rfl⟩
  new := rfl
  toOwned := fun v => ⟨v, rfl, rfl⟩
  dropConst := fun v => ⟨true, _, rfl, by funext w; rfl⟩
  addInplace := fun v o => ⟨_, rfl, rfl⟩
  addScalarRdivide := fun v o q => ⟨_, rfl, rfl⟩
  subScalarRdivide := fun v o q => ⟨_, rfl, rfl⟩
  mulAddInto := fun v a b f c d hf => ⟨_, rfl, fun w hw => by
    simp only [id, hw, decide_true, if_true, hf]
    rfl⟩
  mulInto := fun v b f c d hf => ⟨_, rfl, fun w hw => by
    simp only [id, hw, decide_true, if_true, hf]
    rfl⟩

section
variable {V S : Type} [Field S] (C : Coeff S S) (p : Profile) (T : AlgOps V TensorKey S S) (val : V → WordFn S)

/-! ## C38: scaled in-place products -/

/-- C38.  `mul_scal_lprod` and `mul_scal_rprod` multiply by `rhs * s`, `mul_rat_ldiv` by `rhs / r`, up to the truncation degree, in every correct
implementation. -/
theorem C38_scaled_products (hC : C.IsField) (hT : CorrectTensor T C val) (v rhs : V) (s : S) (d : Nat) :
    (∃ r, T.mulScalLprod C v rhs s (some d) = .ok r ∧ EqTo d (val r) (s • (val v * val rhs))) ∧
    (∃ r, T.mulScalRprod C v rhs s (some d) = .ok r ∧ EqTo d (val r) (s • (val v * val rhs))) ∧
    (∃ r, T.mulRatLdiv C v rhs s (some d) = .ok r ∧ EqTo d (val r) (s⁻¹ • (val v * val rhs))) :=
  ⟨hT.mulInto v rhs _ s d (fun x => hC.mul s x), hT.mulInto v rhs _ s d (fun x => by rw [hC.mul, mul_comm]),
    hT.mulInto v rhs _ s⁻¹ d (fun x => by rw [hC.div, div_eq_mul_inv, mul_comm])⟩

example (v w : WordFn Rat) := C38_scaled_products (fieldCoeff Rat) (wordOps Rat) id (fieldCoeff_isField Rat) (wordOps_correct Rat) v w (2 / 3) 4

/-- C38, full statement for `mul_rat_rdiv`: it multiplies by `rhs / r`. -/
def C38_mul_rat_rdiv_full : Prop :=
  ∀ v rhs r d, ∃ x, T.mulRatRdiv C v rhs r (some d) = .ok x ∧ EqTo d (val x) (r⁻¹ • (val v * val rhs))

/-- C38.  `mul_rat_rdiv` multiplies by `rhs * r`: it does not divide. -/
theorem C38_mul_rat_rdiv_actual (hC : C.IsField) (hT : CorrectTensor T C val) (v rhs : V) (r : S) (d : Nat) :
    ∃ x, T.mulRatRdiv C v rhs r (some d) = .ok x ∧ EqTo d (val x) (r • (val v * val rhs)) :=
  hT.mulInto v rhs _ r d (fun x => by rw [hC.mul, mul_comm])

example (v w : WordFn Rat) := C38_mul_rat_rdiv_actual (fieldCoeff Rat) (wordOps Rat) id (fieldCoeff_isField Rat) (wordOps_correct Rat) v w (2 / 3) 4

/-- C38 is false of `mul_rat_rdiv` in every correct implementation over a field where `2 * 2 ≠ 1`. -/
theorem C38_mul_rat_rdiv_refuted (hC : C.IsField) (hT : CorrectTensor T C val) (h2 : (2 : S) ≠ 0) (h3 : (3 : S) ≠ 0) :
    ¬ C38_mul_rat_rdiv_full C T val := by
  intro h
  obtain ⟨u, _, hu⟩ := hT.unit
  obtain ⟨x, hx, ex⟩ := h u u 2 0
  obtain ⟨y, hy, ey⟩ := C38_mul_rat_rdiv_actual C T val hC hT u u 2 0
  cases hx.symm.trans hy
  have := (ex [] (by simp)).symm.trans (ey [] (by simp))
  rw [hu, mul_one, smul_apply, smul_apply, one_apply, if_pos rfl, mul_one, mul_one] at this
  have h4 : (2 : S) * 2 = 1 := by rw [show (2 : S) * 2 = 2 * 2⁻¹ by rw [this], mul_inv_cancel₀ h2]
  exact h3 (by linear_combination h4)

/-- C38 for `mul_rat_rdiv` by a self-inverse scalar (`1` or `-1`).  Missing: every other divisor, where the code multiplies. -/
theorem C38_mul_rat_rdiv_partial (hC : C.IsField) (hT : CorrectTensor T C val) (v rhs : V) (r : S) (hr : r * r = 1) (d : Nat) :
    ∃ x, T.mulRatRdiv C v rhs r (some d) = .ok x ∧ EqTo d (val x) (r⁻¹ • (val v * val rhs)) := by
  rw [inv_eq_of_mul_eq_one_right hr]
  exact C38_mul_rat_rdiv_actual C T val hC hT v rhs r d

example (v w : WordFn Rat) := C38_mul_rat_rdiv_partial (fieldCoeff Rat) (wordOps Rat) id (fieldCoeff_isField Rat) (wordOps_correct Rat) v w (-1)
  (by norm_num) 4

/-! ## C39: `exp` -/

/-- The exponential series to order `n`. -/
def expSeries (x : WordFn S) (n : Nat) : WordFn S := ∑ k ∈ Finset.range (n + 1), ((k.factorial : S)⁻¹) • x ^ k

/-- C39, full statement. -/
def C39_exp_full (maxDegree : Nat) : Prop :=
  ∀ x, ∃ r, FreeTensor.exp C T maxDegree x = .ok r ∧ EqTo maxDegree (val r) (expSeries (val x) maxDegree)

theorem expLoop (hC : C.IsField) (hT : CorrectTensor T C val) (maxDegree : Nat) (x tunit : V) (hu : val tunit = 1) (L : List Nat) (r : V)
    (g : WordFn S) (hg : EqTo maxDegree (val r) g) :
    ∃ r', L.foldlM (FreeTensor.expStep C T maxDegree x tunit) r = .ok r' ∧
      EqTo maxDegree (val r') (L.foldl (fun r (i : Nat) => (i : S) • (r * val x) + 1) g) := by
  induction L generalizing r g with
  | nil => exact ⟨r, rfl, hg⟩
  | cons i L ih =>
    obtain ⟨r1, h1, e1⟩ := C38_mul_rat_rdiv_actual C T val hC hT r x (C.fromDegree i) maxDegree
    obtain ⟨r2, h2, e2⟩ := hT.addInplace r1 tunit
    obtain ⟨r', h3, e3⟩ := ih r2 ((i : S) • (g * val x) + 1) (by
      rw [e2, hu]
      refine EqTo.add (e1.trans ?_) (EqTo.refl _ _)
      rw [hC.fromDegree]
      exact EqTo.smul _ (EqTo.mul hg (EqTo.refl _ _)))
    refine ⟨r', ?_, e3⟩
    rw [List.foldlM_cons]
    unfold FreeTensor.expStep
    rw [h1]
    simp only [Res.bind_ok]
    rw [h2]
    exact h3

/-- C39, what `exp` computes in every correct implementation: `∑_{k < MAX_DEGREE} k! x^k` (just `1` when `MAX_DEGREE` is 0 or 1). -/
theorem C39_exp_actual (hC : C.IsField) (hT : CorrectTensor T C val) (maxDegree : Nat) (x : V) :
    ∃ r, FreeTensor.exp C T maxDegree x = .ok r ∧
      EqTo maxDegree (val r) (∑ k ∈ Finset.range (maxDegree - 1 + 1), (k.factorial : S) • (val x) ^ k) := by
  obtain ⟨u, hu, eu⟩ := hT.unit
  obtain ⟨r, h1, e1⟩ := expLoop C T val hC hT maxDegree x u eu (List.range' 1 (maxDegree - 1)).reverse u 1 (by rw [eu]; exact EqTo.refl _ _)
  refine ⟨r, ?_, ?_⟩
  · unfold FreeTensor.exp
    rw [hu]
    exact h1
  · rw [horner] at e1
    simp only [one_mul] at e1
    rw [Finset.sum_range_succ]
    exact e1

example := C39_exp_actual (fieldCoeff Rat) (wordOps Rat) id (fieldCoeff_isField Rat) (wordOps_correct Rat) 4 letter

/-- Evaluation of a combination of powers of the letter at a word of ones. -/
theorem letter_sum (c : Nat → S) (n m : Nat) :
    (∑ k ∈ Finset.range n, c k • (letter : WordFn S) ^ k) (List.replicate m 1) = if m < n then c m else 0 := by
  rw [sum_apply]
  simp only [smul_apply, letter_pow, mul_ite, mul_one, mul_zero]
  rw [Finset.sum_ite_eq]
  simp

/-- The two series differ on the letter, at every truncation degree from 1. -/
theorem series_differ [CharZero S] (maxDegree : Nat) (h : 1 ≤ maxDegree) :
    ¬ EqTo maxDegree (∑ k ∈ Finset.range (maxDegree - 1 + 1), (k.factorial : S) • (letter : WordFn S) ^ k) (expSeries letter maxDegree) := by
  intro he
  unfold expSeries at he
  by_cases h1 : maxDegree = 1
  · subst h1
    have := he (List.replicate 1 1) (by simp)
    rw [letter_sum, letter_sum (fun k => ((k.factorial : S)⁻¹))] at this
    simp at this
  · have := he (List.replicate 2 1) (by simp; omega)
    rw [letter_sum, letter_sum (fun k => ((k.factorial : S)⁻¹)), if_pos (show 2 < maxDegree + 1 by omega)] at this
    have h2 : (2 : S) ≠ 0 := two_ne_zero
    split_ifs at this
    · have h4 : ((3 : Nat) : S) = 0 := by
        rw [show Nat.factorial 2 = 2 from rfl] at this
        push_cast at this ⊢
        field_simp at this
        linear_combination this
      exact absurd (Nat.cast_eq_zero.1 h4) (by omega)
    · rw [show Nat.factorial 2 = 2 from rfl] at this
      push_cast at this
      exact inv_ne_zero h2 this.symm

/-- C39 is false at every truncation degree from 1 of every correct implementation that can represent a letter, in characteristic 0. -/
theorem C39_exp_refuted [CharZero S] (hC : C.IsField) (hT : CorrectTensor T C val) (maxDegree : Nat) (h : 1 ≤ maxDegree) (x : V)
    (hx : val x = letter) : ¬ C39_exp_full C T val maxDegree := by
  intro hf
  obtain ⟨r, h1, e1⟩ := hf x
  obtain ⟨r', h2, e2⟩ := C39_exp_actual C T val hC hT maxDegree x
  cases h1.symm.trans h2
  rw [hx] at e1 e2
  exact series_differ maxDegree h (e2.symm.trans e1)

theorem pow_vanish (x : WordFn S) (d k : Nat) (hx : EqTo d (x * x) 0) (hk : 2 ≤ k) : EqTo d (x ^ k) 0 := by
  obtain ⟨j, rfl⟩ : ∃ j, k = j + 2 := ⟨k - 2, by omega⟩
  rw [pow_add, pow_two]
  have := EqTo.mul (EqTo.refl d (x ^ j)) hx
  rwa [mul_zero] at this

/-- If `x x = 0` up to the truncation degree, a combination of powers depends only on the first two coefficients. -/
theorem sum_vanish (a x : WordFn S) (d n : Nat) (hn : 2 ≤ n) (hx : EqTo d (x * x) 0) (c : Nat → S) :
    EqTo d (∑ k ∈ Finset.range n, c k • (a * x ^ k)) (c 0 • a + c 1 • (a * x)) := by
  obtain ⟨m, rfl⟩ : ∃ m, n = m + 2 := ⟨n - 2, by omega⟩
  induction m with
  | zero =>
    rw [Finset.sum_range_succ, Finset.sum_range_succ, Finset.sum_range_zero]
    simp only [pow_zero, pow_one, mul_one, zero_add]
    exact EqTo.refl _ _
  | succ m ih =>
    rw [show m + 1 + 2 = (m + 2) + 1 by omega, Finset.sum_range_succ]
    have h1 := EqTo.smul (c (m + 2)) (EqTo.mul (EqTo.refl d a) (pow_vanish x d (m + 2) hx (by omega)))
    rw [mul_zero, smul_zero] at h1
    have := EqTo.add (ih (by omega)) h1
    rwa [add_zero] at this

/-- C39 where it does hold: `MAX_DEGREE = 0`, or arguments with `x x = 0` up to the truncation degree and `MAX_DEGREE ≥ 2`.  Missing: every argument with a
nonzero square, and `MAX_DEGREE = 1`. -/
theorem C39_exp_partial (hC : C.IsField) (hT : CorrectTensor T C val) (maxDegree : Nat) (x : V)
    (h : maxDegree = 0 ∨ (2 ≤ maxDegree ∧ EqTo maxDegree (val x * val x) 0)) :
    ∃ r, FreeTensor.exp C T maxDegree x = .ok r ∧ EqTo maxDegree (val r) (expSeries (val x) maxDegree) := by
  obtain ⟨r, h1, e1⟩ := C39_exp_actual C T val hC hT maxDegree x
  refine ⟨r, h1, e1.trans ?_⟩
  unfold expSeries
  rcases h with rfl | ⟨h2, hx⟩
  · simp only [Nat.zero_sub, Nat.zero_add, Finset.sum_range_one, Nat.factorial_zero, Nat.cast_one, inv_one]
    exact EqTo.refl _ _
  · have s1 := sum_vanish 1 (val x) maxDegree (maxDegree - 1 + 1) (by omega) hx (fun k => (k.factorial : S))
    have s2 := sum_vanish 1 (val x) maxDegree (maxDegree + 1) (by omega) hx (fun k => (k.factorial : S)⁻¹)
    simp only [one_mul, Nat.factorial_zero, Nat.factorial_one, Nat.cast_one, inv_one] at s1 s2
    exact s1.trans s2.symm

/-! ## C40: `fmexp` -/

/-- The argument of `fmexp` without its constant term. -/
def dropConst (x : WordFn S) : WordFn S := fun w => if w = [] then 0 else x w

/-- C40, full statement. -/
def C40_fmexp_full (maxDegree : Nat) : Prop :=
  ∀ v x, ∃ r, FreeTensor.fmexp p C T maxDegree v x = .ok r ∧
    EqTo maxDegree (val r) (val v * expSeries (dropConst (val x)) maxDegree)

theorem fmexpLoop (hC : C.IsField) (hT : CorrectTensor T C val) (maxDegree : Nat) (h32 : maxDegree < 2 ^ 32) (x oself : V) (hx : val x [] = 0)
    (n : Nat) (hn : n ≤ maxDegree) (r : V) (g : WordFn S) (hg : EqTo (maxDegree - n) (val r) g) :
    ∃ r', (List.range' 1 n).reverse.foldlM (FreeTensor.fmexpStep p C T maxDegree x oself) r = .ok r' ∧
      EqTo maxDegree (val r') ((List.range' 1 n).reverse.foldl (fun r (i : Nat) => (i : S) • (r * val x) + val oself) g) := by
  induction n generalizing r g with
  | zero => exact ⟨r, rfl, hg⟩
  | succ n ih =>
    rw [List.range'_concat, List.reverse_append, List.reverse_singleton, List.singleton_append, List.foldlM_cons, List.foldl_cons,
      show 1 + 1 * n = n + 1 by omega]
    obtain ⟨r1, h1, e1⟩ := C38_mul_rat_rdiv_actual C T val hC hT r x (C.fromDegree (n + 1)) (maxDegree - (n + 1) + 1)
    obtain ⟨r2, h2, e2⟩ := hT.addInplace r1 oself
    obtain ⟨r', h3, e3⟩ := ih (by omega) r2 (((n + 1 : Nat) : S) • (g * val x) + val oself) (by
      rw [e2]
      refine EqTo.add ?_ (EqTo.refl _ _)
      rw [show maxDegree - n = maxDegree - (n + 1) + 1 by omega]
      refine e1.trans ?_
      rw [hC.fromDegree]
      exact EqTo.smul _ (EqTo.mul_raise hg hx))
    refine ⟨r', ?_, e3⟩
    unfold FreeTensor.fmexpStep
    rw [subW_ok hn]
    simp only [Res.bind_ok]
    rw [addW_ok (by omega)]
    simp only [Res.bind_ok]
    rw [h1]
    simp only [Res.bind_ok]
    rw [h2]
    exact h3

/-- C40, what `fmexp` computes in every correct implementation: `∑_{k < MAX_DEGREE} k! a x^k` with `x` stripped of its constant term. -/
theorem C40_fmexp_actual (hC : C.IsField) (hT : CorrectTensor T C val) (maxDegree : Nat) (h32 : maxDegree < 2 ^ 32) (v x : V) :
    ∃ r, FreeTensor.fmexp p C T maxDegree v x = .ok r ∧
      EqTo maxDegree (val r) (∑ k ∈ Finset.range (maxDegree - 1 + 1), (k.factorial : S) • (val v * dropConst (val x) ^ k)) := by
  obtain ⟨o, ho, eo⟩ := hT.toOwned v
  obtain ⟨x1, hx1, ex1⟩ := hT.toOwned x
  obtain ⟨b, x2, hx2, ex2⟩ := hT.dropConst x1
  have hd : val x2 = dropConst (val x) := by rw [ex2, ex1]; rfl
  obtain ⟨r, h1, e1⟩ := fmexpLoop C p T val hC hT maxDegree h32 x2 o (by rw [hd]; rfl) (maxDegree - 1) (by omega) v (val v) (EqTo.refl _ _)
  refine ⟨r, ?_, ?_⟩
  · unfold FreeTensor.fmexp
    rw [ho, hx1]
    simp only [Res.bind_ok]
    rw [hx2]
    exact h1
  · rw [horner, hd, eo] at e1
    rw [Finset.sum_range_succ]
    exact e1

example := C40_fmexp_actual (fieldCoeff Rat) .release (wordOps Rat) id (fieldCoeff_isField Rat) (wordOps_correct Rat) 4 (by omega) letter (1 + letter)

/-- C40 is false at every truncation degree from 1 of every correct implementation that can represent a letter, in characteristic 0. -/
theorem C40_fmexp_refuted [CharZero S] (hC : C.IsField) (hT : CorrectTensor T C val) (maxDegree : Nat) (h : 1 ≤ maxDegree)
    (h32 : maxDegree < 2 ^ 32) (x : V) (hx : val x = letter) : ¬ C40_fmexp_full C p T val maxDegree := by
  intro hf
  obtain ⟨u, _, eu⟩ := hT.unit
  obtain ⟨r, h1, e1⟩ := hf u x
  obtain ⟨r', h2, e2⟩ := C40_fmexp_actual C p T val hC hT maxDegree h32 u x
  cases h1.symm.trans h2
  have hd : dropConst (letter : WordFn S) = letter := by
    funext w
    unfold dropConst letter
    split_ifs with h <;> simp_all
  rw [eu, hx, hd] at e1 e2
  simp only [one_mul] at e1 e2
  exact series_differ maxDegree h (e2.symm.trans e1)

theorem mul_sum_smul (a x : WordFn S) (c : Nat → S) (n : Nat) :
    a * ∑ k ∈ Finset.range n, c k • x ^ k = ∑ k ∈ Finset.range n, c k • (a * x ^ k) := by
  rw [Finset.mul_sum]
  exact Finset.sum_congr rfl fun k _ => mul_smul' _ _ _

/-- C40 where it does hold: `MAX_DEGREE = 0`, or arguments whose non-constant part squares to zero up to the truncation degree and `MAX_DEGREE ≥ 2`. -/
theorem C40_fmexp_partial (hC : C.IsField) (hT : CorrectTensor T C val) (maxDegree : Nat) (h32 : maxDegree < 2 ^ 32) (v x : V)
    (h : maxDegree = 0 ∨ (2 ≤ maxDegree ∧ EqTo maxDegree (dropConst (val x) * dropConst (val x)) 0)) :
    ∃ r, FreeTensor.fmexp p C T maxDegree v x = .ok r ∧ EqTo maxDegree (val r) (val v * expSeries (dropConst (val x)) maxDegree) := by
  obtain ⟨r, h1, e1⟩ := C40_fmexp_actual C p T val hC hT maxDegree h32 v x
  refine ⟨r, h1, e1.trans ?_⟩
  unfold expSeries
  rw [mul_sum_smul]
  rcases h with rfl | ⟨h2, hx⟩
  · simp only [Nat.zero_sub, Nat.zero_add, Finset.sum_range_one, Nat.factorial_zero, Nat.cast_one, inv_one]
    exact EqTo.refl _ _
  · have s1 := sum_vanish (val v) _ maxDegree (maxDegree - 1 + 1) (by omega) hx (fun k => (k.factorial : S))
    have s2 := sum_vanish (val v) _ maxDegree (maxDegree + 1) (by omega) hx (fun k => (k.factorial : S)⁻¹)
    simp only [Nat.factorial_zero, Nat.factorial_one, Nat.cast_one, inv_one] at s1 s2
    exact s1.trans s2.symm

/-! ## C41: `log` -/

/-- The logarithm series at `x = 1 + y`, to order `n`. -/
def logSeries (y : WordFn S) (n : Nat) : WordFn S := ∑ k ∈ Finset.Ico 1 (n + 1), ((-1) ^ (k + 1) * (k : S)⁻¹) • y ^ k

/-- C41, full statement. -/
def C41_log_full (maxDegree : Nat) : Prop :=
  ∀ x, ∃ r, FreeTensor.log C T maxDegree x = .ok r ∧ EqTo maxDegree (val r) (logSeries (val x - 1) maxDegree)

theorem logLoop (hC : C.IsField) (hT : CorrectTensor T C val) (maxDegree : Nat) (x tunit : V) (hu : val tunit = 1) (n : Nat) (r : V) :
    ∃ r', (List.range' 1 n).reverse.foldlM (FreeTensor.logStep C T maxDegree x tunit) r = .ok r' ∧
      val r' = val r + (∑ k ∈ Finset.Ico 1 (n + 1), (-1) ^ (k + 1) * (k : S)⁻¹) • 1 := by
  induction n generalizing r with
  | zero => exact ⟨r, rfl, by simp⟩
  | succ n ih =>
    rw [List.range'_concat, List.reverse_append, List.reverse_singleton, List.singleton_append, List.foldlM_cons,
      show 1 + 1 * n = n + 1 by omega]
    have hstep : ∃ r1, FreeTensor.logStep C T maxDegree x tunit r (n + 1) = .ok r1 ∧
        val r1 = val r + ((-1) ^ (n + 1 + 1) * ((n + 1 : Nat) : S)⁻¹) • 1 := by
      unfold FreeTensor.logStep
      by_cases h : (n + 1) % 2 = 0
      · obtain ⟨r1, h1, e1⟩ := hT.subScalarRdivide r tunit (C.ratFromDegree (n + 1))
        obtain ⟨q, hq, _⟩ := hT.mulAddInto T.new r1 x id 1 maxDegree (fun x => (one_mul x).symm)
        refine ⟨r1, ?_, ?_⟩
        · rw [if_pos h, h1]
          simp only [Res.bind_ok]
          rw [show T.multiply r1 x (some maxDegree) = .ok q from hq]
          rfl
        · rw [e1, hu, hC.ratFromDegree, Odd.neg_one_pow (by rw [Nat.odd_iff]; omega), neg_one_mul, neg_smul, sub_eq_add_neg]
      · obtain ⟨r1, h1, e1⟩ := hT.addScalarRdivide r tunit (C.ratFromDegree (n + 1))
        obtain ⟨q, hq, _⟩ := hT.mulAddInto T.new r1 x id 1 maxDegree (fun x => (one_mul x).symm)
        refine ⟨r1, ?_, ?_⟩
        · rw [if_neg h, h1]
          simp only [Res.bind_ok]
          rw [show T.multiply r1 x (some maxDegree) = .ok q from hq]
          rfl
        · rw [e1, hu, hC.ratFromDegree, Even.neg_one_pow (by rw [Nat.even_iff]; omega), one_mul]
    obtain ⟨r1, h1, e1⟩ := hstep
    obtain ⟨r', h2, e2⟩ := ih r1
    refine ⟨r', by rw [h1, Res.bind_ok]; exact h2, ?_⟩
    rw [e2, e1, Finset.sum_Ico_succ_top (by omega : 1 ≤ n + 1), add_smul]
    abel

/-- C41, what `log` computes in every correct implementation: the constant `∑_{1 ≤ k < MAX_DEGREE} (-1)^(k+1)/k`, whatever the argument (the products
of line 76 are dropped). -/
theorem C41_log_actual (hC : C.IsField) (hT : CorrectTensor T C val) (maxDegree : Nat) (x : V) :
    ∃ r, FreeTensor.log C T maxDegree x = .ok r ∧
      val r = (∑ k ∈ Finset.Ico 1 (maxDegree - 1 + 1), (-1) ^ (k + 1) * (k : S)⁻¹) • 1 := by
  obtain ⟨u, hu, eu⟩ := hT.unit
  obtain ⟨x1, hx1, ex1⟩ := hT.toOwned x
  obtain ⟨b, x2, hx2, ex2⟩ := hT.dropConst x1
  obtain ⟨r, h1, e1⟩ := logLoop C T val hC hT maxDegree x2 u eu (maxDegree - 1) T.new
  refine ⟨r, ?_, by rw [e1, hT.new, zero_add]⟩
  unfold FreeTensor.log
  rw [hu, hx1]
  simp only [Res.bind_ok]
  rw [hx2]
  exact h1

example := C41_log_actual (fieldCoeff Rat) (wordOps Rat) id (fieldCoeff_isField Rat) (wordOps_correct Rat) 4 (1 + letter)

/-- C41.  `log` of any two tensors is the same. -/
theorem C41_log_constant (hC : C.IsField) (hT : CorrectTensor T C val) (maxDegree : Nat) (x y : V) :
    ∃ r r', FreeTensor.log C T maxDegree x = .ok r ∧ FreeTensor.log C T maxDegree y = .ok r' ∧ val r = val r' := by
  obtain ⟨r, h1, e1⟩ := C41_log_actual C T val hC hT maxDegree x
  obtain ⟨r', h2, e2⟩ := C41_log_actual C T val hC hT maxDegree y
  exact ⟨r, r', h1, h2, by rw [e1, e2]⟩

example : ∃ r r', FreeTensor.log (fieldCoeff Rat) (wordOps Rat) 4 (1 + letter) = .ok r ∧ FreeTensor.log (fieldCoeff Rat) (wordOps Rat) 4 0 = .ok r' ∧ r = r' :=
  C41_log_constant (fieldCoeff Rat) (wordOps Rat) id (fieldCoeff_isField Rat) (wordOps_correct Rat) 4 (1 + letter) 0

/-- C41 is false at every truncation degree from 1 of every correct implementation that can represent `1 + letter`. -/
theorem C41_log_refuted (hC : C.IsField) (hT : CorrectTensor T C val) (maxDegree : Nat) (h : 1 ≤ maxDegree) (x : V)
    (hx : val x = 1 + letter) : ¬ C41_log_full C T val maxDegree := by
  intro hf
  obtain ⟨r, h1, e1⟩ := hf x
  obtain ⟨r', h2, e2⟩ := C41_log_actual C T val hC hT maxDegree x
  cases h1.symm.trans h2
  have := e1 [1] (by simpa using h)
  rw [e2, hx, add_sub_cancel_left] at this
  unfold logSeries at this
  rw [sum_apply, smul_apply, one_apply, if_neg (by simp), mul_zero] at this
  have hl : ∀ k, ((letter : WordFn S) ^ k) [1] = if 1 = k then 1 else 0 := fun k => letter_pow k 1
  simp only [smul_apply, hl, mul_ite, mul_one, mul_zero] at this
  rw [Finset.sum_ite_eq, if_pos (by simp; omega)] at this
  simp at this

/-- C41 where it does hold: `MAX_DEGREE = 0` (the series is empty), and the zero series `x = 1` only when the accumulated constant vanishes, which it does
for `MAX_DEGREE ≤ 1`. -/
theorem C41_log_partial (hC : C.IsField) (hT : CorrectTensor T C val) (maxDegree : Nat) (x : V)
    (h : maxDegree = 0 ∨ (maxDegree = 1 ∧ EqTo 1 (val x) 1)) :
    ∃ r, FreeTensor.log C T maxDegree x = .ok r ∧ EqTo maxDegree (val r) (logSeries (val x - 1) maxDegree) := by
  obtain ⟨r, h1, e1⟩ := C41_log_actual C T val hC hT maxDegree x
  refine ⟨r, h1, ?_⟩
  rw [e1]
  unfold logSeries
  rcases h with rfl | ⟨rfl, hx⟩
  · simp only [Nat.zero_sub, Nat.zero_add, Finset.Ico_self, Finset.sum_empty, zero_smul]
    exact EqTo.refl _ _
  · intro w hw
    simp only [Nat.sub_self, Nat.zero_add, Finset.Ico_self, Finset.sum_empty, zero_smul]
    rw [show Finset.Ico 1 (1 + 1) = {1} from rfl, Finset.sum_singleton, pow_one, smul_apply, sub_apply, hx w hw, sub_self, mul_zero]
    rfl

example := C41_log_partial (fieldCoeff Rat) (wordOps Rat) id (fieldCoeff_isField Rat) (wordOps_correct Rat) 1 1 (.inr ⟨rfl, fun _ _ => rfl⟩)

end

/-- The refutations are not vacuous: formal tensors over the rationals are a correct implementation and represent the letter. -/
example : ¬ C38_mul_rat_rdiv_full (fieldCoeff Rat) (wordOps Rat) id ∧ ¬ C39_exp_full (fieldCoeff Rat) (wordOps Rat) id 5 ∧
    ¬ C40_fmexp_full (fieldCoeff Rat) .debug (wordOps Rat) id 5 ∧ ¬ C41_log_full (fieldCoeff Rat) (wordOps Rat) id 5 :=
  ⟨C38_mul_rat_rdiv_refuted _ _ _ (fieldCoeff_isField Rat) (wordOps_correct Rat) (by decide) (by decide),
    C39_exp_refuted _ _ _ (fieldCoeff_isField Rat) (wordOps_correct Rat) 5 (by omega) letter rfl,
    C40_fmexp_refuted _ _ _ _ (fieldCoeff_isField Rat) (wordOps_correct Rat) 5 (by omega) (by omega) letter rfl,
    C41_log_refuted _ _ _ (fieldCoeff_isField Rat) (wordOps_correct Rat) 5 (by omega) (1 + letter) rfl⟩

/-- A nonzero argument of `C39_exp_partial`: the word `1 1` squares to zero up to degree 3. -/
example : ∃ x : WordFn Rat, EqTo 3 (x * x) 0 ∧ x [1, 1] = 1 := by
  let x : WordFn Rat := fun w => if w = [1, 1] then 1 else 0
  refine ⟨x, fun w hw => ?_, by simp [x]⟩
  rw [mul_apply_sum]
  refine (List.sum_eq_zero ?_).trans rfl
  intro y hy
  rw [List.mem_map] at hy
  obtain ⟨k, hk, rfl⟩ := hy
  by_cases h1 : w.take k = [1, 1]
  · by_cases h2 : w.drop k = [1, 1]
    · exfalso
      have := congrArg List.length (List.take_append_drop k w)
      rw [h1, h2] at this
      simp at this
      omega
    · simp [x, h2]
  · simp [x, h1]

/-! ## `exp` on dense tensors -/

/-- C39 for dense tensors as the implementation: `exp` of a tensor with constant term 0 or 1 and degree between 1 and `MAX_DEGREE` accesses memory
out of bounds, for every `MAX_DEGREE ≥ 2`. -/
theorem C39_dense_exp_ub {S R : Type} (C : Coeff S R) (p : Profile) (N : Nat) (h2 : 2 ≤ N) (hN : N < 2 ^ 32) (maxDegree dx : Nat) (x : Dense S)
    (hx : FullTo N x dx) (hd : 1 ≤ dx) (hm : dx ≤ maxDegree) (hm2 : 2 ≤ maxDegree) (c : S) (rest : List S) (hc : x.data = c :: rest)
    (h : C.eq c C.zero = true ∨ C.eq c C.one = true) :
    FreeTensor.exp C (DenseAlg.ops C p N) maxDegree x = .ub := by
  have hN1 : N ^ (0 + 1) < 2 ^ 64 := by rw [Nat.zero_add, Nat.pow_one]; omega
  have hu : (DenseAlg.ops C p N).fromKey TensorKey.new = .ok (Dense.ofVec [C.one]) := by
    have hdim : (tensorBasis p N).dimForKey TensorKey.new = .ok 1 := by
      show vectorDimensionForKey p N TensorKey.new = _
      unfold vectorDimensionForKey
      rw [show degree TensorKey.new = 0 from rfl, addW_ok (by omega), Res.bind_ok, startOfDegree_ok p N h2 _ hN1]
      rfl
    exact Dense.fromKeyScalar_ok C _ hdim (show (tensorBasis p N).keyToIndex TensorKey.new = .ok 0 from rfl) (by omega) C.one
  have hf : FullTo N (Dense.ofVec [C.one]) 0 := ⟨rfl, hN1⟩
  have hM : min maxDegree (0 + dx) = dx := by omega
  have hmul : ∀ s, (DenseAlg.ops C p N).mulRatRdiv C (Dense.ofVec [C.one]) x s (some maxDegree) = .ub := by
    intro s
    by_cases hz : C.eq c C.zero = true
    · exact C37_inplace_zero_constant_ub C p N h2 _ _ x 0 dx maxDegree hf hx c rest hc hz (by omega) (by omega) (by rw [hM]; exact hx.2)
    · have h1 : C.eq c C.one = true := by rcases h with h | h; exact absurd h hz; exact h
      exact C37_inplace_one_constant_ub C p N h2 _ _ x 0 dx maxDegree hf hx c rest hc (by simpa using hz) h1 hd (by omega) (by omega)
        (by rw [hM]; exact hx.2)
  unfold FreeTensor.exp
  rw [hu]
  simp only [Res.bind_ok]
  rw [range'_reverse_head _ (by omega), List.foldlM_cons]
  unfold FreeTensor.expStep
  rw [hmul]
  rfl

example : FreeTensor.exp intCoeff (DenseAlg.ops intCoeff .release 2) 3 (.ofVec [0, 1, 1]) = .ub :=
  C39_dense_exp_ub intCoeff .release 2 (by omega) (by omega) 3 1 _ ⟨rfl, by decide⟩ (by omega) (by omega) (by omega) 0 [1, 1] rfl (.inl rfl)

example : FreeTensor.exp intCoeff (DenseAlg.ops intCoeff .release 2) 3 (.ofVec [0, 1, 1]) = .ub := by decide +kernel

end RA
