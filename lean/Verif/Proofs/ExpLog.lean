import Mathlib.Algebra.Polynomial.Derivative
import Mathlib.Algebra.Polynomial.AlgebraMap
import Mathlib.Algebra.Polynomial.Div
import Mathlib.Algebra.Polynomial.Eval.SMul
import Mathlib.Algebra.Ring.Divisibility.Lemmas
import Mathlib.Tactic.NoncommRing
import Mathlib.Algebra.Ring.GeomSum
import Mathlib.Algebra.CharZero.Defs
import Mathlib.Data.Nat.Choose.Sum
import Mathlib.Tactic.LinearCombination
import Mathlib.Tactic.FieldSimp

/-!
# Truncated exponential and logarithm series in filtered algebras

Independent of the model.
-/

namespace RA.Series
open Polynomial

variable {S A : Type} [Field S] [Ring A] [Algebra S A]

variable (S) in
/-- The exponential series to order `D`. -/
def expTo (D : Nat) (x : A) : A := ∑ k ∈ Finset.range (D + 1), ((k.factorial : S)⁻¹) • x ^ k

variable (S) in
/-- The series of `log (1 + y)` to order `D`. -/
def logTo (D : Nat) (y : A) : A := ∑ k ∈ Finset.Ico 1 (D + 1), ((-1) ^ (k + 1) * (k : S)⁻¹) • y ^ k

theorem aeval_expTo (D : Nat) (x : A) (q : S[X]) : aeval x (expTo S D q) = expTo S D (aeval x q) := by
  unfold expTo
  rw [map_sum]
  exact Finset.sum_congr rfl fun k _ => by rw [map_smul, map_pow]

theorem aeval_logTo (D : Nat) (x : A) (q : S[X]) : aeval x (logTo S D q) = logTo S D (aeval x q) := by
  unfold logTo
  rw [map_sum]
  exact Finset.sum_congr rfl fun k _ => by rw [map_smul, map_pow]

/-! ## Polynomial identities -/

section
variable [CharZero S]

theorem dvd_of_derivative (D : Nat) (q : S[X]) (h0 : q.coeff 0 = 0) (h : X ^ D ∣ derivative q) : X ^ (D + 1) ∣ q := by
  rw [X_pow_dvd_iff] at h ⊢
  intro d hd
  cases d with
  | zero => exact h0
  | succ d =>
    have := h d (by omega)
    rw [coeff_derivative] at this
    rcases mul_eq_zero.1 this with h | h
    · exact h
    · exact absurd h (Nat.cast_add_one_ne_zero d)

theorem derivative_expTo (D : Nat) : derivative (expTo S D (X : S[X])) = expTo S D X - ((D.factorial : S)⁻¹) • X ^ D := by
  induction D with
  | zero => simp [expTo]
  | succ D ih =>
    have e : expTo S (D + 1) (X : S[X]) = expTo S D X + (((D + 1).factorial : S)⁻¹) • X ^ (D + 1) := Finset.sum_range_succ _ _
    rw [e, derivative_add, ih, derivative_smul, derivative_X_pow]
    have : (((D + 1).factorial : S)⁻¹) • (C ((D + 1 : Nat) : S) * X ^ (D + 1 - 1)) = ((D.factorial : S)⁻¹) • (X : S[X]) ^ D := by
      rw [← smul_eq_C_mul, smul_smul, Nat.factorial_succ, Nat.add_sub_cancel]
      congr 1
      have h1 : ((D + 1 : Nat) : S) ≠ 0 := Nat.cast_ne_zero.2 (by omega)
      have h2 : ((D.factorial : Nat) : S) ≠ 0 := Nat.cast_ne_zero.2 (Nat.factorial_ne_zero D)
      push_cast at h1 ⊢
      field_simp
    rw [this]
    ring

theorem derivative_logTo (D : Nat) : (1 + X) * derivative (logTo S D (X : S[X])) = 1 - (-X) ^ D := by
  have e : derivative (logTo S D (X : S[X])) = ∑ k ∈ Finset.range D, (-X) ^ k := by
    unfold logTo
    rw [derivative_sum, Finset.sum_Ico_eq_sum_range]
    apply Finset.sum_congr rfl
    intro k _
    rw [derivative_smul, derivative_X_pow, ← smul_eq_C_mul, smul_smul, show 1 + k - 1 = k by omega, show 1 + k + 1 = k + 2 by omega, pow_add]
    have h1 : ((1 + k : Nat) : S) ≠ 0 := Nat.cast_ne_zero.2 (by omega)
    rw [mul_assoc, inv_mul_cancel₀ h1, smul_eq_C_mul, neg_pow (X : S[X]) k]
    simp
  rw [e]
  have := mul_neg_geom_sum (-X : S[X]) D
  rw [sub_neg_eq_add] at this
  exact this

omit [CharZero S] in
theorem X_dvd_expTo (D : Nat) : X ∣ expTo S D (X : S[X]) - 1 := by
  rw [X_dvd_iff]
  unfold expTo
  rw [Finset.sum_range_succ']
  simp [coeff_X_pow]

omit [CharZero S] in
theorem X_dvd_logTo (D : Nat) : X ∣ logTo S D (X : S[X]) := by
  unfold logTo
  refine Finset.dvd_sum fun k hk => ?_
  rw [Finset.mem_Ico] at hk
  exact dvd_smul_of_dvd _ (dvd_pow_self X (by omega))

omit [CharZero S] in
theorem comp_expTo (D : Nat) (q : S[X]) : (expTo S D (X : S[X])).comp q = expTo S D q := by
  rw [comp_eq_aeval, aeval_expTo, aeval_X]

omit [CharZero S] in
theorem comp_logTo (D : Nat) (q : S[X]) : (logTo S D (X : S[X])).comp q = logTo S D q := by
  rw [comp_eq_aeval, aeval_logTo, aeval_X]

theorem dvd_log_exp (D : Nat) : X ^ (D + 1) ∣ logTo S D (expTo S D (X : S[X]) - 1) - X := by
  set E := expTo S D (X : S[X]) with hE
  apply dvd_of_derivative
  · have h1 : X ∣ logTo S D (E - 1) := by
      unfold logTo
      refine Finset.dvd_sum fun k hk => ?_
      rw [Finset.mem_Ico] at hk
      exact dvd_smul_of_dvd _ ((X_dvd_expTo D).trans (dvd_pow_self _ (by omega)))
    exact X_dvd_iff.1 (h1.sub dvd_rfl)
  · have hl := congrArg (fun q => q.comp (E - 1)) (derivative_logTo (S := S) D)
    simp only [mul_comp, add_comp, one_comp, X_comp, sub_comp, pow_comp, neg_comp] at hl
    rw [derivative_sub, derivative_X, ← comp_logTo, derivative_comp, derivative_sub, derivative_one, sub_zero, hE, derivative_expTo, ← hE]
    have hd : X ^ D ∣ (-(E - 1)) ^ D := pow_dvd_pow_of_dvd ((X_dvd_expTo D).neg_right) D
    have hc : X ^ D ∣ ((D.factorial : S)⁻¹) • (X : S[X]) ^ D := dvd_smul_of_dvd _ dvd_rfl
    have e : (E - ((D.factorial : S)⁻¹) • X ^ D) * (derivative (logTo S D X)).comp (E - 1) - 1 =
        -(-(E - 1)) ^ D - ((D.factorial : S)⁻¹) • X ^ D * (derivative (logTo S D X)).comp (E - 1) := by
      linear_combination hl
    rw [e]
    exact (hd.neg_right).sub (hc.mul_right _)

theorem dvd_exp_log (D : Nat) : X ^ (D + 1) ∣ expTo S D (logTo S D (X : S[X])) - (1 + X) := by
  set L := logTo S D (X : S[X]) with hL
  have h0 : (expTo S D L - (1 + X)).coeff 0 = 0 := by
    have h1 : X ∣ expTo S D L - 1 := by
      have := (X_dvd_expTo (S := S) D)
      obtain ⟨r, hr⟩ := this
      have h2 := congrArg (fun q => q.comp L) hr
      simp only [sub_comp, one_comp, mul_comp, X_comp, comp_expTo] at h2
      rw [h2]
      exact (X_dvd_logTo D).mul_right _
    rw [show expTo S D L - (1 + X) = (expTo S D L - 1) - X by ring]
    exact X_dvd_iff.1 (h1.sub dvd_rfl)
  set q := expTo S D L - (1 + X) with hq
  have hdq : derivative q = derivative L * (expTo S D L - ((D.factorial : S)⁻¹) • L ^ D) - 1 := by
    rw [hq, derivative_sub, ← comp_expTo, derivative_comp, derivative_expTo, sub_comp, comp_expTo, smul_comp, pow_comp, X_comp]
    simp
  have hX : X ^ D ∣ (1 + X) * derivative q - q := by
    have hl := derivative_logTo (S := S) D
    rw [← hL] at hl
    have e : (1 + X) * derivative q - q = -((-X) ^ D * (expTo S D L - ((D.factorial : S)⁻¹) • L ^ D)) - ((D.factorial : S)⁻¹) • L ^ D := by
      rw [hdq, hq]
      linear_combination (expTo S D L - ((D.factorial : S)⁻¹) • L ^ D) * hl
    rw [e]
    have h1 : X ^ D ∣ (-X : S[X]) ^ D := pow_dvd_pow_of_dvd (dvd_rfl.neg_right) D
    have h2 : X ^ D ∣ ((D.factorial : S)⁻¹) • L ^ D := dvd_smul_of_dvd _ (pow_dvd_pow_of_dvd (X_dvd_logTo D) D)
    exact ((h1.mul_right _).neg_right).sub h2
  rw [X_pow_dvd_iff] at hX ⊢
  intro d hd
  induction d with
  | zero => exact h0
  | succ d ih =>
    have h1 := hX d (by omega)
    have h2 := ih (by omega)
    rw [coeff_sub, h2, sub_zero, add_mul, one_mul, coeff_add, coeff_derivative] at h1
    have h3 : (X * derivative q).coeff d = 0 := by
      cases d with
      | zero => simp
      | succ d => rw [coeff_X_mul, coeff_derivative, h2, zero_mul]
    rw [h3, add_zero] at h1
    rcases mul_eq_zero.1 h1 with h | h
    · exact h
    · exact absurd h (Nat.cast_add_one_ne_zero d)

end

/-! ## Filtered algebras -/

variable (S A) in
/-- A descending filtration by subspaces, compatible with the product. -/
structure Filt where
  F : Nat → Submodule S A
  anti : ∀ n m, n ≤ m → F m ≤ F n
  mul : ∀ n m a b, a ∈ F n → b ∈ F m → a * b ∈ F (n + m)
  top : F 0 = ⊤

namespace Filt
variable (Φ : Filt S A)

theorem pow_mem {x : A} {n : Nat} (hx : x ∈ Φ.F n) (k : Nat) : x ^ k ∈ Φ.F (n * k) := by
  induction k with
  | zero => rw [Nat.mul_zero, Φ.top]; trivial
  | succ k ih =>
    rw [pow_succ, Nat.mul_succ]
    exact Φ.mul _ _ _ _ ih hx

theorem pow_mem' {x : A} (hx : x ∈ Φ.F 1) (k : Nat) : x ^ k ∈ Φ.F k := by
  have := Φ.pow_mem hx k
  rwa [Nat.one_mul] at this

theorem mul_mem_left {x : A} {n : Nat} (hx : x ∈ Φ.F n) (y : A) : x * y ∈ Φ.F n := by
  have := Φ.mul n 0 x y hx (by rw [Φ.top]; trivial)
  rwa [Nat.add_zero] at this

theorem mul_mem_right {x : A} {n : Nat} (hx : x ∈ Φ.F n) (y : A) : y * x ∈ Φ.F n := by
  have := Φ.mul 0 n y x (by rw [Φ.top]; trivial) hx
  rwa [Nat.zero_add] at this

/-- A polynomial divisible by `X^n`. -/
theorem aeval_mem {x : A} (hx : x ∈ Φ.F 1) {n : Nat} {q : S[X]} (h : X ^ n ∣ q) : aeval x q ∈ Φ.F n := by
  obtain ⟨r, rfl⟩ := h
  rw [map_mul, map_pow, aeval_X]
  exact Φ.mul_mem_left (Φ.pow_mem' hx n) _

theorem expTo_sub_one_mem {x : A} (hx : x ∈ Φ.F 1) (D : Nat) : expTo S D x - 1 ∈ Φ.F 1 := by
  unfold expTo
  rw [Finset.sum_range_succ']
  simp only [pow_zero, Nat.factorial_zero, Nat.cast_one, inv_one, one_smul, add_sub_cancel_right]
  refine Submodule.sum_mem _ fun k _ => Submodule.smul_mem _ _ ?_
  exact Φ.anti 1 (k + 1) (by omega) (Φ.pow_mem' hx _)

theorem logTo_mem {x : A} (hx : x ∈ Φ.F 1) (D : Nat) : logTo S D x ∈ Φ.F 1 := by
  unfold logTo
  refine Submodule.sum_mem _ fun k hk => Submodule.smul_mem _ _ ?_
  rw [Finset.mem_Ico] at hk
  exact Φ.anti 1 k hk.1 (Φ.pow_mem' hx _)

theorem log_exp [CharZero S] {x : A} (hx : x ∈ Φ.F 1) (D : Nat) : logTo S D (expTo S D x - 1) - x ∈ Φ.F (D + 1) := by
  have := Φ.aeval_mem hx (dvd_log_exp (S := S) D)
  rwa [map_sub, aeval_logTo, map_sub, aeval_expTo, map_one, aeval_X] at this

theorem exp_log [CharZero S] {y : A} (hy : y ∈ Φ.F 1) (D : Nat) : expTo S D (logTo S D y) - (1 + y) ∈ Φ.F (D + 1) := by
  have := Φ.aeval_mem hy (dvd_exp_log (S := S) D)
  rwa [map_sub, aeval_expTo, aeval_logTo, map_add, map_one, aeval_X] at this

/-- Series of elements equal up to `F n`. -/
theorem pow_sub_mem {x y : A} {n : Nat} (h : x - y ∈ Φ.F n) (k : Nat) : x ^ k - y ^ k ∈ Φ.F n := by
  induction k with
  | zero => simp
  | succ k ih =>
    rw [pow_succ, pow_succ, show x ^ k * x - y ^ k * y = (x ^ k - y ^ k) * x + y ^ k * (x - y) by noncomm_ring]
    exact Submodule.add_mem _ (Φ.mul_mem_left ih _) (Φ.mul_mem_right h _)

theorem expTo_congr {x y : A} {n : Nat} (h : x - y ∈ Φ.F n) (D : Nat) : expTo S D x - expTo S D y ∈ Φ.F n := by
  unfold expTo
  rw [← Finset.sum_sub_distrib]
  refine Submodule.sum_mem _ fun k _ => ?_
  rw [← smul_sub]
  exact Submodule.smul_mem _ _ (Φ.pow_sub_mem h k)

theorem logTo_congr {x y : A} {n : Nat} (h : x - y ∈ Φ.F n) (D : Nat) : logTo S D x - logTo S D y ∈ Φ.F n := by
  unfold logTo
  rw [← Finset.sum_sub_distrib]
  refine Submodule.sum_mem _ fun k _ => ?_
  rw [← smul_sub]
  exact Submodule.smul_mem _ _ (Φ.pow_sub_mem h k)

theorem exp_add [CharZero S] {x y : A} (hx : x ∈ Φ.F 1) (hy : y ∈ Φ.F 1) (hc : Commute x y) (D : Nat) :
    expTo S D x * expTo S D y - expTo S D (x + y) ∈ Φ.F (D + 1) := by
  have e1 : expTo S D (x + y) = ∑ n ∈ Finset.range (D + 1), ∑ i ∈ Finset.antidiagonal n, (((i.1.factorial : S)⁻¹) * ((i.2.factorial : S)⁻¹)) • (x ^ i.1 * y ^ i.2) := by
    unfold expTo
    refine Finset.sum_congr rfl fun n _ => ?_
    rw [hc.add_pow', Finset.smul_sum]
    refine Finset.sum_congr rfl fun i hi => ?_
    rw [Finset.mem_antidiagonal] at hi
    rw [← Nat.cast_smul_eq_nsmul S, smul_smul]
    congr 1
    have := Nat.choose_mul_factorial_mul_factorial (n := n) (k := i.1) (by omega)
    rw [show n - i.1 = i.2 by omega] at this
    have h3 : ((n.factorial : Nat) : S) = (n.choose i.1 : S) * (i.1.factorial : S) * (i.2.factorial : S) := by
      rw [← this]; push_cast; ring
    have a1 : ((i.1.factorial : Nat) : S) ≠ 0 := Nat.cast_ne_zero.2 (Nat.factorial_ne_zero _)
    have a2 : ((i.2.factorial : Nat) : S) ≠ 0 := Nat.cast_ne_zero.2 (Nat.factorial_ne_zero _)
    have a3 : ((n.choose i.1 : Nat) : S) ≠ 0 := Nat.cast_ne_zero.2 (Nat.choose_pos (by omega)).ne'
    rw [h3]
    field_simp
  have e2 : expTo S D x * expTo S D y = ∑ i ∈ Finset.range (D + 1) ×ˢ Finset.range (D + 1), (((i.1.factorial : S)⁻¹) * ((i.2.factorial : S)⁻¹)) • (x ^ i.1 * y ^ i.2) := by
    unfold expTo
    rw [Finset.sum_mul_sum, Finset.sum_product]
    refine Finset.sum_congr rfl fun i _ => Finset.sum_congr rfl fun j _ => ?_
    rw [smul_mul_smul_comm]
  have e3 : ∑ n ∈ Finset.range (D + 1), ∑ i ∈ Finset.antidiagonal n, (((i.1.factorial : S)⁻¹) * ((i.2.factorial : S)⁻¹)) • (x ^ i.1 * y ^ i.2) =
      ∑ i ∈ (Finset.range (D + 1) ×ˢ Finset.range (D + 1)).filter (fun i => i.1 + i.2 ≤ D), (((i.1.factorial : S)⁻¹) * ((i.2.factorial : S)⁻¹)) • (x ^ i.1 * y ^ i.2) := by
    rw [← Finset.sum_biUnion]
    · apply Finset.sum_congr _ fun _ _ => rfl
      ext i
      simp only [Finset.mem_biUnion, Finset.mem_range, Finset.mem_antidiagonal, Finset.mem_filter, Finset.mem_product]
      constructor
      · rintro ⟨n, h1, h2⟩; omega
      · rintro ⟨_, h⟩; exact ⟨_, by omega, rfl⟩
    · intro a _ b _ hab
      rw [Function.onFun, Finset.disjoint_left]
      intro i h1 h2
      rw [Finset.mem_antidiagonal] at h1 h2
      exact hab (h1.symm.trans h2)
  rw [e1, e2, e3, ← Finset.sum_filter_add_sum_filter_not _ (fun i : Nat × Nat => i.1 + i.2 ≤ D), add_sub_cancel_left]
  refine Submodule.sum_mem _ fun i hi => Submodule.smul_mem _ _ ?_
  rw [Finset.mem_filter] at hi
  exact Φ.anti (D + 1) (i.1 + i.2) (by omega) (Φ.mul _ _ _ _ (Φ.pow_mem' hx _) (Φ.pow_mem' hy _))

end Filt
end RA.Series
