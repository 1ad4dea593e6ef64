import Verif.Proofs.Chow
import Mathlib.Algebra.Algebra.Bilinear
import Mathlib.Tactic.Module

/-!
# Conjugation by an exponential and the Baker–Campbell–Hausdorff formula: helper lemmas (C98)
-/

namespace RA.Series
open Finset

section
variable {S A : Type} [Field S] [Ring A] [Algebra S A]

variable (S) in
/-- Bracketing with `x` on the left, `z ↦ x z - z x`. -/
def bracket (x : A) : Module.End S A := LinearMap.mulLeft S x - LinearMap.mulRight S x

theorem bracket_apply (x z : A) : bracket S x z = x * z - z * x := rfl

/-- The terms by which the product of the exponentials of commuting elements differs from the exponential of the sum. -/
theorem exp_add_rest [CharZero S] {x y : A} (hc : Commute x y) (D : Nat) :
    expTo S D x * expTo S D y - expTo S D (x + y) =
      ∑ i ∈ (range (D + 1) ×ˢ range (D + 1)).filter (fun i => ¬ i.1 + i.2 ≤ D), (((i.1.factorial : S)⁻¹) * ((i.2.factorial : S)⁻¹)) • (x ^ i.1 * y ^ i.2) := by
  have e1 : expTo S D (x + y) = ∑ n ∈ range (D + 1), ∑ i ∈ antidiagonal n, (((i.1.factorial : S)⁻¹) * ((i.2.factorial : S)⁻¹)) • (x ^ i.1 * y ^ i.2) := by
    unfold expTo
    refine sum_congr rfl fun n _ => ?_
    rw [hc.add_pow', smul_sum]
    refine sum_congr rfl fun i hi => ?_
    rw [mem_antidiagonal] at hi
    rw [← Nat.cast_smul_eq_nsmul S, smul_smul]
    congr 1
    have := Nat.choose_mul_factorial_mul_factorial (n := n) (k := i.1) (by omega)
    rw [show n - i.1 = i.2 by omega] at this
    have h3 : ((n.factorial : Nat) : S) = (n.choose i.1 : S) * (i.1.factorial : S) * (i.2.factorial : S) := by
      rw [← this]; push_cast; ring
    have a1 : ((i.1.factorial : Nat) : S) ≠ 0 := Nat.cast_ne_zero.2 (Nat.factorial_ne_zero _)
    have a2 : ((i.2.factorial : Nat) : S) ≠ 0 := Nat.cast_ne_zero.2 (Nat.factorial_ne_zero _)
    have a3 : ((n.choose i.1 : Nat) : S) ≠ 0 := Nat.cast_ne_zero.2 (Nat.choose_pos (by omega)).ne'
    rw [h3]
    field_simp
  have e2 : expTo S D x * expTo S D y = ∑ i ∈ range (D + 1) ×ˢ range (D + 1), (((i.1.factorial : S)⁻¹) * ((i.2.factorial : S)⁻¹)) • (x ^ i.1 * y ^ i.2) := by
    unfold expTo
    rw [sum_mul_sum, sum_product]
    refine sum_congr rfl fun i _ => sum_congr rfl fun j _ => ?_
    rw [smul_mul_smul_comm]
  have e3 : ∑ n ∈ range (D + 1), ∑ i ∈ antidiagonal n, (((i.1.factorial : S)⁻¹) * ((i.2.factorial : S)⁻¹)) • (x ^ i.1 * y ^ i.2) =
      ∑ i ∈ (range (D + 1) ×ˢ range (D + 1)).filter (fun i => i.1 + i.2 ≤ D), (((i.1.factorial : S)⁻¹) * ((i.2.factorial : S)⁻¹)) • (x ^ i.1 * y ^ i.2) := by
    rw [← sum_biUnion]
    · apply sum_congr _ fun _ _ => rfl
      ext i
      simp only [mem_biUnion, mem_range, mem_antidiagonal, mem_filter, mem_product]
      constructor
      · rintro ⟨n, h1, h2⟩; omega
      · rintro ⟨_, h⟩; exact ⟨_, by omega, rfl⟩
    · intro a _ b _ hab
      rw [Function.onFun, disjoint_left]
      intro i h1 h2
      rw [mem_antidiagonal] at h1 h2
      exact hab (h1.symm.trans h2)
  rw [e1, e2, e3, ← sum_filter_add_sum_filter_not _ (fun i : Nat × Nat => i.1 + i.2 ≤ D), add_sub_cancel_left]

theorem expTo_mulLeft (D : Nat) (x z : A) : expTo S D (LinearMap.mulLeft S x) z = expTo S D x * z := by
  unfold expTo
  rw [LinearMap.sum_apply, sum_mul]
  refine sum_congr rfl fun k _ => ?_
  rw [LinearMap.pow_mulLeft, LinearMap.smul_apply, LinearMap.mulLeft_apply, smul_mul_assoc]

theorem expTo_mulRight (D : Nat) (x z : A) : expTo S D (LinearMap.mulRight S x) z = z * expTo S D x := by
  unfold expTo
  rw [LinearMap.sum_apply, mul_sum]
  refine sum_congr rfl fun k _ => ?_
  rw [LinearMap.pow_mulRight, LinearMap.smul_apply, LinearMap.mulRight_apply, mul_smul_comm]

/-- Conjugation by the exponential of `x` is the exponential of bracketing with `x`. -/
theorem Filt.conj_exp (Φ : Filt S A) [CharZero S] {x : A} (hx : x ∈ Φ.F 1) (y : A) (D : Nat) :
    expTo S D x * y * expTo S D (-x) - expTo S D (bracket S x) y ∈ Φ.F (D + 1) := by
  have h := exp_add_rest (S := S) (LinearMap.commute_mulLeft_right (R := S) x (-x)) D
  have e : LinearMap.mulLeft S x + LinearMap.mulRight S (-x) = bracket S x := by
    ext z
    rw [LinearMap.add_apply, LinearMap.mulLeft_apply, LinearMap.mulRight_apply, bracket_apply, mul_neg, sub_eq_add_neg]
  rw [e] at h
  have h := congrArg (fun f => f y) h
  rw [LinearMap.sub_apply, Module.End.mul_apply, expTo_mulRight, expTo_mulLeft, LinearMap.sum_apply, ← mul_assoc] at h
  rw [h]
  refine Submodule.sum_mem _ fun i hi => ?_
  rw [mem_filter] at hi
  rw [LinearMap.smul_apply, Module.End.mul_apply, LinearMap.pow_mulLeft, LinearMap.pow_mulRight, LinearMap.mulLeft_apply, LinearMap.mulRight_apply]
  refine Submodule.smul_mem _ _ (Φ.anti (D + 1) (i.1 + i.2) (by omega) (Φ.mul _ _ _ _ (Φ.pow_mem' hx _) (Φ.mul_mem_right (Φ.pow_mem' (Submodule.neg_mem _ hx) _) _)))

theorem Filt.conj_pow (Φ : Filt S A) {a b y : A} {n : Nat} (h : b * a - 1 ∈ Φ.F n) (h' : a * b - 1 ∈ Φ.F n) (k : Nat) : (a * y * b) ^ k - a * y ^ k * b ∈ Φ.F n := by
  induction k with
  | zero =>
    rw [pow_zero, pow_zero, mul_one, ← neg_sub]
    exact Submodule.neg_mem _ h'
  | succ k ih =>
    rw [pow_succ, pow_succ, show (a * y * b) ^ k * (a * y * b) - a * (y ^ k * y) * b =
      ((a * y * b) ^ k - a * y ^ k * b) * (a * y * b) + a * y ^ k * ((b * a - 1) * (y * b)) by noncomm_ring]
    exact Submodule.add_mem _ (Φ.mul_mem_left ih _) (Φ.mul_mem_right (Φ.mul_mem_left h _) _)

theorem Filt.conj_expTo (Φ : Filt S A) {a b y : A} {n : Nat} (h : b * a - 1 ∈ Φ.F n) (h' : a * b - 1 ∈ Φ.F n) (D : Nat) :
    expTo S D (a * y * b) - a * expTo S D y * b ∈ Φ.F n := by
  unfold expTo
  rw [mul_sum, sum_mul, ← sum_sub_distrib]
  refine Submodule.sum_mem _ fun k _ => ?_
  rw [mul_smul_comm, smul_mul_assoc, ← smul_sub]
  exact Submodule.smul_mem _ _ (Φ.conj_pow h h' k)

theorem expTo_zero (D : Nat) : expTo S D (0 : A) = 1 := by
  unfold expTo
  rw [sum_range_succ', sum_eq_zero fun k _ => by rw [zero_pow (by omega), smul_zero]]
  simp

theorem Filt.exp_neg (Φ : Filt S A) [CharZero S] {x : A} (hx : x ∈ Φ.F 1) (D : Nat) : expTo S D x * expTo S D (-x) - 1 ∈ Φ.F (D + 1) := by
  have := Φ.exp_add hx (Submodule.neg_mem _ hx) (Commute.neg_right (Commute.refl _)) D
  rwa [add_neg_cancel, expTo_zero] at this

/-! ## Baker–Campbell–Hausdorff -/

theorem Filt.expTo_cut (Φ : Filt S A) {x : A} (hx : x ∈ Φ.F 1) {n D E : Nat} (hD : n ≤ D) (hE : n ≤ E) : expTo S D x - expTo S E x ∈ Φ.F (n + 1) := by
  have key : ∀ {D : Nat}, n ≤ D → expTo S D x - expTo S n x ∈ Φ.F (n + 1) := by
    intro D hD
    unfold expTo
    rw [← sum_range_add_sum_Ico _ (by omega : n + 1 ≤ D + 1), add_sub_cancel_left]
    refine Submodule.sum_mem _ fun k hk => Submodule.smul_mem _ _ ?_
    rw [mem_Ico] at hk
    exact Φ.anti _ _ hk.1 (Φ.pow_mem' hx k)
  have := Submodule.sub_mem _ (key hD) (key hE)
  rwa [sub_sub_sub_cancel_right] at this

theorem Filt.logTo_cut (Φ : Filt S A) {x : A} (hx : x ∈ Φ.F 1) {n D E : Nat} (hD : n ≤ D) (hE : n ≤ E) : logTo S D x - logTo S E x ∈ Φ.F (n + 1) := by
  have key : ∀ {D : Nat}, n ≤ D → logTo S D x - logTo S n x ∈ Φ.F (n + 1) := by
    intro D hD
    unfold logTo
    rw [← sum_Ico_consecutive _ (by omega : 1 ≤ n + 1) (by omega : n + 1 ≤ D + 1), add_sub_cancel_left]
    refine Submodule.sum_mem _ fun k hk => Submodule.smul_mem _ _ ?_
    rw [mem_Ico] at hk
    exact Φ.anti _ _ hk.1 (Φ.pow_mem' hx k)
  have := Submodule.sub_mem _ (key hD) (key hE)
  rwa [sub_sub_sub_cancel_right] at this

/-- The product of two sums of terms of growing order, cut off. -/
theorem Filt.mul_cut (Φ : Filt S A) (n : Nat) {a b : Nat → A} (ha : ∀ i, a i ∈ Φ.F i) (hb : ∀ i, b i ∈ Φ.F i) :
    (∑ i ∈ range (n + 1), a i) * (∑ i ∈ range (n + 1), b i) - ∑ k ∈ range (n + 1), ∑ i ∈ antidiagonal k, a i.1 * b i.2 ∈ Φ.F (n + 1) := by
  have e3 : ∑ k ∈ range (n + 1), ∑ i ∈ antidiagonal k, a i.1 * b i.2 =
      ∑ i ∈ (range (n + 1) ×ˢ range (n + 1)).filter (fun i => i.1 + i.2 ≤ n), a i.1 * b i.2 := by
    rw [← sum_biUnion]
    · apply sum_congr _ fun _ _ => rfl
      ext i
      simp only [mem_biUnion, mem_range, mem_antidiagonal, mem_filter, mem_product]
      constructor
      · rintro ⟨n, h1, h2⟩; omega
      · rintro ⟨_, h⟩; exact ⟨_, by omega, rfl⟩
    · intro a _ b _ hab
      rw [Function.onFun, disjoint_left]
      intro i h1 h2
      rw [mem_antidiagonal] at h1 h2
      exact hab (h1.symm.trans h2)
  rw [sum_mul_sum, ← sum_product', e3, ← sum_filter_add_sum_filter_not _ (fun i : Nat × Nat => i.1 + i.2 ≤ n), add_sub_cancel_left]
  refine Submodule.sum_mem _ fun i hi => ?_
  rw [mem_filter] at hi
  exact Φ.anti (n + 1) (i.1 + i.2) (by omega) (Φ.mul _ _ _ _ (ha _) (hb _))

theorem Filt.conv_mem (Φ : Filt S A) {a b : Nat → A} (ha : ∀ i, a i ∈ Φ.F i) (hb : ∀ i, b i ∈ Φ.F i) (k : Nat) : ∑ i ∈ antidiagonal k, a i.1 * b i.2 ∈ Φ.F k :=
  Submodule.sum_mem _ fun i hi => by
    rw [mem_antidiagonal] at hi
    rw [← hi]
    exact Φ.mul _ _ _ _ (ha _) (hb _)

variable (S) in
/-- The terms of the Baker–Campbell–Hausdorff series up to degree four. -/
def bch4 (x y : A) : A :=
  x + y + (2 : S)⁻¹ • (x * y - y * x) + (12 : S)⁻¹ • bracket S x (bracket S x y) - (12 : S)⁻¹ • bracket S y (bracket S x y) -
    (24 : S)⁻¹ • bracket S y (bracket S x (bracket S x y))

theorem Filt.bch (Φ : Filt S A) [CharZero S] {x y : A} (hx : x ∈ Φ.F 1) (hy : y ∈ Φ.F 1) : logTo S 4 (expTo S 4 x * expTo S 4 y - 1) - bch4 S x y ∈ Φ.F 5 := by
  set a : Nat → A := fun i => ((i.factorial : S)⁻¹) • x ^ i with ha'
  set b : Nat → A := fun i => ((i.factorial : S)⁻¹) • y ^ i with hb'
  have ha : ∀ i, a i ∈ Φ.F i := fun i => Submodule.smul_mem _ _ (Φ.pow_mem' hx i)
  have hb : ∀ i, b i ∈ Φ.F i := fun i => Submodule.smul_mem _ _ (Φ.pow_mem' hy i)
  set u : Nat → A := fun k => if k = 0 then 0 else ∑ i ∈ antidiagonal k, a i.1 * b i.2 with hu'
  have hu : ∀ i, u i ∈ Φ.F i := fun i => by
    by_cases h : i = 0
    · simp [hu', h]
    · simp only [hu', h, if_false]
      exact Φ.conv_mem ha hb i
  set U := ∑ k ∈ range 5, u k with hU
  have h1 : (expTo S 4 x * expTo S 4 y - 1) - U ∈ Φ.F 5 := by
    have := Φ.mul_cut 4 ha hb
    have e : U + 1 = ∑ k ∈ range 5, ∑ i ∈ antidiagonal k, a i.1 * b i.2 := by
      rw [hU, sum_range_succ' _ 4, sum_range_succ' _ 4]
      simp [hu', ha', hb']
    rw [← e] at this
    rw [sub_sub, add_comm 1 U]
    exact this
  set u2 : Nat → A := fun k => ∑ i ∈ antidiagonal k, u i.1 * u i.2 with hu2'
  have hu2 : ∀ i, u2 i ∈ Φ.F i := Φ.conv_mem hu hu
  set u3 : Nat → A := fun k => ∑ i ∈ antidiagonal k, u2 i.1 * u i.2 with hu3'
  have hu3 : ∀ i, u3 i ∈ Φ.F i := Φ.conv_mem hu2 hu
  set u4 : Nat → A := fun k => ∑ i ∈ antidiagonal k, u3 i.1 * u i.2 with hu4'
  have s2 : U ^ 2 - ∑ k ∈ range 5, u2 k ∈ Φ.F 5 := by
    rw [pow_two]
    exact Φ.mul_cut 4 hu hu
  have s3 : U ^ 3 - ∑ k ∈ range 5, u3 k ∈ Φ.F 5 := by
    have := Submodule.add_mem _ (Φ.mul_mem_left s2 U) (Φ.mul_cut 4 hu2 hu)
    rwa [sub_mul, ← pow_succ, ← hU, sub_add_sub_cancel] at this
  have s4 : U ^ 4 - ∑ k ∈ range 5, u4 k ∈ Φ.F 5 := by
    have := Submodule.add_mem _ (Φ.mul_mem_left s3 U) (Φ.mul_cut 4 hu3 hu)
    rwa [sub_mul, ← pow_succ, ← hU, sub_add_sub_cancel] at this
  have h2 : logTo S 4 U - bch4 S x y ∈ Φ.F 5 := by
    have e : logTo S 4 U = U - (2 : S)⁻¹ • U ^ 2 + (3 : S)⁻¹ • U ^ 3 - (4 : S)⁻¹ • U ^ 4 := by
      unfold logTo
      simp only [sum_Ico_succ_top (show 1 ≤ 4 by omega), sum_Ico_succ_top (show 1 ≤ 3 by omega), sum_Ico_succ_top (show 1 ≤ 2 by omega),
        sum_Ico_succ_top (show 1 ≤ 1 by omega), Ico_self, sum_empty]
      rw [pow_one]
      push_cast
      match_scalars <;> norm_num
    have e2 : bch4 S x y = U - (2 : S)⁻¹ • (∑ k ∈ range 5, u2 k) + (3 : S)⁻¹ • (∑ k ∈ range 5, u3 k) - (4 : S)⁻¹ • (∑ k ∈ range 5, u4 k) := by
      have v0 : u 0 = 0 := rfl
      have v1 : u 1 = x + y := by
        simp [hu', ha', hb', Nat.antidiagonal_succ]
        abel
      have v2 : u 2 = (2 : S)⁻¹ • (x * x) + x * y + (2 : S)⁻¹ • (y * y) := by
        simp [hu', ha', hb', Nat.antidiagonal_succ, Nat.factorial, pow_succ]
        abel
      have v3 : u 3 = (6 : S)⁻¹ • (x * x * x) + (2 : S)⁻¹ • (x * x * y) + (2 : S)⁻¹ • (x * y * y) + (6 : S)⁻¹ • (y * y * y) := by
        simp [hu', ha', hb', Nat.antidiagonal_succ, Nat.factorial, pow_succ, mul_assoc]
        match_scalars <;> norm_num
      have v4 : u 4 = (24 : S)⁻¹ • (x * x * x * x) + (6 : S)⁻¹ • (x * x * x * y) + (4 : S)⁻¹ • (x * x * y * y) + (6 : S)⁻¹ • (x * y * y * y) +
          (24 : S)⁻¹ • (y * y * y * y) := by
        simp [hu', ha', hb', Nat.antidiagonal_succ, Nat.factorial, pow_succ, mul_assoc]
        match_scalars <;> norm_num
      have w20 : u2 0 = 0 := by simp [hu2', v0]
      have w21 : u2 1 = 0 := by simp [hu2', v0, Nat.antidiagonal_succ]
      have w22 : u2 2 = u 1 * u 1 := by simp [hu2', v0, Nat.antidiagonal_succ]
      have w23 : u2 3 = u 1 * u 2 + u 2 * u 1 := by simp [hu2', v0, Nat.antidiagonal_succ]
      have w24 : u2 4 = u 1 * u 3 + u 2 * u 2 + u 3 * u 1 := by simp [hu2', v0, Nat.antidiagonal_succ, add_assoc]
      have w30 : u3 0 = 0 := by simp [hu3', v0]
      have w31 : u3 1 = 0 := by simp [hu3', v0, w20, Nat.antidiagonal_succ]
      have w32 : u3 2 = 0 := by simp [hu3', v0, w20, w21, Nat.antidiagonal_succ]
      have w33 : u3 3 = u2 2 * u 1 := by simp [hu3', v0, w20, w21, Nat.antidiagonal_succ]
      have w34 : u3 4 = u2 2 * u 2 + u2 3 * u 1 := by simp [hu3', v0, w20, w21, Nat.antidiagonal_succ]
      have w40 : u4 0 = 0 := by simp [hu4', v0]
      have w41 : u4 1 = 0 := by simp [hu4', v0, w30, Nat.antidiagonal_succ]
      have w42 : u4 2 = 0 := by simp [hu4', v0, w30, w31, Nat.antidiagonal_succ]
      have w43 : u4 3 = 0 := by simp [hu4', v0, w30, w31, w32, Nat.antidiagonal_succ]
      have w44 : u4 4 = u3 3 * u 1 := by simp [hu4', v0, w30, w31, w32, Nat.antidiagonal_succ]
      rw [hU]
      simp only [sum_range_succ, range_zero, sum_empty, w40, w41, w42, w43, w44, w30, w31, w32, w33, w34, w20, w21, w22, w23, w24, v0, v1, v2, v3, v4, zero_add]
      simp only [bch4, bracket_apply, mul_add, add_mul, mul_sub, sub_mul, smul_mul_assoc, mul_smul_comm, mul_assoc, smul_add, smul_sub, smul_smul]
      match_scalars <;> norm_num
    rw [e, e2]
    have := Submodule.sub_mem _ (Submodule.sub_mem _ (Submodule.smul_mem _ (3 : S)⁻¹ s3) (Submodule.smul_mem _ (2 : S)⁻¹ s2)) (Submodule.smul_mem _ (4 : S)⁻¹ s4)
    convert this using 1
    module
  have h3 := Submodule.add_mem _ (Φ.logTo_congr h1 4) h2
  rwa [sub_add_sub_cancel] at h3

end
end RA.Series
