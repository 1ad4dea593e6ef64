import Verif.Props.FreeTensor
import Mathlib.Algebra.Order.Field.Rat
import Mathlib.Data.Rat.BigOperators
import Mathlib.Tactic.Positivity

/-!
# Exactly when `mul_rat_rdiv`, `exp`, `fmexp` and `log` are right (C38-C41)
-/

namespace RA
open Spec TensorKey TensorBasis DenseAlg WordFn

/-! ## Lowest degrees of products -/

section
variable {S : Type} [Field S]

/-- No word shorter than `d` has a coefficient. -/
def Vanish (d : Nat) (f : WordFn S) : Prop := ∀ w : List Nat, w.length < d → f w = 0

theorem mul_vanish {i j : Nat} {f g : WordFn S} (hf : Vanish i f) (hg : Vanish j g) : Vanish (i + j) (f * g) := by
  intro w hw
  rw [mul_apply_sum]
  apply List.sum_eq_zero
  intro x hx
  obtain ⟨k, hk, rfl⟩ := List.mem_map.1 hx
  rw [List.mem_range] at hk
  by_cases h : k < i
  · rw [hf _ (by rw [List.length_take]; omega), zero_mul]
  · rw [hg _ (by rw [List.length_drop]; omega), mul_zero]

theorem pow_vanish' {m : Nat} {y : WordFn S} (hy : Vanish m y) (k : Nat) : Vanish (k * m) (y ^ k) := by
  induction k with
  | zero => intro w hw; omega
  | succ k ih =>
    rw [pow_succ, Nat.succ_mul]
    exact mul_vanish ih hy

theorem mul_lead {i j : Nat} {f g : WordFn S} (hf : Vanish i f) (hg : Vanish j g) (u t : List Nat) (hu : u.length = i) (ht : t.length = j) :
    (f * g) (u ++ t) = f u * g t := by
  rw [mul_apply_sum]
  have hz : ∀ k, k ≠ i → k ≤ i + j → f ((u ++ t).take k) * g ((u ++ t).drop k) = 0 := by
    intro k hk hle
    by_cases h : k < i
    · rw [hf _ (by rw [List.length_take]; omega), zero_mul]
    · rw [hg _ (by rw [List.length_drop, List.length_append]; omega), mul_zero]
  have : ∀ n, n ≤ i + j + 1 → ((List.range n).map fun k => f ((u ++ t).take k) * g ((u ++ t).drop k)).sum = if i < n then f u * g t else 0 := by
    intro n
    induction n with
    | zero => intro _; simp
    | succ n ih =>
      intro hn
      rw [List.range_succ, List.map_append, List.sum_append, ih (by omega), List.map_singleton, List.sum_singleton]
      by_cases h : n = i
      · subst h
        rw [if_neg (lt_irrefl _), if_pos (Nat.lt_succ_self _), zero_add, ← hu, List.take_left', List.drop_left']
        · rfl
        · rfl
      · rw [hz n h (by omega), add_zero]
        by_cases h' : i < n
        · rw [if_pos h', if_pos (by omega)]
        · rw [if_neg h', if_neg (by omega)]
  rw [this _ (by rw [List.length_append]; omega), if_pos (by rw [List.length_append]; omega)]

/-- A tensor that is not zero has a shortest word. -/
theorem exists_lead (f : WordFn S) (w : List Nat) (hw : f w ≠ 0) : ∃ u, f u ≠ 0 ∧ u.length ≤ w.length ∧ Vanish u.length f := by
  classical
  have h : ∃ n, ∃ u : List Nat, u.length = n ∧ f u ≠ 0 := ⟨_, w, rfl, hw⟩
  obtain ⟨u, h1, h2⟩ := Nat.find_spec h
  refine ⟨u, h2, ?_, ?_⟩
  · rw [h1]
    exact Nat.find_min' h ⟨w, rfl, hw⟩
  · intro v hv
    by_contra hc
    have := Nat.find_min' h ⟨v, rfl, hc⟩
    omega

theorem mul_ne {f g : WordFn S} {w : List Nat} (h : (f * g) w ≠ 0) : ∃ u v, u ++ v = w ∧ f u ≠ 0 ∧ g v ≠ 0 := by
  rw [mul_apply_sum] at h
  by_contra hc
  push Not at hc
  apply h
  apply List.sum_eq_zero
  intro x hx
  obtain ⟨k, _, rfl⟩ := List.mem_map.1 hx
  by_cases hf : f (w.take k) = 0
  · rw [hf, zero_mul]
  · rw [hc _ _ (List.take_append_drop k w) hf, mul_zero]

/-- Two series in `y` that agree to first order and differ at second order, multiplied with `v`, agree exactly when `v y y` vanishes. -/
theorem series_iff (v y : WordFn S) (hy : y [] = 0) (D n : Nat) (hn : 3 ≤ n) (a b : Nat → S) (h0 : a 0 = b 0) (h1 : a 1 = b 1) (h2 : a 2 ≠ b 2) :
    EqTo D (∑ k ∈ Finset.range n, a k • (v * y ^ k)) (∑ k ∈ Finset.range n, b k • (v * y ^ k)) ↔ EqTo D (v * y * y) 0 := by
  constructor
  · intro h w hw
    by_contra hc
    obtain ⟨u', t', hut, hu', ht'⟩ := mul_ne hc
    obtain ⟨u'', s', hus, hu'', hs'⟩ := mul_ne hu'
    obtain ⟨u, pu1, pu2, pu3⟩ := exists_lead v u'' hu''
    obtain ⟨t, pt1, pt2, pt3⟩ := exists_lead y t' ht'
    have ht0 : 1 ≤ t.length := by
      rcases t with _ | ⟨_, _⟩
      · exact absurd hy pt1
      · simp
    have hs : t.length ≤ s'.length := by
      by_contra hlt
      exact hs' (pt3 s' (by omega))
    have hl : (u ++ (t ++ t)).length ≤ D := by
      rw [← hut, ← hus] at hw
      simp only [List.length_append] at hw ⊢
      omega
    have key := h _ hl
    rw [sum_apply, sum_apply] at key
    have hk : ∀ k, 3 ≤ k → (v * y ^ k) (u ++ (t ++ t)) = 0 := by
      intro k hk
      apply mul_vanish pu3 (pow_vanish' pt3 k)
      have : 3 * t.length ≤ k * t.length := Nat.mul_le_mul_right _ hk
      simp only [List.length_append]
      omega
    have h2' : (v * y ^ 2) (u ++ (t ++ t)) = v u * (y t * y t) := by
      rw [mul_lead pu3 (pow_vanish' pt3 2) u (t ++ t) rfl (by rw [List.length_append]; omega), pow_two, mul_lead pt3 pt3 t t rfl rfl]
    have hsum : ∀ c : Nat → S, ∑ k ∈ Finset.range n, (c k • (v * y ^ k)) (u ++ (t ++ t)) =
        c 0 * (v * y ^ 0) (u ++ (t ++ t)) + c 1 * (v * y ^ 1) (u ++ (t ++ t)) + c 2 * (v u * (y t * y t)) := by
      intro c
      obtain ⟨m, rfl⟩ : ∃ m, n = 3 + m := ⟨n - 3, by omega⟩
      rw [Finset.sum_range_add, Finset.sum_eq_zero (s := Finset.range m), add_zero]
      · rw [Finset.sum_range_succ, Finset.sum_range_succ, Finset.sum_range_one]
        rw [smul_apply, smul_apply, smul_apply, h2']
      · intro k _
        rw [smul_apply, hk _ (by omega), mul_zero]
    rw [hsum, hsum, h0, h1] at key
    have := add_left_cancel key
    exact h2 (mul_right_cancel₀ (mul_ne_zero pu1 (mul_ne_zero pt1 pt1)) this)
  · intro h
    have hk : ∀ k, 2 ≤ k → EqTo D (v * y ^ k) 0 := by
      intro k hk
      obtain ⟨j, rfl⟩ : ∃ j, k = 2 + j := ⟨k - 2, by omega⟩
      rw [pow_add, pow_two, ← mul_assoc, ← mul_assoc]
      have := EqTo.mul h (EqTo.refl D (y ^ j))
      rwa [zero_mul] at this
    apply EqTo.sum
    intro k _
    rcases k with _ | _ | k
    · rw [h0]; exact EqTo.refl _ _
    · rw [zero_add, h1]; exact EqTo.refl _ _
    · have e := hk (k + 2) (by omega)
      intro w hw
      rw [smul_apply, smul_apply, e w hw, zero_apply, mul_zero, mul_zero]

theorem sum_pad (D : Nat) (hD : 2 ≤ D) (f : Nat → S) (g : Nat → WordFn S) :
    ∑ k ∈ Finset.range (D - 1 + 1), f k • g k = ∑ k ∈ Finset.range (D + 1), (if k < D then f k else 0) • g k := by
  rw [show D - 1 + 1 = D by omega, Finset.sum_range_succ _ D, if_neg (lt_irrefl _), zero_smul, add_zero]
  apply Finset.sum_congr rfl
  intro k hk
  rw [if_pos (Finset.mem_range.1 hk)]

theorem exp_iff [CharZero S] (v y : WordFn S) (hy : y [] = 0) (D : Nat) :
    EqTo D (∑ k ∈ Finset.range (D - 1 + 1), (k.factorial : S) • (v * y ^ k)) (v * expSeries y D) ↔
      (D = 0 ∨ (D = 1 ∧ EqTo 1 (v * y) 0) ∨ (2 ≤ D ∧ EqTo D (v * y * y) 0)) := by
  unfold expSeries
  rw [mul_sum_smul]
  rcases D with _ | _ | D
  · simp [EqTo.refl]
  · simp only [Nat.zero_add, Nat.sub_self, one_ne_zero, true_and, false_or, Nat.not_ofNat_le_one, false_and, or_false]
    rw [Finset.sum_range_one, show 1 + 1 = 2 from rfl, Finset.sum_range_succ, Finset.sum_range_one]
    simp only [Nat.factorial_zero, Nat.factorial_one, Nat.cast_one, inv_one, one_smul, pow_zero, pow_one]
    constructor
    · intro h w hw
      have := h w hw
      rw [add_apply] at this
      rw [zero_apply]
      exact left_eq_add.1 this
    · intro h w hw
      rw [add_apply, h w hw, zero_apply, add_zero]
  · rw [sum_pad (D + 1 + 1) (by omega)]
    rw [series_iff v y hy (D + 1 + 1) (D + 1 + 1 + 1) (by omega)]
    · constructor
      · exact fun h => .inr (.inr ⟨by omega, h⟩)
      · rintro (h | ⟨h, _⟩ | ⟨_, h⟩)
        · omega
        · omega
        · exact h
    · simp
    · simp
    · have h3 : (3 : S) ≠ 0 := by norm_num
      have h2 : (2 : S) ≠ 0 := by norm_num
      split_ifs
      · intro h
        simp only [Nat.factorial_two, Nat.cast_ofNat] at h
        have : (2 : S) * 2 = 1 := by rw [show (2 : S) * 2 = 2⁻¹ * 2 by rw [← h], inv_mul_cancel₀ h2]
        exact h3 (by linear_combination this)
      · simp only [Nat.factorial_two, Nat.cast_ofNat]
        exact (inv_ne_zero h2).symm

end

/-! ## C38-C41 -/

section
variable {V S : Type} [Field S] (C : Coeff S S) (p : Profile) (T : AlgOps V TensorKey S S) (val : V → WordFn S)

/-- C38, exactly when `mul_rat_rdiv` is right: dividing by a nonzero scalar that is its own inverse, or when the product is zero anyway. -/
theorem C38_mul_rat_rdiv_right_iff_partial (hC : C.IsField) (hT : CorrectTensor T C val) (v rhs : V) (r : S) (hr : r ≠ 0) (d : Nat) :
    (∃ x, T.mulRatRdiv C v rhs r (some d) = .ok x ∧ EqTo d (val x) (r⁻¹ • (val v * val rhs))) ↔ (r * r = 1 ∨ EqTo d (val v * val rhs) 0) := by
  obtain ⟨x, h1, h2⟩ := C38_mul_rat_rdiv_actual C T val hC hT v rhs r d
  constructor
  · rintro ⟨x', h1', h3⟩
    cases h1.symm.trans h1'
    by_cases hrr : r * r = 1
    · exact .inl hrr
    · refine .inr fun w hw => ?_
      have e := (h2 w hw).symm.trans (h3 w hw)
      rw [smul_apply, smul_apply] at e
      by_contra hc
      rw [zero_apply] at hc
      have := mul_right_cancel₀ hc e
      exact hrr (by nth_rewrite 1 [this]; exact inv_mul_cancel₀ hr)
  · rintro (h | h)
    · exact C38_mul_rat_rdiv_partial C T val hC hT v rhs r h d
    · refine ⟨x, h1, h2.trans fun w hw => ?_⟩
      rw [smul_apply, smul_apply, h w hw, zero_apply, mul_zero, mul_zero]

example : ¬ ∃ x, (wordOps Rat).mulRatRdiv (fieldCoeff Rat) 1 letter 2 (some 3) = .ok x ∧ EqTo 3 x ((2 : Rat)⁻¹ • (1 * letter)) := by
  intro h
  rcases (C38_mul_rat_rdiv_right_iff_partial (fieldCoeff Rat) (wordOps Rat) id (fieldCoeff_isField Rat) (wordOps_correct Rat) 1 letter 2
    (by norm_num) 3).1 h with h | h
  · norm_num at h
  · have := h [1] (by simp)
    rw [id, id, one_mul] at this
    norm_num [letter, zero_apply] at this

/-- C39, exactly when `exp` of a tensor without constant term is right, in characteristic 0: at `MAX_DEGREE` 0; at `MAX_DEGREE` 1 for zero; from 2 on
for tensors whose square is zero. -/
theorem C39_exp_right_iff_partial [CharZero S] (hC : C.IsField) (hT : CorrectTensor T C val) (maxDegree : Nat) (x : V) (hx : val x [] = 0) :
    (∃ r, FreeTensor.exp C T maxDegree x = .ok r ∧ EqTo maxDegree (val r) (expSeries (val x) maxDegree)) ↔
      (maxDegree = 0 ∨ (maxDegree = 1 ∧ EqTo 1 (val x) 0) ∨ (2 ≤ maxDegree ∧ EqTo maxDegree (val x * val x) 0)) := by
  obtain ⟨r, h1, h2⟩ := C39_exp_actual C T val hC hT maxDegree x
  have key := exp_iff 1 (val x) hx maxDegree
  simp only [one_mul] at key
  rw [← key]
  constructor
  · rintro ⟨r', h1', h3⟩
    cases h1.symm.trans h1'
    exact h2.symm.trans h3
  · exact fun h => ⟨r, h1, h2.trans h⟩

example : ¬ ∃ r, FreeTensor.exp (fieldCoeff Rat) (wordOps Rat) 3 letter = .ok r ∧ EqTo 3 r (expSeries letter 3) := by
  intro h
  rcases (C39_exp_right_iff_partial (fieldCoeff Rat) (wordOps Rat) id (fieldCoeff_isField Rat) (wordOps_correct Rat) 3 letter
    (by simp [letter])).1 h with h | ⟨h, _⟩ | ⟨_, h⟩
  · omega
  · omega
  · have := h [1, 1] (by simp)
    rw [id, letter_mul] at this
    norm_num [letter, zero_apply] at this

/-- C40, exactly when `fmexp` is right, in characteristic 0: when the product of the vector with the square of the argument (at `MAX_DEGREE` 1: with the
argument) is zero, constant terms of the argument not counted. -/
theorem C40_fmexp_right_iff_partial [CharZero S] (hC : C.IsField) (hT : CorrectTensor T C val) (maxDegree : Nat) (h32 : maxDegree < 2 ^ 32) (v x : V) :
    (∃ r, FreeTensor.fmexp p C T maxDegree v x = .ok r ∧ EqTo maxDegree (val r) (val v * expSeries (dropConst (val x)) maxDegree)) ↔
      (maxDegree = 0 ∨ (maxDegree = 1 ∧ EqTo 1 (val v * dropConst (val x)) 0) ∨
        (2 ≤ maxDegree ∧ EqTo maxDegree (val v * dropConst (val x) * dropConst (val x)) 0)) := by
  obtain ⟨r, h1, h2⟩ := C40_fmexp_actual C p T val hC hT maxDegree h32 v x
  rw [← exp_iff (val v) (dropConst (val x)) rfl maxDegree]
  constructor
  · rintro ⟨r', h1', h3⟩
    cases h1.symm.trans h1'
    exact h2.symm.trans h3
  · exact fun h => ⟨r, h1, h2.trans h⟩

example (p : Profile) : ¬ ∃ r, FreeTensor.fmexp p (fieldCoeff Rat) (wordOps Rat) 3 1 letter = .ok r ∧ EqTo 3 r (1 * expSeries (dropConst letter) 3) := by
  intro h
  rcases (C40_fmexp_right_iff_partial (fieldCoeff Rat) p (wordOps Rat) id (fieldCoeff_isField Rat) (wordOps_correct Rat) 3 (by norm_num) 1 letter).1 h with
    h | ⟨h, _⟩ | ⟨_, h⟩
  · omega
  · omega
  · have e : dropConst (letter : WordFn Rat) = letter := by
      funext w
      rcases w with _ | ⟨a, w⟩ <;> simp [dropConst, letter]
    have := h [1, 1] (by simp)
    rw [id, id, e, one_mul, letter_mul] at this
    norm_num [letter, zero_apply] at this

/-- The partial sums of `1 - 1/2 + 1/3 - ...` are positive. -/
theorem alternating_pos (n : Nat) :
    0 ≤ ∑ k ∈ Finset.Ico 1 (2 * n + 1), (-1 : Rat) ^ (k + 1) * (k : Rat)⁻¹ ∧ (1 ≤ n → 0 < ∑ k ∈ Finset.Ico 1 (2 * n + 1), (-1 : Rat) ^ (k + 1) * (k : Rat)⁻¹) ∧
      0 < ∑ k ∈ Finset.Ico 1 (2 * n + 2), (-1 : Rat) ^ (k + 1) * (k : Rat)⁻¹ := by
  have step : ∀ n : Nat, ∑ k ∈ Finset.Ico 1 (2 * n + 2), (-1 : Rat) ^ (k + 1) * (k : Rat)⁻¹ =
      ∑ k ∈ Finset.Ico 1 (2 * n + 1), (-1 : Rat) ^ (k + 1) * (k : Rat)⁻¹ + ((2 * n + 1 : Nat) : Rat)⁻¹ := by
    intro n
    rw [Finset.sum_Ico_succ_top (by omega), show 2 * n + 1 + 1 = 2 * (n + 1) by ring, pow_mul]
    norm_num
  have step' : ∀ n : Nat, ∑ k ∈ Finset.Ico 1 (2 * (n + 1) + 1), (-1 : Rat) ^ (k + 1) * (k : Rat)⁻¹ =
      ∑ k ∈ Finset.Ico 1 (2 * n + 2), (-1 : Rat) ^ (k + 1) * (k : Rat)⁻¹ - ((2 * n + 2 : Nat) : Rat)⁻¹ := by
    intro n
    rw [show 2 * (n + 1) + 1 = 2 * n + 2 + 1 by ring, Finset.sum_Ico_succ_top (by omega), pow_succ, show 2 * n + 2 = 2 * (n + 1) by ring, pow_mul]
    norm_num
    ring
  have pos : ∀ n : Nat, (0 : Rat) < ((2 * n + 1 : Nat) : Rat)⁻¹ := fun n => by positivity
  have dec : ∀ n : Nat, ((2 * n + 2 : Nat) : Rat)⁻¹ < ((2 * n + 1 : Nat) : Rat)⁻¹ := fun n => by
    apply (inv_lt_inv₀ (by positivity) (by positivity)).2
    exact_mod_cast Nat.lt_succ_self _
  have h0 : ∀ n : Nat, 0 ≤ ∑ k ∈ Finset.Ico 1 (2 * n + 1), (-1 : Rat) ^ (k + 1) * (k : Rat)⁻¹ := by
    intro n
    induction n with
    | zero => simp
    | succ n ih =>
      rw [step', step]
      have := dec n
      linarith
  refine ⟨h0 n, fun h => ?_, by rw [step]; have := h0 n; have := pos n; linarith⟩
  obtain ⟨m, rfl⟩ : ∃ m, n = m + 1 := ⟨n - 1, by omega⟩
  rw [step', step]
  have := h0 m
  have := dec m
  linarith

theorem alternating_ne [CharZero S] (n : Nat) (hn : 1 ≤ n) : ∑ k ∈ Finset.Ico 1 (n + 1), (-1 : S) ^ (k + 1) * (k : S)⁻¹ ≠ 0 := by
  have h : (∑ k ∈ Finset.Ico 1 (n + 1), (-1 : Rat) ^ (k + 1) * (k : Rat)⁻¹) ≠ 0 := by
    rcases Nat.even_or_odd' n with ⟨m, rfl | rfl⟩
    · exact ((alternating_pos m).2.1 (by omega)).ne'
    · exact (alternating_pos m).2.2.ne'
  have e : ∑ k ∈ Finset.Ico 1 (n + 1), (-1 : S) ^ (k + 1) * (k : S)⁻¹ =
      ((∑ k ∈ Finset.Ico 1 (n + 1), (-1 : Rat) ^ (k + 1) * (k : Rat)⁻¹ : Rat) : S) := by
    rw [Rat.cast_sum]
    apply Finset.sum_congr rfl
    intro k _
    push_cast
    rfl
  rw [e]
  exact_mod_cast h

/-- C41, exactly when `log` of a tensor with constant term 1 is right, in characteristic 0: at `MAX_DEGREE` 0, and at `MAX_DEGREE` 1 for the unit. -/
theorem C41_log_right_iff_partial [CharZero S] (hC : C.IsField) (hT : CorrectTensor T C val) (maxDegree : Nat) (x : V) (hx : val x [] = 1) :
    (∃ r, FreeTensor.log C T maxDegree x = .ok r ∧ EqTo maxDegree (val r) (logSeries (val x - 1) maxDegree)) ↔
      (maxDegree = 0 ∨ (maxDegree = 1 ∧ EqTo 1 (val x) 1)) := by
  constructor
  · rintro ⟨r, h1, h2⟩
    obtain ⟨r', h1', h3⟩ := C41_log_actual C T val hC hT maxDegree x
    cases h1.symm.trans h1'
    have hy : (val x - 1) [] = 0 := by rw [sub_apply, hx, one_apply, if_pos rfl, sub_self]
    rcases maxDegree with _ | _ | D
    · exact .inl rfl
    · refine .inr ⟨rfl, fun w hw => ?_⟩
      have := h2 w hw
      rw [h3, logSeries] at this
      simp only [Nat.zero_add, Nat.sub_self, Finset.Ico_self, Finset.sum_empty, zero_smul] at this
      rw [show Finset.Ico 1 (1 + 1) = {1} from rfl, Finset.sum_singleton, pow_one, smul_apply, sub_apply, zero_apply] at this
      norm_num at this
      exact (sub_eq_zero.1 this.symm)
    · exfalso
      have := h2 [] (by simp)
      rw [h3, smul_apply, one_apply, if_pos rfl, mul_one, logSeries, sum_apply,
        Finset.sum_eq_zero (s := Finset.Ico 1 (D + 1 + 1 + 1))] at this
      · exact alternating_ne (D + 1) (by omega) this
      · intro k hk
        rw [Finset.mem_Ico] at hk
        rw [smul_apply, pow_vanish' (m := 1) (y := val x - 1) (fun w hw => by
          rw [List.length_eq_zero_iff.1 (by omega : w.length = 0)]
          exact hy) k [] (by simp; omega), mul_zero]
  · exact C41_log_partial C T val hC hT maxDegree x

example : ¬ ∃ r, FreeTensor.log (fieldCoeff Rat) (wordOps Rat) 2 1 = .ok r ∧ EqTo 2 r (logSeries (1 - 1) 2) := by
  intro h
  rcases (C41_log_right_iff_partial (fieldCoeff Rat) (wordOps Rat) id (fieldCoeff_isField Rat) (wordOps_correct Rat) 2 1 rfl).1 h with h | ⟨h, _⟩ <;> omega

end

end RA
