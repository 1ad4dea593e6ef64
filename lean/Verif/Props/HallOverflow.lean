import Verif.Props.Hall

/-!
# Sizes of Hall set levels past the range of `isize` (C43)
-/

namespace RA
open Spec Hall ArithmeticFunction

/-- Wrapping keeps what is in range. -/
theorem fitS_release_eq (e : Int) : fitS .release e = .ok (e.bmod (2 ^ 64)) := by
  unfold fitS
  split_ifs with h
  · exact congrArg Res.ok (Int.bmod_eq_of_le (by omega) (by omega)).symm
  · rfl

theorem bmod_pow (w e : Nat) : (powInt (toSigned w) e).bmod (2 ^ 64) = ((w : Int) ^ e).bmod (2 ^ 64) := by
  unfold powInt toSigned
  generalize 2 ^ 64 = m
  induction e with
  | zero => rw [pow_zero, pow_zero]
  | succ e ih =>
    rw [pow_succ, pow_succ, ← Int.bmod_mul_bmod, ih, Int.bmod_mul_bmod, Int.mul_bmod_bmod]

/-- One term in a release build. -/
theorem levelTerm_release_eq (w n d : Nat) (m : Int) (hm : mobius .release d = .ok m) (hn : n < 2 ^ 32) (h1 : 1 ≤ n) (hd : 1 ≤ d) :
    levelTerm .release w n d = .ok (((m * (w : Int) ^ (n / d)).bmod (2 ^ 64)).tdiv n) := by
  have hle : n / d ≤ n := Nat.div_le_self _ _
  unfold levelTerm
  rw [hm, Res.bind_ok, divW_ok (by omega), Res.bind_ok, fitS_release_eq, Res.bind_ok, fitS_release_eq, Res.bind_ok,
    toU32_of_lt (by omega), bmod_pow, Int.mul_bmod_bmod, toSigned_of_lt (by omega)]
  unfold divS
  rw [if_neg (by omega)]

/-- C43.  In debug builds a level whose number of words does not fit in `isize` panics. -/
theorem C43_level_debug_overflow (w n : Nat) (hn : n < 2 ^ 32) (hw : w < 2 ^ 63) (hfit : 2 ^ 63 ≤ w ^ n) : levelSize .debug w n = .panic :=
  levelSize_debug_panic w n hn hw hfit

example : levelSize .debug 10 20 = .panic := C43_level_debug_overflow 10 20 (by omega) (by norm_num) (by norm_num)

/-- C43, exactly what a release build returns at every prime-power level `q ^ (k + 1)`, for every width: the powers of the width are taken modulo
`2 ^ 64` as signed numbers before they are divided by the level. -/
theorem C43_level_release_exact (w q k : Nat) (hq : q.Prime) (hn : q ^ (k + 1) < 2 ^ 32) :
    levelSize .release w (q ^ (k + 1)) = .ok (((((w : Int) ^ q ^ (k + 1)).bmod (2 ^ 64)).tdiv (q ^ (k + 1) : Nat) +
      ((-(w : Int) ^ q ^ k).bmod (2 ^ 64)).tdiv (q ^ (k + 1) : Nat)) % 2 ^ 64).toNat := by
  have hqk : q ^ (k + 1) = q ^ k * q := pow_succ q k
  have hk0 : 0 < q ^ k := Nat.pow_pos hq.pos
  have hq2 := hq.two_le
  have hkn : q ^ k < q ^ (k + 1) := Nat.pow_lt_pow_right hq.one_lt (by omega)
  have hdiv : q ^ (k + 1) / q = q ^ k := by rw [hqk, Nat.mul_div_cancel _ hq.pos]
  have hmem1 : 1 ≤ q ∧ q ≤ q ^ (k + 1) := ⟨by omega, Nat.le_self_pow (by omega) q⟩
  have hdq : q ∣ q ^ (k + 1) := dvd_pow_self q (by omega)
  have hdiv1 : ∀ j, 2 ≤ j → q ^ j ≠ 1 ∧ q ^ j ≠ q := by
    intro j hj
    have : q ^ 2 ≤ q ^ j := Nat.pow_le_pow_right hq.pos hj
    have : q < q ^ 2 := by rw [pow_two]; nlinarith
    constructor <;> omega
  have hcases : ∀ c, c ∣ q ^ (k + 1) → ∃ j, j ≤ k + 1 ∧ c = q ^ j := fun c hc => (Nat.dvd_prime_pow hq).1 hc
  have hbound : ∀ x : Int, -2 ^ 62 ≤ (x.bmod (2 ^ 64)).tdiv (q ^ (k + 1) : Nat) ∧ (x.bmod (2 ^ 64)).tdiv (q ^ (k + 1) : Nat) < 2 ^ 62 := by
    intro x
    have h1 := Int.le_bmod (x := x) (m := 2 ^ 64) (by norm_num)
    have h2 := Int.bmod_lt (x := x) (m := 2 ^ 64) (by norm_num)
    generalize x.bmod (2 ^ 64) = y at *
    have hn2 : 2 ≤ q ^ (k + 1) := by omega
    generalize q ^ (k + 1) = n at hn2
    have key : ∀ z : Int, 0 ≤ z → z.tdiv n ≤ z / 2 ∧ 0 ≤ z.tdiv n := by
      intro z hz
      rw [Int.tdiv_eq_ediv_of_nonneg hz]
      obtain ⟨z, rfl⟩ := Int.eq_ofNat_of_zero_le hz
      have : z / n ≤ z / 2 := Nat.div_le_div_left hn2 (by omega)
      exact ⟨by exact_mod_cast this, by positivity⟩
    rcases Int.le_total 0 y with hy | hy
    · have := key y hy
      omega
    · have := key (-y) (by omega)
      rw [Int.neg_tdiv] at this
      omega
  obtain ⟨A, hA⟩ : ∃ A, A = (((w : Int) ^ q ^ (k + 1)).bmod (2 ^ 64)).tdiv (q ^ (k + 1) : Nat) := ⟨_, rfl⟩
  obtain ⟨B, hB⟩ : ∃ B, B = ((-(w : Int) ^ q ^ k).bmod (2 ^ 64)).tdiv (q ^ (k + 1) : Nat) := ⟨_, rfl⟩
  have hAb := hbound ((w : Int) ^ q ^ (k + 1))
  have hBb := hbound (-(w : Int) ^ q ^ k)
  rw [← hA] at hAb ⊢
  rw [← hB] at hBb ⊢
  let t : Nat → Int := fun c => (if c = 1 then A else 0) + (if c = q then B else 0)
  have hterm : ∀ c, 1 ≤ c → c ∣ q ^ (k + 1) → levelTerm .release w (q ^ (k + 1)) c = .ok (t c) := by
    intro c hc hd
    obtain ⟨j, hj, rfl⟩ := hcases c hd
    rcases (by omega : j = 0 ∨ j = 1 ∨ 2 ≤ j) with rfl | rfl | h2
    · rw [pow_zero]
      rw [levelTerm_release_eq w _ 1 1 (mobius_one _) hn (by omega) (by omega), Nat.div_one, one_mul, ← hA]
      simp only [t]
      rw [if_pos trivial, if_neg (by omega), add_zero]
    · rw [pow_one]
      rw [levelTerm_release_eq w _ q (-1) (mobius_prime _ q hq (by omega)) hn (by omega) (by omega), hdiv, neg_one_mul, ← hB]
      simp only [t]
      rw [if_neg (by omega), if_pos trivial, zero_add]
    · have hle : q ^ j ≤ q ^ (k + 1) := Nat.pow_le_pow_right hq.pos hj
      have h2j : 2 ≤ q ^ j := by have := hdiv1 j h2; omega
      rw [levelTerm_release_eq w _ (q ^ j) 0 (mobius_not_squarefree _ _ h2j (by omega) (not_squarefree_pow q j hq h2)) hn (by omega) (by omega), zero_mul]
      simp only [t]
      rw [if_neg (hdiv1 j h2).1, if_neg (hdiv1 j h2).2, add_zero, Int.zero_bmod, Int.zero_tdiv]
  have hsum : ∀ s : Finset Nat, ∑ e ∈ s, t e = (if 1 ∈ s then A else 0) + (if q ∈ s then B else 0) := by
    intro s
    simp only [t]
    rw [Finset.sum_add_distrib, Finset.sum_ite_eq', Finset.sum_ite_eq']
  have h := levelSizeImpl_ok .release w (q ^ (k + 1)) 1 t hn (le_refl _) (by omega) hterm (fun c => by
    rw [hsum]
    split_ifs <;> constructor <;> omega)
  rw [hsum, if_pos (by simp; omega), if_pos (by simp only [Finset.mem_filter, Finset.mem_Icc]; exact ⟨hmem1, hdq⟩)] at h
  unfold levelSize
  rw [h, Res.bind_ok]
  rfl

/-- Width 3 at level 81: `3 ^ 81` does not fit. -/
example := C43_level_release_exact 3 3 3 Nat.prime_three (by norm_num)

/-- C43.  Such a number can be wrong: at width `2 ^ 32` there are `2 ^ 63 - 2 ^ 31` elements of degree 2, release builds return `2 ^ 64 - 2 ^ 31`. -/
theorem C43_level_release_overflow : levelSize .release (2 ^ 32) 2 = .ok (2 ^ 64 - 2 ^ 31) ∧ IsWitt (2 ^ 32) 2 (2 ^ 63 - 2 ^ 31) ∧
    ¬ IsWitt (2 ^ 32) 2 (2 ^ 64 - 2 ^ 31) := by
  have h := C43_level_release_exact (2 ^ 32) 2 0 Nat.prime_two (by norm_num)
  have hw := wittSum_prime_pow (2 ^ 32) 2 0 Nat.prime_two
  rw [zero_add, pow_one, pow_zero, pow_one] at h hw
  unfold IsWitt
  rw [hw]
  refine ⟨?_, by norm_num, by norm_num⟩
  rw [h]
  decide +kernel

end RA
