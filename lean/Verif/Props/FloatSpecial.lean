import Verif.Proofs.FloatError

/-!
# Not-a-number, infinities, signs and overflow of the floating-point coefficients (C50)
-/

namespace RA
open Spec Fl

/-- The least magnitude that overflows: the largest number plus half a unit in its last place. -/
def overflowAt (F : FloatFmt) : Rat := maxNum F + 2 ^ (F.eMax - 1)

theorem max_add_ulp (F : FloatFmt) : maxNum F + 2 ^ F.eMax = 2 ^ (F.eMax + F.prec) := by
  unfold maxNum
  rw [zpow_add₀ (by norm_num), zpow_natCast]
  ring

theorem half_ulp_max (F : FloatFmt) : (2 : Rat) ^ (F.eMax - 1) + 2 ^ (F.eMax - 1) = 2 ^ F.eMax := by
  rw [zpow_sub₀ (by norm_num), zpow_one]
  ring

theorem two_pow_prec_sub (F : FloatFmt) (hF : Fl.Ok F) : (2 : Int) ^ F.prec = 2 * 2 ^ (F.prec - 1) := by
  rw [← pow_succ', Nat.sub_add_cancel (by have := hF.prec; omega)]

theorem log_overflowAt (F : FloatFmt) (hF : Fl.Ok F) : Int.log 2 (overflowAt F) = F.eMax + F.prec - 1 := by
  have hp := hF.prec
  have hpos : 0 < overflowAt F := by
    have h1 := two_zpow_pos (F.eMax - 1)
    have h2 : 0 ≤ maxNum F := (abs_nonneg _).trans (numOf_le_max F 0 (numOf_zero F hF))
    unfold overflowAt
    linarith
  obtain ⟨h1, h2⟩ := log_bounds hpos
  have e1 := max_add_ulp F
  have e2 := half_ulp_max F
  have e3 := two_zpow_pos (F.eMax - 1)
  have h3 : overflowAt F < 2 ^ (F.eMax + F.prec) := by unfold overflowAt; linarith
  have h4 : (2 : Rat) ^ (F.eMax + F.prec - 1) < overflowAt F := by
    have : (2 : Rat) ^ F.eMax ≤ 2 ^ (F.eMax + F.prec - 1) := zpow_le_zpow_right₀ (by norm_num) (by omega)
    have h5 : (2 : Rat) ^ (F.eMax + F.prec - 1) + 2 ^ (F.eMax + F.prec - 1) = 2 ^ (F.eMax + F.prec) := by
      rw [zpow_sub₀ (by norm_num), zpow_one]
      ring
    unfold overflowAt
    linarith
  have h6 := (zpow_lt_zpow_iff_right₀ (a := (2 : Rat)) (by norm_num)).1 (h1.trans_lt h3)
  have h7 := (zpow_lt_zpow_iff_right₀ (a := (2 : Rat)) (by norm_num)).1 (h4.trans h2)
  omega

theorem roundMag_overflow (F : FloatFmt) (hF : Fl.Ok F) (a : Rat) (ha : 0 < a) : 2 ^ (F.eMax + F.prec) ≤ roundMag F a ↔ overflowAt F ≤ a := by
  have e1 := max_add_ulp F
  have e2 := half_ulp_max F
  have e3 := two_zpow_pos (F.eMax - 1)
  have hp := hF.prec
  set B : Rat := 2 ^ (F.eMax + F.prec) with hB
  set M := maxNum F with hM
  have hBn : |roundMag F a - a| ≤ |B - a| := by
    have := roundMag_nearest hF a ha (2 ^ (F.prec - 1)) (F.eMax + 1) (by
      rw [abs_of_pos (by positivity), two_pow_prec_sub F hF]
      have : (0 : Int) < 2 ^ (F.prec - 1) := by positivity
      omega) (by have := hF.range; omega)
    have h2 : (((2 : Int) ^ (F.prec - 1) : Int) : Rat) * 2 ^ (F.eMax + 1) = B := by
      push_cast
      rw [← zpow_natCast, ← zpow_add₀ (by norm_num), hB]
      congr 1
      omega
    rwa [h2] at this
  have hMn := roundMag_nearest_num F hF a _ ha (numOf_max F hF)
  rw [← hM] at hMn
  have hsmall : roundMag F a < B → roundMag F a ≤ M := fun h => by
    obtain ⟨m, e, f0, f1, f2, f3, f4⟩ := roundMag_repr hF a ha h
    have := numOf_le_max F (roundMag F a) ⟨m, e, by rwa [abs_of_nonneg f0], f2, f3, f4⟩
    exact (le_abs_self _).trans this
  unfold overflowAt
  rw [← hM]
  constructor
  · intro h
    by_contra hc
    have hc := not_le.1 hc
    rcases le_or_gt a M with h5 | h5
    · have := no_overflow F hF a ha h5
      rw [← hB] at this
      linarith
    · rw [abs_of_neg (show M - a < 0 by linarith)] at hMn
      have := le_abs_self (roundMag F a - a)
      linarith
  · intro h
    by_contra hc
    have hc := not_le.1 hc
    have h5 := hsmall hc
    have h6 := neg_abs_le (roundMag F a - a)
    rcases lt_or_eq_of_le h with h | h
    · rcases le_or_gt a B with h7 | h7
      · rw [abs_of_nonneg (show (0 : Rat) ≤ B - a by linarith)] at hBn
        linarith
      · rw [abs_of_neg (show B - a < 0 by linarith)] at hBn
        linarith
    · rw [← h, abs_of_nonneg (show (0 : Rat) ≤ B - (M + 2 ^ (F.eMax - 1)) by linarith)] at hBn
      rw [h] at hBn
      have h8 : roundMag F a = M := by linarith
      have hu : ulpExp F a = F.eMax := by
        have := log_overflowAt F hF
        unfold overflowAt at this
        rw [← hM, h] at this
        unfold ulpExp
        rw [this]
        have := hF.range
        omega
      have h9 : a / 2 ^ F.eMax = ((2 ^ F.prec - 1 : Int) : Rat) + 1 / 2 := by
        rw [div_eq_iff (two_zpow_pos _).ne', ← h, hM]
        unfold maxNum
        push_cast
        rw [add_mul, ← e2]
        ring
      have h10 : roundEven (a / 2 ^ F.eMax) = 2 ^ F.prec - 1 := by
        unfold roundMag at h8
        rw [hu, hM] at h8
        have := mul_right_cancel₀ (two_zpow_pos F.eMax).ne' h8
        exact_mod_cast this
      have h11 := roundEven_tie (a / 2 ^ F.eMax) (by rw [h10, h9]; push_cast; norm_num)
      rw [h10, two_pow_prec_sub F hF] at h11
      omega

/-- Rounding overflows exactly from the threshold on. -/
theorem round_inf_iff (F : FloatFmt) (hF : Fl.Ok F) (s : Bool) (q : Rat) (t : Bool) :
    Fl.round F s q = .inf t ↔ overflowAt F ≤ |q| ∧ t = decide (q < 0) := by
  by_cases h0 : q = 0
  · subst h0
    have h1 := two_zpow_pos (F.eMax - 1)
    have h2 : 0 ≤ maxNum F := (abs_nonneg _).trans (numOf_le_max F 0 (numOf_zero F hF))
    have h3 : ¬ overflowAt F ≤ 0 := by unfold overflowAt; linarith
    simp [Fl.round, h3]
  · have := roundMag_overflow F hF _ (abs_pos.2 h0)
    unfold Fl.round
    rw [if_neg h0]
    simp only
    split_ifs with h1 h2
    · rw [this] at h1
      simp [h1, eq_comm]
    · rw [this] at h1
      simp [h1]
    · rw [this] at h1
      simp [h1]

theorem round_not_nan (F : FloatFmt) (s : Bool) (q : Rat) : Fl.round F s q ≠ .nan := by
  unfold Fl.round
  simp only
  split_ifs <;> simp

theorem round_sign (F : FloatFmt) (s : Bool) (q : Rat) (h : q ≠ 0) : (Fl.round F s q).sign = decide (q < 0) := by
  unfold Fl.round
  rw [if_neg h]
  simp only
  have hm := roundMag_nonneg (F := F) |q| (abs_pos.2 h)
  split_ifs with h1 h2 h3
  · rfl
  · rfl
  · have : 0 < roundMag F |q| := lt_of_le_of_ne hm (Ne.symm h2)
    simp [Fl.sign, h3, this]
  · simp [Fl.sign, h3, hm]

/-- C50.  When the operations give not-a-number: addition of opposite infinities, `0 * ∞`, `0 / 0`, `∞ / ∞`, and an operand that is not a number; never
otherwise. -/
theorem C50_nan (F : FloatFmt) (x y : Fl) :
    ((floatCoeff F).add x y = .nan ↔ x = .nan ∨ y = .nan ∨ ∃ s, x = .inf s ∧ y = .inf (!s)) ∧
    ((floatCoeff F).sub x y = .nan ↔ x = .nan ∨ y = .nan ∨ ∃ s, x = .inf s ∧ y = .inf s) ∧
    ((floatCoeff F).mul x y = .nan ↔ x = .nan ∨ y = .nan ∨ ∃ s t, (x = .inf s ∧ y = .zero t) ∨ (x = .zero s ∧ y = .inf t)) ∧
    ((floatCoeff F).div x y = .nan ↔ x = .nan ∨ y = .nan ∨ ∃ s t, (x = .inf s ∧ y = .inf t) ∨ (x = .zero s ∧ y = .zero t)) ∧
    ((floatCoeff F).inv x = .nan ↔ x = .nan) ∧ ((floatCoeff F).uminus x = .nan ↔ x = .nan) := by
  have hadd : ∀ x y : Fl, Fl.add F x y = .nan ↔ x = .nan ∨ y = .nan ∨ ∃ s, x = .inf s ∧ y = .inf (!s) := by
    intro x y
    cases x <;> cases y <;> simp [Fl.add, round_not_nan]
    next s t => cases s <;> cases t <;> simp
  have hdiv : ∀ x y : Fl, Fl.div F x y = .nan ↔ x = .nan ∨ y = .nan ∨ ∃ s t, (x = .inf s ∧ y = .inf t) ∨ (x = .zero s ∧ y = .zero t) := by
    intro x y
    cases x <;> cases y <;> simp [Fl.div, round_not_nan]
  have hneg : ∀ x : Fl, Fl.neg x = .nan ↔ x = .nan := by
    intro x
    cases x <;> simp [Fl.neg]
  refine ⟨hadd x y, ?_, ?_, hdiv x y, ?_, hneg x⟩
  · show Fl.add F x (Fl.neg y) = .nan ↔ _
    rw [hadd, hneg]
    cases y <;> simp [Fl.neg]
  · show Fl.mul F x y = .nan ↔ _
    cases x <;> cases y <;> simp [Fl.mul, round_not_nan]
  · show Fl.div F Fl.one x = .nan ↔ _
    rw [hdiv]
    cases x <;> simp [Fl.one]

example : (floatCoeff .f32).add (.inf true) (.inf false) = .nan ∧ (floatCoeff .f32).add (.inf true) (.inf true) ≠ .nan ∧
    (floatCoeff .f64).inv (.zero true) ≠ .nan :=
  ⟨(C50_nan .f32 _ _).1.2 (.inr (.inr ⟨true, rfl, rfl⟩)), fun h => by simpa using (C50_nan .f32 _ _).1.1 h,
    fun h => by simpa using (C50_nan .f64 _ .nan).2.2.2.2.1.1 h⟩

/-- C50.  Infinite operands and divisions by zero: the result is the infinity or the zero whose sign is the product of the signs; a sum with one infinite
operand is that operand. -/
theorem C50_infinite (F : FloatFmt) (s : Bool) (y : Fl) :
    (y.isFin = true → (floatCoeff F).add (.inf s) y = .inf s ∧ (floatCoeff F).sub (.inf s) y = .inf s ∧ (floatCoeff F).sub y (.inf s) = .inf (!s) ∧
      (floatCoeff F).div (.inf s) y = .inf (xor s y.sign) ∧ (floatCoeff F).div y (.inf s) = .zero (xor y.sign s)) ∧
    ((∀ t, y ≠ .zero t) → y ≠ .nan → (floatCoeff F).mul (.inf s) y = .inf (xor s y.sign) ∧ (floatCoeff F).div y (.zero s) = .inf (xor y.sign s)) ∧
    (floatCoeff F).add (.inf s) (.inf s) = .inf s ∧ (floatCoeff F).sub (.inf s) (.inf (!s)) = .inf s ∧
    (floatCoeff F).inv (.zero s) = .inf s ∧ (floatCoeff F).inv (.inf s) = .zero s := by
  refine ⟨fun h => ?_, fun h0 hn => ?_, ?_, ?_, ?_, ?_⟩
  · cases y <;> first | (cases h; done) | simp [floatCoeff, Fl.add, Fl.sub, Fl.neg, Fl.div]
  · cases y with
    | nan => exact absurd rfl hn
    | zero t => exact absurd rfl (h0 t)
    | inf t => simp [floatCoeff, Fl.mul, Fl.div, Fl.sign]
    | fin q => simp [floatCoeff, Fl.mul, Fl.div, Fl.sign]
  · simp [floatCoeff, Fl.add]
  · simp [floatCoeff, Fl.add, Fl.sub, Fl.neg]
  · simp [floatCoeff, Fl.div, Fl.one, Fl.sign, show ¬ ((1 : Rat) < 0) by norm_num]
  · simp [floatCoeff, Fl.div, Fl.one, Fl.sign, show ¬ ((1 : Rat) < 0) by norm_num]

example : (floatCoeff .f32).div (.fin (-3)) (.zero false) = .inf true ∧ (floatCoeff .f32).div (.fin (-3)) (.inf true) = .zero false :=
  ⟨((C50_infinite .f32 false (.fin (-3))).2.1 (by simp) (by simp)).2, ((C50_infinite .f32 true (.fin (-3))).1 rfl).2.2.2.2⟩

/-- C50.  The sign of a product or quotient that is a number is the product of the signs, also when it underflows to zero or overflows. -/
theorem C50_signs (F : FloatFmt) (x y : Fl) (hx : x.Valid F) (hy : y.Valid F) :
    ((floatCoeff F).mul x y ≠ .nan → ((floatCoeff F).mul x y).sign = xor x.sign y.sign) ∧
    ((floatCoeff F).div x y ≠ .nan → ((floatCoeff F).div x y).sign = xor x.sign y.sign) ∧
    (x ≠ .nan → ((floatCoeff F).inv x).sign = x.sign ∧ ((floatCoeff F).uminus x).sign = !x.sign) := by
  have hsgn : ∀ a b : Rat, a ≠ 0 → b ≠ 0 → (decide (a * b < 0) = xor (decide (a < 0)) (decide (b < 0)) ∧
      decide (a / b < 0) = xor (decide (a < 0)) (decide (b < 0))) := by
    intro a b ha hb
    rcases lt_or_gt_of_ne ha with ha | ha <;> rcases lt_or_gt_of_ne hb with hb | hb <;>
      simp [mul_neg_iff, div_neg_iff, ha, hb, not_lt_of_gt ha, not_lt_of_gt hb]
  have hdiv : ∀ x y : Fl, x.Valid F → y.Valid F → Fl.div F x y ≠ .nan → (Fl.div F x y).sign = xor x.sign y.sign := by
    intro x y hx hy
    cases x <;> cases y <;> simp only [Fl.div] <;> intro hn <;> first | exact absurd rfl hn | rfl | (simp [Fl.round, Fl.val, Fl.sign]; done) | skip
    next q r =>
      show (Fl.round F _ (q / r)).sign = _
      rw [round_sign F _ _ (div_ne_zero hx.1 hy.1)]
      exact (hsgn q r hx.1 hy.1).2
  refine ⟨?_, hdiv x y hx hy, fun h => ?_⟩
  · show Fl.mul F x y ≠ .nan → (Fl.mul F x y).sign = _
    cases x <;> cases y <;> simp only [Fl.mul] <;> intro hn <;> first | exact absurd rfl hn | rfl | (simp [Fl.round, Fl.val, Fl.sign]; done) | skip
    next q r =>
      show (Fl.round F _ (q * r)).sign = _
      rw [round_sign F _ _ (mul_ne_zero hx.1 hy.1)]
      exact (hsgn q r hx.1 hy.1).1
  · constructor
    · cases x with
      | nan => exact absurd rfl h
      | inf s => simp [floatCoeff, Fl.div, Fl.one, Fl.sign, show ¬ ((1 : Rat) < 0) by norm_num]
      | zero s => simp [floatCoeff, Fl.div, Fl.one, Fl.sign, show ¬ ((1 : Rat) < 0) by norm_num]
      | fin q =>
        show (Fl.round F _ (1 / q)).sign = _
        rw [round_sign F _ _ (div_ne_zero one_ne_zero hx.1), (hsgn 1 q one_ne_zero hx.1).2]
        simp [Fl.sign, show ¬ ((1 : Rat) < 0) by norm_num]
    · cases x with
      | nan => exact absurd rfl h
      | fin q =>
        show decide (-q < 0) = !decide (q < 0)
        rcases lt_or_gt_of_ne hx.1 with hq | hq <;> simp [hq, not_lt_of_gt hq]
      | _ => rfl

/-- C50.  Overflow: on finite operands the result is infinite exactly when the exact result is at least half a unit in the last place above the largest
number, and then has the sign of the exact result. -/
theorem C50_overflow (F : FloatFmt) (hF : F = .f32 ∨ F = .f64) (x y : Fl) (hx : x.isFin = true) (hy : y.isFin = true) (t : Bool) :
    ((floatCoeff F).add x y = .inf t ↔ maxNum F + 2 ^ (F.eMax - 1) ≤ |x.val + y.val| ∧ t = decide (x.val + y.val < 0)) ∧
    ((floatCoeff F).sub x y = .inf t ↔ maxNum F + 2 ^ (F.eMax - 1) ≤ |x.val - y.val| ∧ t = decide (x.val - y.val < 0)) ∧
    ((floatCoeff F).mul x y = .inf t ↔ maxNum F + 2 ^ (F.eMax - 1) ≤ |x.val * y.val| ∧ t = decide (x.val * y.val < 0)) ∧
    ((∀ s, y ≠ .zero s) →
      ((floatCoeff F).div x y = .inf t ↔ maxNum F + 2 ^ (F.eMax - 1) ≤ |x.val / y.val| ∧ t = decide (x.val / y.val < 0))) := by
  have hok : Fl.Ok F := by rcases hF with rfl | rfl; exacts [f32_ok, f64_ok]
  have hny : y.neg.isFin = true := by cases y <;> first | rfl | cases hy
  refine ⟨?_, ?_, ?_, fun h0 => ?_⟩
  · obtain ⟨s, hs⟩ := add_fin F x y hx hy
    show Fl.add F x y = _ ↔ _
    rw [hs]
    exact round_inf_iff F hok _ _ _
  · obtain ⟨s, hs⟩ := add_fin F x y.neg hx hny
    show Fl.add F x y.neg = _ ↔ _
    rw [hs, val_neg, ← sub_eq_add_neg]
    exact round_inf_iff F hok _ _ _
  · obtain ⟨s, hs⟩ := mul_fin F x y hx hy
    show Fl.mul F x y = _ ↔ _
    rw [hs]
    exact round_inf_iff F hok _ _ _
  · obtain ⟨s, hs⟩ := div_fin F x y hx hy h0
    show Fl.div F x y = _ ↔ _
    rw [hs]
    exact round_inf_iff F hok _ _ _

example : (floatCoeff .f32).mul (.fin (2 ^ 100)) (.fin (-(2 ^ 28))) = .inf true :=
  (C50_overflow .f32 (.inl rfl) (.fin (2 ^ 100)) (.fin (-(2 ^ 28))) rfl rfl true).2.2.1.2
    ⟨by norm_num [maxNum, FloatFmt.f32, Fl.val], by norm_num [Fl.val]⟩

/-- The sign rule at work: a product that underflows keeps its sign. -/
example : ((floatCoeff .f32).mul (.fin (2 ^ (-149 : Int))) (.fin (-(2 ^ (-149 : Int))))).sign = true := by
  have h1 : NumOf .f32 (2 ^ (-149 : Int)) := ⟨1, -149, by decide, by decide, by decide, by norm_num⟩
  have h2 : ((2 : Rat) ^ (-149 : Int)) ≠ 0 := (two_zpow_pos _).ne'
  have v1 : (Fl.fin (2 ^ (-149 : Int))).Valid .f32 := ⟨h2, h1⟩
  have v2 : (Fl.fin (-(2 ^ (-149 : Int)))).Valid .f32 := ⟨neg_ne_zero.2 h2, numOf_neg _ _ h1⟩
  rw [(C50_signs .f32 _ _ v1 v2).1 (fun h => by simpa using (C50_nan .f32 _ _).2.2.1.1 h)]
  norm_num [Fl.sign]

/-- C50, equality of all values: two values are equal exactly when neither is not a number and they are the same, or both are zeros. -/
theorem C50_eq_iff (F : FloatFmt) (x y : Fl) :
    (floatCoeff F).eq x y = true ↔ x ≠ .nan ∧ y ≠ .nan ∧ (x = y ∨ ∃ s t, x = .zero s ∧ y = .zero t) := by
  show Fl.eq x y = true ↔ _
  cases x <;> cases y <;> simp [Fl.eq]

example : (floatCoeff .f64).eq (.zero true) (.zero false) = true := (C50_eq_iff .f64 _ _).2 ⟨by simp, by simp, .inr ⟨_, _, rfl, rfl⟩⟩

example : (floatCoeff .f64).eq (.inf true) (.inf false) = false := by
  rw [Bool.eq_false_iff, Ne, C50_eq_iff]
  simp

end RA
