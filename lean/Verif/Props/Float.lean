import Verif.Proofs.Float
import Verif.SpecFloat
import Verif.Lawful
import Verif.Props.Dense

/-!
# Floating-point coefficients (C49, C50)
-/

namespace RA
open Spec Fl

/-- A format of the model and its numbers in the specification. -/
abbrev NumOf (F : FloatFmt) : Rat → Prop := Binary F.prec F.eMin F.eMax
abbrev RoundsIn (F : FloatFmt) : Rat → Rat → Prop := Rounds F.prec F.eMin F.eMax

/-- A value that the type can hold. -/
def Fl.Valid (F : FloatFmt) : Fl → Prop
  | .fin q => q ≠ 0 ∧ NumOf F q
  | _ => True

theorem numOf_neg (F : FloatFmt) (q : Rat) (h : NumOf F q) : NumOf F (-q) := by
  obtain ⟨m, e, h1, h2, h3, rfl⟩ := h
  exact ⟨-m, e, by rwa [abs_neg], h2, h3, by push_cast; ring⟩

theorem numOf_abs (F : FloatFmt) (q : Rat) (h : NumOf F q) : NumOf F |q| := by
  rcases abs_choice q with h' | h' <;> rw [h']
  · exact h
  · exact numOf_neg F q h

theorem numOf_zero (F : FloatFmt) (hF : Fl.Ok F) : NumOf F 0 := ⟨0, F.eMin, by simp, le_refl _, hF.range, by simp⟩

/-- Numbers of the format are below the overflow threshold. -/
theorem numOf_lt (F : FloatFmt) (q : Rat) (h : NumOf F q) : q < 2 ^ (F.eMax + F.prec) := by
  obtain ⟨m, e, h1, h2, h3, rfl⟩ := h
  have hm : (m : Rat) < 2 ^ (F.prec : Int) := by
    rw [zpow_natCast]
    exact_mod_cast lt_of_le_of_lt (le_abs_self m) h1
  calc (m : Rat) * 2 ^ e < 2 ^ (F.prec : Int) * 2 ^ e := mul_lt_mul_of_pos_right hm (two_zpow_pos e)
    _ = 2 ^ (F.prec + e) := by rw [zpow_add₀ (by norm_num)]
    _ ≤ _ := zpow_le_zpow_right₀ (by norm_num) (by omega)

/-- The greatest number of the format. -/
def maxNum (F : FloatFmt) : Rat := (2 ^ F.prec - 1) * 2 ^ F.eMax

theorem numOf_max (F : FloatFmt) (hF : Fl.Ok F) : NumOf F (maxNum F) := by
  refine ⟨2 ^ F.prec - 1, F.eMax, ?_, hF.range, le_refl _, by unfold maxNum; push_cast; ring⟩
  have : (1 : Int) ≤ 2 ^ F.prec := one_le_pow₀ (by norm_num)
  rw [abs_of_nonneg (by omega)]
  omega

theorem roundMag_nearest_num (F : FloatFmt) (hF : Fl.Ok F) (a v : Rat) (ha : 0 < a) (hv : NumOf F v) : |roundMag F a - a| ≤ |v - a| := by
  obtain ⟨m, e, h1, h2, _, rfl⟩ := hv
  exact roundMag_nearest hF a ha m e h1 h2

/-- Magnitudes up to the greatest number do not overflow. -/
theorem no_overflow (F : FloatFmt) (hF : Fl.Ok F) (a : Rat) (ha : 0 < a) (hle : a ≤ maxNum F) : roundMag F a < 2 ^ (F.eMax + F.prec) := by
  have h1 := roundMag_nearest_num F hF a _ ha (numOf_max F hF)
  have h2 := numOf_lt F _ (numOf_max F hF)
  rw [abs_of_nonneg (show (0 : Rat) ≤ maxNum F - a by linarith)] at h1
  have := (abs_le.1 h1).2
  linarith

theorem roundMag_rounds (F : FloatFmt) (hF : Fl.Ok F) (a : Rat) (ha : 0 < a) (hlt : roundMag F a < 2 ^ (F.eMax + F.prec)) : RoundsIn F a (roundMag F a) := by
  obtain ⟨m, e, h0, h1, h2, h3, h4⟩ := roundMag_repr hF a ha hlt
  refine ⟨⟨m, e, by rwa [abs_of_nonneg h0], h2, h3, h4⟩, fun v hv => roundMag_nearest_num F hF a v ha hv, ?_⟩
  intro v hv hne htie
  obtain ⟨k, f, hk, hf, _, rfl⟩ := hv
  refine ⟨roundEven (a / 2 ^ ulpExp F a), ulpExp F a, rfl, ?_, roundEven_le_pow a ha, le_max_right _ _, ?_⟩
  · rw [Int.even_iff]
    apply roundEven_tie
    have hmul : ∃ j : Int, (k : Rat) * 2 ^ f = j * 2 ^ ulpExp F a := by
      rcases le_or_gt (ulpExp F a) f with h | h
      · refine ⟨k * 2 ^ (f - ulpExp F a).toNat, ?_⟩
        push_cast
        rw [mul_assoc, ← zpow_natCast, Int.toNat_of_nonneg (by omega), ← zpow_add₀ (by norm_num)]
        congr 2
        omega
      · exfalso
        obtain ⟨hpow, hlog⟩ := low_binade hF a ha h hf
        have h5 := roundMag_nearest_multiple (F := F) a (2 ^ (F.prec - 1))
        rw [hpow] at h5
        have h6 : (k : Rat) * 2 ^ f < 2 ^ Int.log 2 a := by
          have hkq : (k : Rat) < 2 ^ (F.prec : Int) := by
            rw [zpow_natCast]
            exact_mod_cast lt_of_le_of_lt (le_abs_self k) hk
          calc (k : Rat) * 2 ^ f < 2 ^ (F.prec : Int) * 2 ^ f := mul_lt_mul_of_pos_right hkq (two_zpow_pos _)
            _ = 2 ^ (F.prec + f) := by rw [zpow_add₀ (by norm_num)]
            _ ≤ _ := zpow_le_zpow_right₀ (by norm_num) (by omega)
        have h7 := (log_bounds ha).1
        rw [abs_of_nonpos (by linarith : (2 : Rat) ^ Int.log 2 a - a ≤ 0)] at h5
        rw [← htie, abs_of_nonpos (by linarith)] at h5
        linarith
    obtain ⟨j, hj⟩ := hmul
    rw [hj] at htie hne
    unfold roundMag at htie hne
    rw [dist_scale, dist_scale] at htie
    have htie' := mul_right_cancel₀ (two_zpow_pos (ulpExp F a)).ne' htie
    have hjm : j ≠ roundEven (a / 2 ^ ulpExp F a) := fun h => hne (by rw [h])
    have h8 : (1 : Rat) ≤ |(j : Rat) - roundEven (a / 2 ^ ulpExp F a)| := by
      exact_mod_cast Int.one_le_abs (sub_ne_zero.2 hjm)
    have h9 := abs_sub_le (j : Rat) (a / 2 ^ ulpExp F a) (roundEven (a / 2 ^ ulpExp F a))
    rw [abs_sub_comm (a / 2 ^ ulpExp F a)] at h9
    have h10 := roundEven_dist (a / 2 ^ ulpExp F a)
    linarith
  · by_cases he : ulpExp F a = F.eMin
    · exact .inr he
    · left
      have := roundEven_ge_pow hF a ha (by have : F.eMin ≤ ulpExp F a := le_max_right _ _; omega)
      exact this.trans (le_abs_self _)

theorem rounds_neg (F : FloatFmt) (q r : Rat) (h : RoundsIn F q r) : RoundsIn F (-q) (-r) := by
  obtain ⟨h1, h2, h3⟩ := h
  have key : ∀ v, |v - -q| = |-v - q| := fun v => by rw [← abs_neg]; congr 1; ring
  refine ⟨numOf_neg F r h1, fun v hv => ?_, fun v hv hne htie => ?_⟩
  · rw [key, key, neg_neg]
    exact h2 _ (numOf_neg F v hv)
  · rw [key, key, neg_neg] at htie
    obtain ⟨m, e, e1, e2, e3, e4, e5⟩ := h3 (-v) (numOf_neg F v hv) (fun hc => hne (by rw [← hc, neg_neg])) htie
    exact ⟨-m, e, by rw [e1]; push_cast; ring, e2.neg, by rwa [abs_neg], e4, by rwa [abs_neg]⟩

theorem rounds_self (F : FloatFmt) (q r : Rat) (hq : NumOf F q) (h : RoundsIn F q r) : r = q := by
  have := h.2.1 q hq
  rw [sub_self, abs_zero] at this
  exact sub_eq_zero.1 (abs_nonpos_iff.1 this)

/-- The rounding of the model is correct rounding, for every exact value within the range of the format. -/
theorem round_correct (F : FloatFmt) (hF : Fl.Ok F) (s : Bool) (q : Rat) (hq : |q| ≤ maxNum F) :
    (round F s q).isFin = true ∧ (round F s q).Valid F ∧ RoundsIn F q (round F s q).val := by
  unfold Fl.round
  by_cases h0 : q = 0
  · rw [if_pos h0]
    subst h0
    refine ⟨rfl, trivial, numOf_zero F hF, fun v _ => ?_, fun v _ hne htie => ?_⟩
    · simp [Fl.val]
    · simp only [Fl.val, sub_zero, abs_zero, abs_eq_zero] at htie
      exact absurd htie hne
  · rw [if_neg h0]
    have ha : 0 < |q| := abs_pos.2 h0
    have hlt := no_overflow F hF |q| ha hq
    have hr := roundMag_rounds F hF |q| ha hlt
    simp only
    rw [if_neg (not_le.2 hlt)]
    by_cases hz : roundMag F |q| = 0
    · rw [if_pos hz]
      refine ⟨rfl, trivial, ?_⟩
      rw [hz] at hr
      by_cases hneg : q < 0
      · have := rounds_neg F _ _ hr
        rw [abs_of_neg hneg, neg_neg, neg_zero] at this
        exact this
      · rw [abs_of_nonneg (not_lt.1 hneg)] at hr
        exact hr
    · rw [if_neg hz]
      by_cases hneg : q < 0
      · rw [if_pos hneg]
        have h := rounds_neg F _ _ hr
        rw [abs_of_neg hneg, neg_neg] at h
        rw [abs_of_neg hneg] at hz ⊢
        exact ⟨rfl, ⟨neg_ne_zero.2 hz, h.1⟩, h⟩
      · rw [if_neg hneg]
        rw [abs_of_nonneg (not_lt.1 hneg)] at hr hz ⊢
        exact ⟨rfl, ⟨hz, hr.1⟩, hr⟩

theorem numOf_le_max (F : FloatFmt) (q : Rat) (h : NumOf F q) : |q| ≤ maxNum F := by
  obtain ⟨m, e, h1, h2, h3, rfl⟩ := h
  rw [abs_mul, abs_of_pos (two_zpow_pos e)]
  unfold maxNum
  have hm : |(m : Rat)| ≤ 2 ^ F.prec - 1 := by
    have : |m| ≤ 2 ^ F.prec - 1 := by omega
    exact_mod_cast this
  have hp : (0 : Rat) ≤ 2 ^ F.prec - 1 := le_trans (abs_nonneg _) hm
  exact mul_le_mul hm (zpow_le_zpow_right₀ (by norm_num) h3) (le_of_lt (two_zpow_pos e)) hp

/-- Numbers of the format are not changed by rounding. -/
theorem round_num (F : FloatFmt) (hF : Fl.Ok F) (s : Bool) (q : Rat) (h0 : q ≠ 0) (hq : NumOf F q) : round F s q = .fin q := by
  obtain ⟨h1, h2, h3⟩ := round_correct F hF s q (numOf_le_max F q hq)
  have h4 := rounds_self F q _ hq h3
  cases h : round F s q with
  | fin r => rw [h] at h4; rw [← h4]; rfl
  | nan => rw [h] at h1; cases h1
  | inf t => rw [h] at h1; cases h1
  | zero t => rw [h] at h4; exact absurd h4.symm h0

/-! ## C49 -/

theorem numOf_nat (F : FloatFmt) (h0 : F.eMin ≤ 0) (h1 : 0 ≤ F.eMax) (n : Nat) (hn : n < 2 ^ F.prec) : NumOf F n :=
  ⟨n, 0, by rw [abs_of_nonneg (by positivity)]; exact_mod_cast hn, h0, h1, by simp⟩

theorem ofDegree_exact (F : FloatFmt) (hF : Fl.Ok F) (n : Nat) (hn : NumOf F n) :
    (ofDegree F n).val = n ∧ (ofDegree F n).isFin = true ∧ (ofDegree F n).sign = false := by
  unfold ofDegree
  by_cases h : n = 0
  · subst h
    unfold Fl.round
    rw [if_pos (by simp)]
    exact ⟨by simp [Fl.val], rfl, rfl⟩
  · rw [round_num F hF false n (by exact_mod_cast h) hn]
    exact ⟨rfl, rfl, by simp [Fl.sign]⟩

/-- C49.  `f64::from_degree` is exact for every degree, whatever the `u32`. -/
theorem C49_from_degree_f64 (n : Nat) (hn : n < 2 ^ 32) :
    ((floatCoeff .f64).fromDegree n).val = n ∧ ((floatCoeff .f64).fromDegree n).isFin = true ∧ ((floatCoeff .f64).fromDegree n).sign = false ∧
      (floatCoeff .f64).ratFromDegree n = (floatCoeff .f64).fromDegree n := by
  obtain ⟨h1, h2, h3⟩ := ofDegree_exact .f64 f64_ok n (numOf_nat _ (by decide) (by decide) n (lt_trans hn (by decide)))
  exact ⟨h1, h2, h3, rfl⟩

example : ((floatCoeff .f64).fromDegree 4294967295).val = ((4294967295 : Nat) : Rat) := (C49_from_degree_f64 4294967295 (by norm_num)).1

/-- C49.  `f32::from_degree` is exact up to `2^24`. -/
theorem C49_from_degree_f32 (n : Nat) (hn : n ≤ 2 ^ 24) :
    ((floatCoeff .f32).fromDegree n).val = n ∧ ((floatCoeff .f32).fromDegree n).isFin = true ∧ ((floatCoeff .f32).fromDegree n).sign = false ∧
      (floatCoeff .f32).ratFromDegree n = (floatCoeff .f32).fromDegree n := by
  have hnum : NumOf .f32 n := by
    rcases Nat.lt_or_ge n (2 ^ 24) with h | h
    · exact numOf_nat _ (by decide) (by decide) n h
    · obtain rfl : n = 2 ^ 24 := le_antisymm hn h
      exact ⟨1, 24, by decide, by decide, by decide, by norm_num⟩
  obtain ⟨h1, h2, h3⟩ := ofDegree_exact .f32 f32_ok n hnum
  exact ⟨h1, h2, h3, rfl⟩

theorem degree_le_max (n : Nat) (hn : n < 2 ^ 32) : |(n : Rat)| ≤ maxNum .f32 := by
  have h1 : (n : Rat) ≤ 2 ^ 32 := by exact_mod_cast hn.le
  rw [abs_of_nonneg (by positivity)]
  refine h1.trans ?_
  norm_num [maxNum, FloatFmt.f32]

/-- C49.  For every degree `f32::from_degree` is correctly rounded, and it is exact just when the degree is a number of `f32`. -/
theorem C49_from_degree_f32_rounded (n : Nat) (hn : n < 2 ^ 32) :
    Rounds 24 (-149) 104 n ((floatCoeff .f32).fromDegree n).val ∧ (((floatCoeff .f32).fromDegree n).val = n ↔ IsF32 n) := by
  obtain ⟨_, _, h3⟩ := round_correct .f32 f32_ok false n (degree_le_max n hn)
  refine ⟨h3, fun h => ?_, fun h => (ofDegree_exact .f32 f32_ok n h).1⟩
  have := h3.1
  have hv : (round .f32 false n).val = n := h
  rw [hv] at this
  exact this

example := (C49_from_degree_f32_rounded 16777217 (by norm_num)).1

/-- C49.  `2^24` is the best bound: the next degree is not a number of `f32`. -/
theorem C49_from_degree_f32_bound : ((floatCoeff .f32).fromDegree (2 ^ 24 + 1)).val ≠ ((2 ^ 24 + 1 : Nat) : Rat) := by
  intro h
  obtain ⟨m, e, h1, h2, h3, h4⟩ := ((C49_from_degree_f32_rounded (2 ^ 24 + 1) (by norm_num)).2).1 h
  have h4 : (16777217 : Rat) = m * 2 ^ e := by rw [← h4]; norm_num
  have h1 : |m| < 16777216 := h1
  rcases le_or_gt e 0 with he | he
  · have hm : (m : Rat) = 16777217 * 2 ^ (-e) := by
      rw [zpow_neg, ← div_eq_mul_inv, eq_div_iff (two_zpow_pos e).ne', ← h4]
    obtain ⟨j, hj⟩ := Int.eq_ofNat_of_zero_le (show 0 ≤ -e by omega)
    rw [hj] at hm
    have hz : m = 16777217 * 2 ^ j := by exact_mod_cast hm
    have : (1 : Int) ≤ 2 ^ j := one_le_pow₀ (by norm_num)
    have := (abs_lt.1 h1).2
    omega
  · obtain ⟨j, hj⟩ := Int.eq_ofNat_of_zero_le (show 0 ≤ e - 1 by omega)
    rw [show e = (j + 1 : Nat) by omega] at h4
    have hz : (16777217 : Int) = m * 2 ^ (j + 1) := by exact_mod_cast h4
    rw [pow_succ, ← mul_assoc] at hz
    omega

/-- C49.  `from_degree` preserves order in both types. -/
theorem C49_from_degree_monotone (n m : Nat) (hnm : n ≤ m) (hm : m < 2 ^ 32) :
    ((floatCoeff .f32).fromDegree n).val ≤ ((floatCoeff .f32).fromDegree m).val ∧
      ((floatCoeff .f64).fromDegree n).val ≤ ((floatCoeff .f64).fromDegree m).val := by
  constructor
  · obtain ⟨_, a1⟩ := C49_from_degree_f32_rounded n (by omega)
    have hn := (C49_from_degree_f32_rounded n (by omega)).1
    have hm := (C49_from_degree_f32_rounded m hm).1
    rcases Nat.eq_or_lt_of_le hnm with rfl | hlt
    · exact le_refl _
    · by_contra hc
      have hc := not_le.1 hc
      have h1 := hn.2.1 _ hm.1
      have h2 := hm.2.1 _ hn.1
      have hq : (n : Rat) < m := by exact_mod_cast hlt
      generalize ((floatCoeff .f32).fromDegree n).val = x at *
      generalize ((floatCoeff .f32).fromDegree m).val = y at *
      rcases abs_cases (x - n) with ⟨e1, f1⟩ | ⟨e1, f1⟩ <;> rcases abs_cases (y - n) with ⟨e2, f2⟩ | ⟨e2, f2⟩ <;>
        rcases abs_cases (y - m) with ⟨e3, f3⟩ | ⟨e3, f3⟩ <;> rcases abs_cases (x - m) with ⟨e4, f4⟩ | ⟨e4, f4⟩ <;>
        rw [e1, e2] at h1 <;> rw [e3, e4] at h2 <;> linarith
  · rw [(C49_from_degree_f64 n (by omega)).1, (C49_from_degree_f64 m hm).1]
    exact_mod_cast hnm

example := (C49_from_degree_monotone 16777215 16777217 (by norm_num) (by norm_num)).1

/-- C49.  `from_rational(n, d)` is `n / d` over a field. -/
theorem C49_from_rational {S : Type} [Field S] (C : Coeff S S) (hC : C.IsField) (n d : S) : C.fromRational n d = n / d := hC.div n d

example : (fieldCoeff Rat).fromRational 1 3 = 1 / 3 := C49_from_rational (fieldCoeff Rat) (fieldCoeff_isField Rat) 1 3

/-- C49.  Over a floating-point type `from_rational(n, d)` is the correctly rounded quotient, if the quotient is in range. -/
theorem C49_from_rational_float (F : FloatFmt) (hF : F = .f32 ∨ F = .f64) (n d : Fl) (hn : n.isFin = true) (hd : ∃ q, d = .fin q ∧ q ≠ 0)
    (hr : |n.val / d.val| ≤ maxNum F) :
    ((floatCoeff F).fromRational n d).isFin = true ∧ RoundsIn F (n.val / d.val) ((floatCoeff F).fromRational n d).val := by
  have hF : Fl.Ok F := by rcases hF with rfl | rfl; exact f32_ok; exact f64_ok
  obtain ⟨q, rfl, hq⟩ := hd
  have h : (floatCoeff F).fromRational n (.fin q) = round F (xor n.sign (Fl.fin q).sign) (n.val / (Fl.fin q).val) := by
    cases n with
    | nan => cases hn
    | inf s => cases hn
    | zero s => rfl
    | fin r => rfl
  rw [h]
  obtain ⟨h1, _, h3⟩ := round_correct F hF (xor n.sign (Fl.fin q).sign) _ hr
  exact ⟨h1, h3⟩

/-- One third in `f64`. -/
example : ((floatCoeff .f64).fromRational (.fin 1) (.fin 3)).isFin = true :=
  (C49_from_rational_float .f64 (.inr rfl) (.fin 1) (.fin 3) rfl ⟨3, rfl, by norm_num⟩ (by
    have : (1 : Rat) ≤ 2 ^ (971 : Int) := one_le_zpow₀ (by norm_num) (by norm_num)
    have h2 : (1 : Rat) ≤ 2 ^ 53 - 1 := by norm_num
    have h3 : (1 : Rat) ≤ maxNum .f64 := by
      show (1 : Rat) ≤ (2 ^ 53 - 1) * 2 ^ (971 : Int)
      exact one_le_mul_of_one_le_of_one_le h2 this
    refine le_trans ?_ h3
    norm_num [Fl.val])).1

example : ((floatCoeff .f32).fromDegree 16777216).val = 16777216 := by
  have := (C49_from_degree_f32 16777216 (by norm_num)).1
  exact_mod_cast this

/-! ## C50 -/

theorem round_valid (F : FloatFmt) (hF : Fl.Ok F) (s : Bool) (q : Rat) : (Fl.round F s q).Valid F := by
  unfold Fl.round
  by_cases h0 : q = 0
  · rw [if_pos h0]; trivial
  · rw [if_neg h0]
    simp only
    by_cases h1 : (2 : Rat) ^ (F.eMax + F.prec) ≤ roundMag F |q|
    · rw [if_pos h1]; trivial
    · rw [if_neg h1]
      by_cases h2 : roundMag F |q| = 0
      · rw [if_pos h2]; trivial
      · rw [if_neg h2]
        have := (roundMag_rounds F hF |q| (abs_pos.2 h0) (not_le.1 h1)).1
        split_ifs
        · exact ⟨neg_ne_zero.2 h2, numOf_neg F _ this⟩
        · exact ⟨h2, this⟩

theorem neg_valid (F : FloatFmt) (x : Fl) (h : x.Valid F) : x.neg.Valid F := by
  cases x <;> try trivial
  exact ⟨neg_ne_zero.2 h.1, numOf_neg F _ h.2⟩

theorem one_valid (F : FloatFmt) (hF : F = .f32 ∨ F = .f64) : NumOf F 1 := by
  rcases hF with rfl | rfl <;> exact ⟨1, 0, by decide, by decide, by decide, by simp⟩

theorem fmt_ok (F : FloatFmt) (hF : F = .f32 ∨ F = .f64) : Fl.Ok F := by
  rcases hF with rfl | rfl
  · exact f32_ok
  · exact f64_ok

/-- C50.  Every operation of the trait yields a value that the type can hold. -/
theorem C50_closed (F : FloatFmt) (hF : F = .f32 ∨ F = .f64) (x y : Fl) (hx : x.Valid F) (hy : y.Valid F) (n : Nat) :
    ((floatCoeff F).add x y).Valid F ∧ ((floatCoeff F).sub x y).Valid F ∧ ((floatCoeff F).mul x y).Valid F ∧ ((floatCoeff F).div x y).Valid F ∧
      ((floatCoeff F).inv x).Valid F ∧ ((floatCoeff F).uminus x).Valid F ∧ (floatCoeff F).zero.Valid F ∧ (floatCoeff F).one.Valid F ∧
      (floatCoeff F).mone.Valid F ∧ ((floatCoeff F).fromDegree n).Valid F := by
  have hok := fmt_ok F hF
  have h1 := one_valid F hF
  have hadd : ∀ x y : Fl, x.Valid F → y.Valid F → (Fl.add F x y).Valid F := by
    intro x y _ _
    cases x <;> cases y <;> simp only [Fl.add] <;> first | trivial | exact round_valid F hok _ _ | (split_ifs <;> trivial)
  have hmul : (Fl.mul F x y).Valid F := by
    cases x <;> cases y <;> simp only [Fl.mul] <;> first | trivial | exact round_valid F hok _ _
  have hdiv : ∀ x y : Fl, (Fl.div F x y).Valid F := by
    intro x y
    cases x <;> cases y <;> simp only [Fl.div] <;> first | trivial | exact round_valid F hok _ _
  exact ⟨hadd x y hx hy, hadd x _ hx (neg_valid F y hy), hmul, hdiv x y, hdiv _ x, neg_valid F x hx, trivial, ⟨one_ne_zero, h1⟩,
    ⟨by norm_num, numOf_neg F 1 h1⟩, round_valid F hok _ _⟩

example : ((floatCoeff .f32).add (.inf true) .nan).Valid .f32 ∧ ((floatCoeff .f32).div (.zero true) (.inf false)).Valid .f32 :=
  ⟨(C50_closed .f32 (.inl rfl) (.inf true) .nan trivial trivial 0).1, (C50_closed .f32 (.inl rfl) (.zero true) (.inf false) trivial trivial 0).2.2.2.1⟩

theorem val_neg (x : Fl) : x.neg.val = -x.val := by cases x <;> simp [Fl.neg, Fl.val]

theorem add_fin (F : FloatFmt) (x y : Fl) (hx : x.isFin = true) (hy : y.isFin = true) : ∃ s, Fl.add F x y = Fl.round F s (x.val + y.val) := by
  cases x <;> cases y <;> first | (exact ⟨_, rfl⟩) | (cases hx; done) | (cases hy)
  next s t =>
    refine ⟨s && t, ?_⟩
    unfold Fl.round
    rw [if_pos (by simp [Fl.val])]
    rfl

theorem mul_fin (F : FloatFmt) (x y : Fl) (hx : x.isFin = true) (hy : y.isFin = true) : ∃ s, Fl.mul F x y = Fl.round F s (x.val * y.val) := by
  cases x <;> cases y <;> first | (exact ⟨_, rfl⟩) | (cases hx; done) | (cases hy; done)

theorem div_fin (F : FloatFmt) (x y : Fl) (hx : x.isFin = true) (hy : y.isFin = true) (h0 : ∀ s, y ≠ .zero s) :
    ∃ s, Fl.div F x y = Fl.round F s (x.val / y.val) := by
  cases x <;> cases y <;> first | (exact ⟨_, rfl⟩) | (cases hx; done) | (cases hy; done) | exact absurd rfl (h0 _)

/-- C50.  On finite operands each operation is the exact result correctly rounded, whenever that result is in range. -/
theorem C50_correctly_rounded (F : FloatFmt) (hF : F = .f32 ∨ F = .f64) (x y : Fl) (hx : x.isFin = true) (hy : y.isFin = true) :
    (|x.val + y.val| ≤ maxNum F → ((floatCoeff F).add x y).isFin = true ∧ RoundsIn F (x.val + y.val) ((floatCoeff F).add x y).val) ∧
    (|x.val - y.val| ≤ maxNum F → ((floatCoeff F).sub x y).isFin = true ∧ RoundsIn F (x.val - y.val) ((floatCoeff F).sub x y).val) ∧
    (|x.val * y.val| ≤ maxNum F → ((floatCoeff F).mul x y).isFin = true ∧ RoundsIn F (x.val * y.val) ((floatCoeff F).mul x y).val) ∧
    ((∀ s, y ≠ .zero s) → |x.val / y.val| ≤ maxNum F →
      ((floatCoeff F).div x y).isFin = true ∧ RoundsIn F (x.val / y.val) ((floatCoeff F).div x y).val) ∧
    ((∀ s, y ≠ .zero s) → |y.val⁻¹| ≤ maxNum F → ((floatCoeff F).inv y).isFin = true ∧ RoundsIn F y.val⁻¹ ((floatCoeff F).inv y).val) ∧
    ((floatCoeff F).uminus x).isFin = true ∧ ((floatCoeff F).uminus x).val = -x.val := by
  have hok := fmt_ok F hF
  have hny : y.neg.isFin = true := by cases y <;> first | rfl | cases hy
  refine ⟨fun h => ?_, fun h => ?_, fun h => ?_, fun h0 h => ?_, fun h0 h => ?_, ?_, val_neg x⟩
  · obtain ⟨s, hs⟩ := add_fin F x y hx hy
    show (Fl.add F x y).isFin = true ∧ RoundsIn F _ (Fl.add F x y).val
    rw [hs]
    obtain ⟨h1, _, h2⟩ := round_correct F hok s _ h
    exact ⟨h1, h2⟩
  · obtain ⟨s, hs⟩ := add_fin F x y.neg hx hny
    show (Fl.add F x y.neg).isFin = true ∧ RoundsIn F _ (Fl.add F x y.neg).val
    rw [hs, val_neg, ← sub_eq_add_neg]
    obtain ⟨h1, _, h2⟩ := round_correct F hok s _ h
    exact ⟨h1, h2⟩
  · obtain ⟨s, hs⟩ := mul_fin F x y hx hy
    show (Fl.mul F x y).isFin = true ∧ RoundsIn F _ (Fl.mul F x y).val
    rw [hs]
    obtain ⟨h1, _, h2⟩ := round_correct F hok s _ h
    exact ⟨h1, h2⟩
  · obtain ⟨s, hs⟩ := div_fin F x y hx hy h0
    show (Fl.div F x y).isFin = true ∧ RoundsIn F _ (Fl.div F x y).val
    rw [hs]
    obtain ⟨h1, _, h2⟩ := round_correct F hok s _ h
    exact ⟨h1, h2⟩
  · obtain ⟨s, hs⟩ := div_fin F Fl.one y rfl hy h0
    have he : Fl.one.val / y.val = y.val⁻¹ := one_div _
    show (Fl.div F Fl.one y).isFin = true ∧ RoundsIn F _ (Fl.div F Fl.one y).val
    rw [hs, he]
    obtain ⟨h1, _, h2⟩ := round_correct F hok s _ h
    exact ⟨h1, h2⟩
  · cases x <;> first | rfl | cases hx

/-- C50.  Addition and multiplication are commutative, on all values. -/
theorem C50_commutative (F : FloatFmt) (x y : Fl) :
    (floatCoeff F).add x y = (floatCoeff F).add y x ∧ (floatCoeff F).mul x y = (floatCoeff F).mul y x := by
  constructor
  · show Fl.add F x y = Fl.add F y x
    cases x <;> cases y <;> simp only [Fl.add] <;> first | rfl | skip
    · next s t => cases s <;> cases t <;> rfl
    · next s t => cases s <;> cases t <;> rfl
    · rw [add_comm]
    · rw [add_comm]
    · rw [add_comm]
  · show Fl.mul F x y = Fl.mul F y x
    cases x <;> cases y <;> simp only [Fl.mul] <;> first | rfl | skip
    all_goals first | (rw [mul_comm, Bool.xor_comm]; done) | (rw [Bool.xor_comm]; done) | (rw [Bool.xor_comm]; rfl)

example : (floatCoeff .f32).add (.fin (1 / 2)) (.inf true) = (floatCoeff .f32).add (.inf true) (.fin (1 / 2)) :=
  (C50_commutative .f32 (.fin (1 / 2)) (.inf true)).1

/-- C50.  The constants and signs: `ONE` is neutral for `*` and `/`, `ZERO` is neutral for `+` and `-` (up to the sign of zero, and exactly for everything but
the negative zero), `MONE` multiplies to the negative, `uminus` is an involution, and a finite number minus itself is `ZERO`. -/
theorem C50_neutral (F : FloatFmt) (hF : F = .f32 ∨ F = .f64) (x : Fl) (hx : x.Valid F) :
    (floatCoeff F).mul x (floatCoeff F).one = x ∧ (floatCoeff F).div x (floatCoeff F).one = x ∧
    (x ≠ .zero true → (floatCoeff F).add x (floatCoeff F).zero = x) ∧ (floatCoeff F).sub x (floatCoeff F).zero = x ∧
    (floatCoeff F).mul x (floatCoeff F).mone = (floatCoeff F).uminus x ∧ (floatCoeff F).uminus ((floatCoeff F).uminus x) = x ∧
    (x.isFin = true → (floatCoeff F).sub x x = (floatCoeff F).zero) := by
  have hok := fmt_ok F hF
  have hround : ∀ q s, Fl.Valid F (.fin q) → Fl.round F s q = .fin q := fun q s h => round_num F hok s q h.1 h.2
  cases x with
  | nan => exact ⟨rfl, rfl, fun _ => rfl, rfl, rfl, rfl, fun h => by cases h⟩
  | inf s =>
    refine ⟨?_, ?_, fun _ => rfl, rfl, ?_, by cases s <;> rfl, fun h => by cases h⟩ <;>
      cases s <;> simp [floatCoeff, Fl.mul, Fl.div, Fl.one, Fl.sign, Fl.neg]
  | zero s =>
    refine ⟨?_, ?_, fun h => ?_, ?_, ?_, by cases s <;> rfl, fun _ => by cases s <;> rfl⟩
    · cases s <;> simp [floatCoeff, Fl.mul, Fl.one, Fl.sign, Fl.val, Fl.round]
    · cases s <;> simp [floatCoeff, Fl.div, Fl.one, Fl.sign, Fl.val, Fl.round]
    · cases s
      · rfl
      · exact absurd rfl h
    · cases s <;> rfl
    · cases s <;> simp [floatCoeff, Fl.mul, Fl.sign, Fl.val, Fl.round, Fl.neg]
  | fin q =>
    refine ⟨?_, ?_, fun _ => ?_, ?_, ?_, ?_, fun _ => ?_⟩
    · show Fl.round F _ (q * 1) = _
      rw [mul_one, hround q _ hx]
    · show Fl.round F _ (q / 1) = _
      rw [div_one, hround q _ hx]
    · show Fl.round F _ (q + 0) = _
      rw [add_zero, hround q _ hx]
    · show Fl.round F _ (q + 0) = _
      rw [add_zero, hround q _ hx]
    · show Fl.round F _ (q * -1) = _
      rw [mul_neg_one]
      exact hround _ _ (neg_valid F (.fin q) hx)
    · show Fl.fin (- -q) = _
      rw [neg_neg]
    · show Fl.round F false (q + -q) = _
      rw [add_neg_cancel]
      unfold Fl.round
      rw [if_pos rfl]
      rfl

example : (floatCoeff .f64).add (.inf true) (floatCoeff .f64).zero = .inf true ∧ (floatCoeff .f64).add (.zero true) (floatCoeff .f64).zero ≠ .zero true :=
  ⟨(C50_neutral .f64 (.inr rfl) (.inf true) trivial).2.2.1 (by simp), by decide +kernel⟩

/-- C50.  `==`: reflexive exactly on the values that are not NaN, and between finite values the equality of the numbers. -/
theorem C50_eq (F : FloatFmt) (x y : Fl) : ((floatCoeff F).eq x x = true ↔ x ≠ .nan) ∧
    (x.Valid F → y.Valid F → x.isFin = true → y.isFin = true → ((floatCoeff F).eq x y = true ↔ x.val = y.val)) := by
  constructor
  · show Fl.eq x x = true ↔ _
    cases x <;> simp [Fl.eq]
  · intro hx hy h1 h2
    show Fl.eq x y = true ↔ _
    cases x <;> cases y <;> first | (cases h1; done) | (cases h2; done) | skip
    · simp [Fl.eq, Fl.val]
    · simpa [Fl.eq, Fl.val] using hy.1.symm
    · simpa [Fl.eq, Fl.val] using hx.1
    · simp [Fl.eq, Fl.val]

example : (floatCoeff .f64).eq (.zero true) (.zero false) = true ∧ (floatCoeff .f64).eq .nan .nan = false := by decide +kernel

/-- A power of two of the format plus one, when the unit in the last place is two: the tie goes down. -/
theorem add_one_tie (F : FloatFmt) (hF : F = .f32 ∨ F = .f64) : Fl.add F (.fin (2 ^ F.prec)) (.fin 1) = .fin (2 ^ F.prec) := by
  have hok := fmt_ok F hF
  have hp : (1 : Rat) ≤ 2 ^ F.prec := one_le_pow₀ (by norm_num)
  have hlog : Int.log 2 ((2 : Rat) ^ F.prec + 1) = F.prec := by
    have h : ((2 : Rat) ^ F.prec + 1) = ((2 ^ F.prec + 1 : Nat) : Rat) := by push_cast; ring
    rw [h, Int.log_natCast]
    have hl : Nat.log 2 (2 ^ F.prec + 1) = F.prec := by
      refine (Nat.log_eq_iff (.inl (by have := hok.prec; omega))).2 ⟨by omega, ?_⟩
      have : 1 < 2 ^ F.prec := Nat.one_lt_two_pow (by have := hok.prec; omega)
      rw [pow_succ]
      omega
    rw [hl]
  have hulp : ulpExp F (2 ^ F.prec + 1) = 1 := by
    unfold ulpExp
    rw [hlog]
    rcases hF with rfl | rfl <;> (simp only [FloatFmt.f32, FloatFmt.f64]; norm_num)
  have hev : ∀ k : Int, k % 2 = 0 → roundEven ((k : Rat) + 1 / 2) = k := by
    intro k hk
    have hf : ⌊(k : Rat) + 1 / 2⌋ = k := by
      rw [Int.floor_eq_iff]
      constructor <;> norm_num
    unfold roundEven
    simp only
    rw [hf, if_neg (by norm_num), if_neg (by norm_num), if_pos hk]
  have hmag : roundMag F (2 ^ F.prec + 1) = 2 ^ F.prec := by
    obtain ⟨j, hj, hj1⟩ : ∃ j, F.prec = j + 1 ∧ 1 ≤ j := by rcases hF with rfl | rfl; exact ⟨23, rfl, by norm_num⟩; exact ⟨52, rfl, by norm_num⟩
    unfold roundMag
    rw [hulp, hj, show ((2 : Rat) ^ (j + 1) + 1) / 2 ^ (1 : Int) = ((2 ^ j : Int) : Rat) + 1 / 2 by push_cast; rw [pow_succ]; ring,
      hev _ (by obtain ⟨i, rfl⟩ : ∃ i, j = i + 1 := ⟨j - 1, by omega⟩; rw [pow_succ]; omega)]
    push_cast
    rw [pow_succ]
  show Fl.round F false (2 ^ F.prec + 1) = _
  unfold Fl.round
  rw [if_neg (by linarith)]
  simp only
  rw [abs_of_nonneg (by linarith), hmag, if_neg, if_neg (by positivity), if_neg (by linarith)]
  rw [not_le, ← zpow_natCast]
  exact zpow_lt_zpow_right₀ (by norm_num) (by rcases hF with rfl | rfl <;> decide)

/-- C50.  Addition is not associative: `(2^p + 1) + 1` and `2^p + (1 + 1)` differ, `p` the precision of the type.  So the vector space and algebra laws that are
stated over rings are not exact laws of floating-point coefficients. -/
theorem C50_add_not_associative (F : FloatFmt) (hF : F = .f32 ∨ F = .f64) :
    ∃ x y z : Fl, x.Valid F ∧ y.Valid F ∧ z.Valid F ∧ x.isFin = true ∧ y.isFin = true ∧ z.isFin = true ∧
      (floatCoeff F).eq ((floatCoeff F).add ((floatCoeff F).add x y) z) ((floatCoeff F).add x ((floatCoeff F).add y z)) = false := by
  have hok := fmt_ok F hF
  have h1 := one_valid F hF
  have hbig : NumOf F (2 ^ F.prec) := by
    rcases hF with rfl | rfl
    · exact ⟨1, 24, by decide, by decide, by decide, by norm_num [FloatFmt.f32]⟩
    · exact ⟨1, 53, by decide, by decide, by decide, by norm_num [FloatFmt.f64]⟩
  have hbig2 : NumOf F (2 ^ F.prec + 2) := by
    rcases hF with rfl | rfl
    · exact ⟨2 ^ 23 + 1, 1, by decide, by decide, by decide, by norm_num [FloatFmt.f32]⟩
    · exact ⟨2 ^ 52 + 1, 1, by decide, by decide, by decide, by norm_num [FloatFmt.f64]⟩
  have htwo : NumOf F 2 := by rcases hF with rfl | rfl <;> exact ⟨1, 1, by decide, by decide, by decide, by norm_num⟩
  have hp : (1 : Rat) ≤ 2 ^ F.prec := one_le_pow₀ (by norm_num)
  refine ⟨.fin (2 ^ F.prec), .fin 1, .fin 1, ⟨by positivity, hbig⟩, ⟨one_ne_zero, h1⟩, ⟨one_ne_zero, h1⟩, rfl, rfl, rfl, ?_⟩
  show Fl.eq (Fl.add F (Fl.add F (.fin (2 ^ F.prec)) (.fin 1)) (.fin 1)) (Fl.add F (.fin (2 ^ F.prec)) (Fl.add F (.fin 1) (.fin 1))) = false
  rw [add_one_tie F hF, add_one_tie F hF]
  have e1 : Fl.add F (.fin 1) (.fin 1) = .fin 2 := by
    show Fl.round F false (1 + 1) = _
    rw [show (1 + 1 : Rat) = 2 by norm_num, round_num F hok _ _ (by norm_num) htwo]
  have e2 : Fl.add F (.fin (2 ^ F.prec)) (.fin 2) = .fin (2 ^ F.prec + 2) :=
    round_num F hok false (2 ^ F.prec + 2) (by linarith) hbig2
  rw [e1, e2]
  simp [Fl.eq]

example := C50_add_not_associative .f32 (.inl rfl)

/-- C50.  Multiplication does not distribute over addition: the products may overflow where the sum cancels. -/
theorem C50_not_distributive (F : FloatFmt) (hF : F = .f32 ∨ F = .f64) :
    ∃ x y z : Fl, x.Valid F ∧ y.Valid F ∧ z.Valid F ∧ (floatCoeff F).mul x ((floatCoeff F).add y z) = .zero false ∧
      (floatCoeff F).add ((floatCoeff F).mul x y) ((floatCoeff F).mul x z) = .nan := by
  have hok := fmt_ok F hF
  set b : Rat := 2 ^ (F.eMax + F.prec - 1) with hb
  have hb0 : 0 < b := two_zpow_pos _
  have hpe : F.eMin + 1 ≤ F.eMax + F.prec - 1 ∧ (F.prec : Int) - 1 = ((F.prec - 1 : Nat) : Int) ∧ 1 < F.prec := by
    rcases hF with rfl | rfl <;> simp [FloatFmt.f32, FloatFmt.f64]
  have hbn : NumOf F b := by
    refine ⟨2 ^ (F.prec - 1), F.eMax, ?_, hok.range, le_refl _, ?_⟩
    · rw [abs_of_nonneg (by positivity)]
      exact pow_lt_pow_right₀ (by norm_num) (by omega)
    · push_cast
      rw [hb, ← zpow_natCast, ← zpow_add₀ (by norm_num)]
      congr 1
      omega
  have htwo : NumOf F 2 := by rcases hF with rfl | rfl <;> exact ⟨1, 1, by decide, by decide, by decide, by norm_num⟩
  have hover : roundMag F (2 * b) = 2 * b := by
    refine roundMag_self hok _ (by positivity) 1 (F.eMax + F.prec) ?_ (by omega) ?_
    · rw [abs_one]
      exact one_lt_pow₀ (by norm_num) (by omega)
    · rw [hb, Int.cast_one, one_mul, show F.eMax + F.prec = 1 + (F.eMax + F.prec - 1) by ring, zpow_add₀ (by norm_num), zpow_one]
      congr 2
      ring
  have hinf : (2 : Rat) ^ (F.eMax + F.prec) ≤ 2 * b := by
    rw [hb, show F.eMax + F.prec = 1 + (F.eMax + F.prec - 1) by ring, zpow_add₀ (by norm_num), zpow_one]
    apply le_of_eq
    congr 2
    ring
  have m1 : Fl.mul F (.fin 2) (.fin b) = .inf false := by
    show Fl.round F _ (2 * b) = _
    unfold Fl.round
    rw [if_neg (by positivity)]
    simp only
    rw [abs_of_pos (by positivity), hover, if_pos hinf]
    congr 1
    rw [decide_eq_false_iff_not, not_lt]
    positivity
  have m2 : Fl.mul F (.fin 2) (.fin (-b)) = .inf true := by
    show Fl.round F _ (2 * -b) = _
    unfold Fl.round
    rw [if_neg (by rw [mul_neg]; exact neg_ne_zero.2 (by positivity))]
    simp only
    rw [mul_neg, abs_neg, abs_of_pos (by positivity), hover, if_pos hinf]
    congr 1
    rw [decide_eq_true_eq]
    linarith
  refine ⟨.fin 2, .fin b, .fin (-b), ⟨by norm_num, htwo⟩, ⟨hb0.ne', hbn⟩, ⟨neg_ne_zero.2 hb0.ne', numOf_neg F b hbn⟩, ?_, ?_⟩
  · show Fl.mul F (.fin 2) (Fl.round F false (b + -b)) = _
    rw [add_neg_cancel]
    unfold Fl.round
    rw [if_pos rfl]
    show Fl.round F _ (2 * 0) = _
    rw [mul_zero]
    unfold Fl.round
    rw [if_pos rfl]
    simp [Fl.sign]
  · show Fl.add F (Fl.mul F (.fin 2) (.fin b)) (Fl.mul F (.fin 2) (.fin (-b))) = _
    rw [m1, m2]
    rfl

example := C50_not_distributive .f64 (.inr rfl)

/-- The structural theorems apply to `f64`: here the negative of a dense vector. -/
example (x : Fl) : (Dense.ops (floatCoeff .f64) (tensorBasis .debug 2)).uminus (Dense.ofVec [x]) = .ok (Dense.ofVec [x.neg]) := rfl

example : ((floatCoeff .f32).add (.fin (1 / 2)) (.fin (1 / 4))).isFin = true :=
  ((C50_correctly_rounded .f32 (.inl rfl) (.fin (1 / 2)) (.fin (1 / 4)) rfl rfl).1 (by
    norm_num [Fl.val, maxNum, FloatFmt.f32])).1

end RA
