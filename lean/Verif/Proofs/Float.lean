import Verif.Model.Float
import Mathlib.Tactic.Linarith
import Mathlib.Tactic.Positivity
import Mathlib.Tactic.FieldSimp
import Mathlib.Tactic.NormNum
import Mathlib.Tactic.Ring

/-!
# Rounding
-/

namespace RA.Fl

theorem roundEven_dist (x : Rat) : |(roundEven x : Rat) - x| ≤ 1 / 2 := by
  have h1 := Int.floor_le x
  have h2 := Int.lt_floor_add_one x
  unfold roundEven
  simp only
  split_ifs <;> rw [abs_le] <;> push_cast <;> constructor <;> linarith

/-- Nearest integer. -/
theorem roundEven_nearest (x : Rat) (k : Int) : |(roundEven x : Rat) - x| ≤ |(k : Rat) - x| := by
  have hd := roundEven_dist x
  by_cases hk : k = roundEven x
  · rw [hk]
  · have h1 : (1 : Rat) ≤ |(k : Rat) - roundEven x| := by
      have : (1 : Int) ≤ |k - roundEven x| := Int.one_le_abs (sub_ne_zero.2 hk)
      exact_mod_cast this
    have h2 : |(k : Rat) - roundEven x| ≤ |(k : Rat) - x| + |(roundEven x : Rat) - x| := by
      have := abs_sub_le (k : Rat) x (roundEven x)
      rwa [abs_sub_comm x] at this
    linarith

/-- Ties go to the even neighbour. -/
theorem roundEven_tie (x : Rat) (h : |(roundEven x : Rat) - x| = 1 / 2) : roundEven x % 2 = 0 := by
  unfold roundEven at h ⊢
  simp only at h ⊢
  have h1 := Int.floor_le x
  split_ifs at h ⊢ with a b c
  · rw [abs_of_nonpos (by linarith)] at h
    linarith
  · have h2 := Int.lt_floor_add_one x
    push_cast at h
    rw [abs_of_nonneg (by linarith)] at h
    linarith
  · exact c
  · omega

theorem roundEven_int (k : Int) : roundEven (k : Rat) = k := by
  have := roundEven_nearest (k : Rat) k
  rw [sub_self, abs_zero] at this
  have := abs_nonpos_iff.1 this
  have := sub_eq_zero.1 this
  exact_mod_cast this

theorem roundEven_nonneg (x : Rat) (h : 0 ≤ x) : 0 ≤ roundEven x := by
  have : 0 ≤ ⌊x⌋ := Int.floor_nonneg.2 h
  unfold roundEven
  simp only
  split_ifs <;> omega

variable (F : FloatFmt)

/-- A format with at least one bit and a sensible range. -/
structure Ok : Prop where
  prec : 1 ≤ F.prec
  range : F.eMin ≤ F.eMax

theorem f32_ok : Ok FloatFmt.f32 := ⟨by decide, by decide⟩
theorem f64_ok : Ok FloatFmt.f64 := ⟨by decide, by decide⟩

variable {F}

theorem log_bounds {a : Rat} (ha : 0 < a) : (2 : Rat) ^ Int.log 2 a ≤ a ∧ a < (2 : Rat) ^ (Int.log 2 a + 1) :=
  ⟨by exact_mod_cast Int.zpow_log_le_self (b := 2) (by norm_num) ha, by exact_mod_cast Int.lt_zpow_succ_log_self (b := 2) (by norm_num) a⟩

theorem two_zpow_pos (e : Int) : (0 : Rat) < 2 ^ e := zpow_pos (by norm_num) e

/-- The scaled magnitude fits in the significand. -/
theorem scaled_lt (a : Rat) (ha : 0 < a) : a / 2 ^ ulpExp F a < 2 ^ (F.prec : Int) := by
  rw [div_lt_iff₀ (two_zpow_pos _), ← zpow_add₀ (by norm_num)]
  refine lt_of_lt_of_le (log_bounds ha).2 (zpow_le_zpow_right₀ (by norm_num) ?_)
  unfold ulpExp
  omega

theorem roundMag_nonneg (a : Rat) (ha : 0 < a) : 0 ≤ roundMag F a := by
  have := roundEven_nonneg _ (le_of_lt (div_pos ha (two_zpow_pos (ulpExp F a))))
  exact mul_nonneg (by exact_mod_cast this) (le_of_lt (two_zpow_pos _))

theorem dist_scale (a : Rat) (e : Int) (k : Rat) : |k * 2 ^ e - a| = |k - a / 2 ^ e| * 2 ^ e := by
  have h := two_zpow_pos e
  rw [← abs_of_pos h, ← abs_mul, abs_of_pos h, sub_mul, div_mul_cancel₀ _ h.ne']

/-- No multiple of the unit is nearer. -/
theorem roundMag_nearest_multiple (a : Rat) (k : Int) : |roundMag F a - a| ≤ |(k : Rat) * 2 ^ ulpExp F a - a| := by
  unfold roundMag
  rw [dist_scale, dist_scale]
  exact mul_le_mul_of_nonneg_right (roundEven_nearest _ k) (le_of_lt (two_zpow_pos _))

/-- No value of the format, the exponent unbounded above, is nearer. -/
theorem roundMag_nearest (hF : Ok F) (a : Rat) (ha : 0 < a) (k e : Int) (hk : |k| < 2 ^ F.prec) (he : F.eMin ≤ e) :
    |roundMag F a - a| ≤ |(k : Rat) * 2 ^ e - a| := by
  rcases le_or_gt (ulpExp F a) e with h | h
  · have : (k : Rat) * 2 ^ e = ((k * 2 ^ (e - ulpExp F a).toNat : Int) : Rat) * 2 ^ ulpExp F a := by
      push_cast
      rw [mul_assoc, ← zpow_natCast, Int.toNat_of_nonneg (by omega), ← zpow_add₀ (by norm_num)]
      congr 2
      omega
    rw [this]
    exact roundMag_nearest_multiple a _
  · have hu : ulpExp F a = Int.log 2 a - (F.prec - 1) := by
      unfold ulpExp at h ⊢
      omega
    have h0 : ((2 ^ (F.prec - 1) : Int) : Rat) * 2 ^ ulpExp F a = 2 ^ Int.log 2 a := by
      have := hF.prec
      push_cast
      rw [← zpow_natCast, ← zpow_add₀ (by norm_num), hu]
      congr 1
      omega
    have h1 := roundMag_nearest_multiple (F := F) a (2 ^ (F.prec - 1))
    rw [h0] at h1
    have h2 := (log_bounds ha).1
    have h3 : (k : Rat) * 2 ^ e ≤ 2 ^ Int.log 2 a := by
      have hkq : (k : Rat) ≤ 2 ^ (F.prec : Int) := by
        have : k ≤ 2 ^ F.prec := le_of_lt (lt_of_le_of_lt (le_abs_self k) hk)
        rw [zpow_natCast]
        exact_mod_cast this
      calc (k : Rat) * 2 ^ e ≤ 2 ^ (F.prec : Int) * 2 ^ e := mul_le_mul_of_nonneg_right hkq (le_of_lt (two_zpow_pos _))
        _ = 2 ^ (F.prec + e) := by rw [zpow_add₀ (by norm_num)]
        _ ≤ _ := zpow_le_zpow_right₀ (by norm_num) (by omega)
    refine h1.trans ?_
    rw [abs_of_nonpos (by linarith), abs_of_nonpos (by linarith)]
    linarith

theorem roundEven_le_pow (a : Rat) (ha : 0 < a) : |roundEven (a / 2 ^ ulpExp F a)| ≤ 2 ^ F.prec := by
  rw [abs_of_nonneg (roundEven_nonneg _ (le_of_lt (div_pos ha (two_zpow_pos _))))]
  have hx := scaled_lt (F := F) a ha
  by_contra hc
  have h1 : ((2 ^ F.prec + 1 : Int) : Rat) ≤ roundEven (a / 2 ^ ulpExp F a) := by
    exact_mod_cast (by omega : (2 ^ F.prec + 1 : Int) ≤ roundEven (a / 2 ^ ulpExp F a))
  have h2 := abs_le.1 (roundEven_dist (a / 2 ^ ulpExp F a))
  push_cast at h1
  rw [zpow_natCast] at hx
  linarith [h2.2]

theorem low_binade (hF : Ok F) (a : Rat) (_ha : 0 < a) {f : Int} (h : f < ulpExp F a) (hf : F.eMin ≤ f) :
    ((2 ^ (F.prec - 1) : Int) : Rat) * 2 ^ ulpExp F a = 2 ^ Int.log 2 a ∧ ulpExp F a = Int.log 2 a - (F.prec - 1) := by
  have hu : ulpExp F a = Int.log 2 a - (F.prec - 1) := by
    unfold ulpExp at h ⊢
    omega
  have := hF.prec
  refine ⟨?_, hu⟩
  push_cast
  rw [← zpow_natCast, ← zpow_add₀ (by norm_num), hu]
  congr 1
  omega

theorem roundEven_ge_pow (hF : Ok F) (a : Rat) (ha : 0 < a) (hlt : F.eMin < ulpExp F a) : 2 ^ (F.prec - 1) ≤ roundEven (a / 2 ^ ulpExp F a) := by
  obtain ⟨hpow, _⟩ := low_binade hF a ha hlt (le_refl _)
  have h1 : ((2 ^ (F.prec - 1) : Int) : Rat) ≤ a / 2 ^ ulpExp F a := by
    rw [le_div_iff₀ (two_zpow_pos _), hpow]
    exact (log_bounds ha).1
  have h2 : (2 ^ (F.prec - 1) : Int) ≤ ⌊a / 2 ^ ulpExp F a⌋ := Int.le_floor.2 h1
  have h3 : ⌊a / 2 ^ ulpExp F a⌋ ≤ roundEven (a / 2 ^ ulpExp F a) := by
    unfold roundEven
    simp only
    split_ifs <;> omega
  omega

/-- Rounding gives a value of the format, unless it overflows. -/
theorem roundMag_repr (hF : Ok F) (a : Rat) (ha : 0 < a) (hlt : roundMag F a < 2 ^ (F.eMax + F.prec)) :
    ∃ m e : Int, 0 ≤ m ∧ m < 2 ^ F.prec ∧ F.eMin ≤ e ∧ e ≤ F.eMax ∧ roundMag F a = m * 2 ^ e := by
  have hprec := hF.prec
  set e := ulpExp F a with he
  set m := roundEven (a / 2 ^ e) with hm
  have hr : roundMag F a = m * 2 ^ e := rfl
  have hemin : F.eMin ≤ e := by rw [he]; unfold ulpExp; omega
  have h0 : 0 ≤ m := roundEven_nonneg _ (le_of_lt (div_pos ha (two_zpow_pos e)))
  have hx : a / 2 ^ e < 2 ^ (F.prec : Int) := scaled_lt a ha
  have hle : m ≤ 2 ^ F.prec := by
    by_contra hc
    have h1 : ((2 ^ F.prec + 1 : Int) : Rat) ≤ m := by exact_mod_cast (by omega : (2 ^ F.prec + 1 : Int) ≤ m)
    have h2 := abs_le.1 (roundEven_dist (a / 2 ^ e))
    rw [← hm] at h2
    push_cast at h1
    rw [zpow_natCast] at hx
    linarith [h2.2]
  have hlow : F.eMin < e → 2 ^ (F.prec - 1) ≤ m := by
    intro hlt
    have hu : e = Int.log 2 a - (F.prec - 1) := by
      rw [he] at hlt ⊢
      unfold ulpExp at hlt ⊢
      omega
    have h1 : ((2 ^ (F.prec - 1) : Int) : Rat) ≤ a / 2 ^ e := by
      rw [le_div_iff₀ (two_zpow_pos e)]
      push_cast
      rw [← zpow_natCast, ← zpow_add₀ (by norm_num)]
      have : (((F.prec - 1 : Nat) : Int) + e) = Int.log 2 a := by omega
      rw [this]
      exact (log_bounds ha).1
    have h2 : (2 ^ (F.prec - 1) : Int) ≤ ⌊a / 2 ^ e⌋ := Int.le_floor.2 h1
    have h3 : ⌊a / 2 ^ e⌋ ≤ m := by
      rw [hm]
      unfold roundEven
      simp only
      split_ifs <;> omega
    omega
  rcases lt_or_eq_of_le hle with h | h
  · refine ⟨m, e, h0, h, hemin, ?_, hr⟩
    by_contra hc
    have h1 := hlow (by have := hF.range; omega)
    have h2 : ((2 ^ (F.prec - 1) : Int) : Rat) ≤ m := by exact_mod_cast h1
    have h3 : (2 : Rat) ^ (F.eMax + F.prec) ≤ m * 2 ^ e := by
      calc (2 : Rat) ^ (F.eMax + F.prec) ≤ 2 ^ (((F.prec - 1 : Nat) : Int) + e) := zpow_le_zpow_right₀ (by norm_num) (by omega)
        _ = 2 ^ (F.prec - 1) * 2 ^ e := by rw [zpow_add₀ (by norm_num), zpow_natCast]
        _ ≤ _ := mul_le_mul_of_nonneg_right (by exact_mod_cast h2) (le_of_lt (two_zpow_pos _))
    linarith
  · have hre : roundMag F a = ((2 ^ (F.prec - 1) : Int) : Rat) * 2 ^ (e + 1) := by
      rw [hr, h]
      push_cast
      rw [← zpow_natCast, ← zpow_natCast, ← zpow_add₀ (by norm_num), ← zpow_add₀ (by norm_num)]
      congr 1
      omega
    refine ⟨2 ^ (F.prec - 1), e + 1, by positivity, ?_, by omega, ?_, hre⟩
    · exact pow_lt_pow_right₀ (by norm_num) (by omega)
    · by_contra hc
      have : (2 : Rat) ^ (F.eMax + F.prec) ≤ roundMag F a := by
        rw [hre]
        push_cast
        rw [← zpow_natCast, ← zpow_add₀ (by norm_num)]
        exact zpow_le_zpow_right₀ (by norm_num) (by omega)
      linarith

/-- Values of the format are unchanged. -/
theorem roundMag_self (hF : Ok F) (a : Rat) (ha : 0 < a) (k e : Int) (hk : |k| < 2 ^ F.prec) (he : F.eMin ≤ e) (h : a = k * 2 ^ e) : roundMag F a = a := by
  have := roundMag_nearest hF a ha k e hk he
  rw [← h, sub_self, abs_zero] at this
  exact sub_eq_zero.1 (abs_nonpos_iff.1 this)

end RA.Fl
