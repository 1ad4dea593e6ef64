import Verif.Props.Float
import Mathlib.Algebra.BigOperators.Group.List.Basic
import Mathlib.Algebra.Order.BigOperators.Group.List

/-!
# Rounding errors of sums of products
-/

namespace RA
open Spec Fl

/-- Half a unit in the last place of one: the relative rounding error. -/
def relErr (F : FloatFmt) : Rat := 2 ^ (-(F.prec : Int))

/-- Half the least positive number: the absolute rounding error near zero. -/
def absErr (F : FloatFmt) : Rat := 2 ^ (F.eMin - 1)

theorem relErr_pos (F : FloatFmt) : 0 < relErr F := two_zpow_pos _
theorem absErr_pos (F : FloatFmt) : 0 < absErr F := two_zpow_pos _

theorem roundMag_half_ulp (F : FloatFmt) (a : Rat) : |roundMag F a - a| ≤ 2 ^ (ulpExp F a - 1) := by
  unfold roundMag
  rw [dist_scale, zpow_sub₀ (by norm_num), zpow_one]
  have := mul_le_mul_of_nonneg_right (roundEven_dist (a / 2 ^ ulpExp F a)) (two_zpow_pos (ulpExp F a)).le
  linarith

theorem half_ulp_normal (F : FloatFmt) (a : Rat) (ha : 0 < a) (h : ulpExp F a ≠ F.eMin) : (2 : Rat) ^ (ulpExp F a - 1) ≤ relErr F * a := by
  have hu : ulpExp F a - 1 = -(F.prec : Int) + Int.log 2 a := by
    unfold ulpExp at h ⊢
    omega
  rw [hu, zpow_add₀ (by norm_num)]
  exact mul_le_mul_of_nonneg_left (log_bounds ha).1 (relErr_pos F).le

theorem roundMag_err (F : FloatFmt) (a : Rat) (ha : 0 < a) : |roundMag F a - a| ≤ relErr F * a + absErr F := by
  have h := roundMag_half_ulp F a
  by_cases he : ulpExp F a = F.eMin
  · rw [he] at h
    have := mul_pos (relErr_pos F) ha
    unfold absErr
    linarith
  · have := half_ulp_normal F a ha he
    have := absErr_pos F
    linarith

theorem roundMag_err_grid (F : FloatFmt) (a : Rat) (ha : 0 < a) (hg : ∃ k : Int, a = k * 2 ^ F.eMin) : |roundMag F a - a| ≤ relErr F * a := by
  by_cases he : ulpExp F a = F.eMin
  · obtain ⟨k, hk⟩ := hg
    have := roundMag_nearest_multiple (F := F) a k
    rw [he, ← hk, sub_self, abs_zero] at this
    exact this.trans (mul_pos (relErr_pos F) ha).le
  · exact (roundMag_half_ulp F a).trans (half_ulp_normal F a ha he)

theorem round_dist (F : FloatFmt) (s : Bool) (q : Rat) (h0 : q ≠ 0) (h : (Fl.round F s q).isFin = true) :
    |(Fl.round F s q).val - q| = abs (roundMag F |q| - |q|) := by
  unfold Fl.round at h ⊢
  rw [if_neg h0] at h ⊢
  simp only at h ⊢
  split_ifs at h ⊢ with h1 h2 h3
  · cases h
  · rw [h2]
    simp [Fl.val]
  · show |-roundMag F |q| - q| = _
    rw [abs_of_neg h3, ← abs_neg]
    congr 1
    ring
  · show |roundMag F |q| - q| = _
    rw [abs_of_nonneg (not_lt.1 h3)]

theorem round_err (F : FloatFmt) (s : Bool) (q : Rat) (h : (Fl.round F s q).isFin = true) :
    |(Fl.round F s q).val - q| ≤ relErr F * |q| + absErr F := by
  by_cases h0 : q = 0
  · subst h0
    have := absErr_pos F
    simp [Fl.round, Fl.val, this.le]
  · rw [round_dist F s q h0 h]
    exact roundMag_err F _ (abs_pos.2 h0)

theorem round_err_grid (F : FloatFmt) (s : Bool) (q : Rat) (h : (Fl.round F s q).isFin = true) (hg : ∃ k : Int, q = k * 2 ^ F.eMin) :
    |(Fl.round F s q).val - q| ≤ relErr F * |q| := by
  by_cases h0 : q = 0
  · subst h0
    simp [Fl.round, Fl.val]
  · rw [round_dist F s q h0 h]
    refine roundMag_err_grid F _ (abs_pos.2 h0) ?_
    obtain ⟨k, hk⟩ := hg
    exact ⟨|k|, by rw [hk, abs_mul, abs_of_pos (two_zpow_pos F.eMin), Int.cast_abs]⟩

theorem valid_grid (F : FloatFmt) (x : Fl) (hx : x.Valid F) : ∃ k : Int, x.val = k * 2 ^ F.eMin := by
  cases x with
  | fin q =>
    obtain ⟨_, m, e, _, h2, _, rfl⟩ := hx
    refine ⟨m * 2 ^ (e - F.eMin).toNat, ?_⟩
    show (m : Rat) * 2 ^ e = _
    push_cast
    rw [mul_assoc, ← zpow_natCast, Int.toNat_of_nonneg (by omega), ← zpow_add₀ (by norm_num)]
    congr 2
    omega
  | _ => exact ⟨0, by simp [Fl.val]⟩

theorem add_fin_inv (F : FloatFmt) (x y : Fl) (h : (Fl.add F x y).isFin = true) : x.isFin = true ∧ y.isFin = true := by
  cases x <;> cases y <;> first | exact ⟨rfl, rfl⟩ | (cases h) | skip
  rename_i s t
  rw [Fl.add] at h
  split_ifs at h <;> cases h

theorem mul_fin_inv (F : FloatFmt) (x y : Fl) (h : (Fl.mul F x y).isFin = true) : x.isFin = true ∧ y.isFin = true := by
  cases x <;> cases y <;> first | exact ⟨rfl, rfl⟩ | (cases h)

theorem mul_round (F : FloatFmt) (x y : Fl) (hx : x.isFin = true) (hy : y.isFin = true) :
    Fl.mul F x y = Fl.round F (xor x.sign y.sign) (x.val * y.val) := by
  cases x <;> cases y <;> first | rfl | (cases hx; done) | (cases hy; done)

theorem add_round (F : FloatFmt) (x y : Fl) (hx : x.isFin = true) (hy : y.isFin = true) :
    (∃ s, Fl.add F x y = Fl.round F s (x.val + y.val)) := by
  cases x <;> cases y <;> first | exact ⟨_, rfl⟩ | (cases hx; done) | (cases hy; done) | skip
  rename_i s t
  exact ⟨s && t, by simp [Fl.add, Fl.round, Fl.val]⟩

theorem add_valid (F : FloatFmt) (hF : Fl.Ok F) (x y : Fl) (_hx : x.Valid F) (_hy : y.Valid F) : (Fl.add F x y).Valid F := by
  by_cases h : (Fl.add F x y).isFin = true
  · obtain ⟨h1, h2⟩ := add_fin_inv F x y h
    obtain ⟨s, hs⟩ := add_round F x y h1 h2
    rw [hs]
    exact round_valid F hF _ _
  · cases hz : Fl.add F x y with
    | fin q => rw [hz] at h; exact absurd rfl h
    | _ => trivial

theorem mul_valid (F : FloatFmt) (hF : Fl.Ok F) (x y : Fl) : (Fl.mul F x y).Valid F := by
  by_cases h : (Fl.mul F x y).isFin = true
  · obtain ⟨h1, h2⟩ := mul_fin_inv F x y h
    rw [mul_round F x y h1 h2]
    exact round_valid F hF _ _
  · cases hz : Fl.mul F x y with
    | fin q => rw [hz] at h; exact absurd rfl h
    | _ => trivial

/-- The computed sum of products. -/
def flSum (F : FloatFmt) (l : List (Fl × Fl)) : Fl := (l.map fun e => Fl.mul F e.1 e.2).foldl (Fl.add F) (.zero false)

/-- The exact sum of products. -/
def exactSum (l : List (Fl × Fl)) : Rat := (l.map fun e => e.1.val * e.2.val).sum

/-- The sum of the magnitudes of the products. -/
def magSum (l : List (Fl × Fl)) : Rat := (l.map fun e => |e.1.val| * |e.2.val|).sum

theorem flSum_snoc (F : FloatFmt) (l : List (Fl × Fl)) (e : Fl × Fl) : flSum F (l ++ [e]) = Fl.add F (flSum F l) (Fl.mul F e.1 e.2) := by
  simp [flSum]

theorem exactSum_snoc (l : List (Fl × Fl)) (e : Fl × Fl) : exactSum (l ++ [e]) = exactSum l + e.1.val * e.2.val := by
  simp [exactSum]

theorem magSum_snoc (l : List (Fl × Fl)) (e : Fl × Fl) : magSum (l ++ [e]) = magSum l + |e.1.val| * |e.2.val| := by
  simp [magSum]

theorem magSum_nonneg (l : List (Fl × Fl)) : 0 ≤ magSum l := by
  apply List.sum_nonneg
  intro x hx
  obtain ⟨e, _, rfl⟩ := List.mem_map.1 hx
  positivity

theorem exactSum_le (l : List (Fl × Fl)) : |exactSum l| ≤ magSum l := by
  induction l using List.reverseRecOn with
  | nil => simp [exactSum, magSum]
  | append_singleton l e ih =>
    rw [exactSum_snoc, magSum_snoc, ← abs_mul]
    exact (abs_add_le _ _).trans (by linarith)

theorem flSum_valid (F : FloatFmt) (hF : Fl.Ok F) (l : List (Fl × Fl)) : (flSum F l).Valid F := by
  induction l using List.reverseRecOn with
  | nil => trivial
  | append_singleton l e ih =>
    rw [flSum_snoc]
    exact add_valid F hF _ _ ih (mul_valid F hF _ _)

/-- One step of the error analysis. -/
theorem err_step (u η : Rat) (hu : 0 < u) (hη : 0 < η) (k : Nat) (s t s' pm p P : Rat) (_hP : 0 ≤ P) (ht : |t| ≤ P)
    (h1 : |s - t| ≤ ((1 + u) ^ (k + 1) - 1) * P + k * (1 + u) ^ k * η) (h2 : |pm - p| ≤ u * |p| + η) (h3 : |s' - (s + pm)| ≤ u * |s + pm|) :
    |s' - (t + p)| ≤ ((1 + u) ^ (k + 1 + 1) - 1) * (P + |p|) + (k + 1 : Nat) * (1 + u) ^ (k + 1) * η := by
  have e1 : |s + pm - (t + p)| ≤ ((1 + u) ^ (k + 1) - 1) * P + k * (1 + u) ^ k * η + (u * |p| + η) := by
    calc |s + pm - (t + p)| = |(s - t) + (pm - p)| := by congr 1; ring
      _ ≤ |s - t| + |pm - p| := abs_add_le _ _
      _ ≤ _ := by linarith
  have e2 : |t + p| ≤ P + |p| := (abs_add_le _ _).trans (by linarith)
  have e3 : |s + pm| ≤ |s + pm - (t + p)| + |t + p| := by
    have := abs_add_le (s + pm - (t + p)) (t + p)
    rwa [sub_add_cancel] at this
  have e4 : |s' - (t + p)| ≤ (1 + u) * |s + pm - (t + p)| + u * |t + p| := by
    have h5 : |s' - (t + p)| ≤ |s' - (s + pm)| + |s + pm - (t + p)| := by
      have := abs_add_le (s' - (s + pm)) (s + pm - (t + p))
      rwa [sub_add_sub_cancel] at this
    have := mul_le_mul_of_nonneg_left e3 hu.le
    linarith
  have hp1 : (1 + u) ≤ (1 + u) ^ (k + 1) := by
    have : (1 + u) ^ 1 ≤ (1 + u) ^ (k + 1) := pow_le_pow_right₀ (by linarith) (by omega)
    rwa [pow_one] at this
  have e5 := mul_le_mul_of_nonneg_left e1 (show 0 ≤ 1 + u by linarith)
  have e6 := mul_le_mul_of_nonneg_left e2 hu.le
  have hp := abs_nonneg p
  have c1 : (1 + u) * (u * |p|) + u * |p| ≤ ((1 + u) ^ (k + 1 + 1) - 1) * |p| := by
    have : (1 + u) * u + u ≤ (1 + u) ^ (k + 1 + 1) - 1 := by
      have := mul_le_mul_of_nonneg_left hp1 (show 0 ≤ 1 + u by linarith)
      rw [pow_succ' _ (k + 1)]
      nlinarith
    calc _ = ((1 + u) * u + u) * |p| := by ring
      _ ≤ _ := mul_le_mul_of_nonneg_right this hp
  have c2 : (1 + u) * η ≤ (1 + u) ^ (k + 1) * η := mul_le_mul_of_nonneg_right hp1 hη.le
  push_cast
  rw [pow_succ' _ (k + 1)] at c1 ⊢
  have c3 : (1 + u) * (k * (1 + u) ^ k * η) = k * (1 + u) ^ (k + 1) * η := by rw [pow_succ']; ring
  linarith

theorem mul_err (F : FloatFmt) (x y : Fl) (h : (Fl.mul F x y).isFin = true) :
    |(Fl.mul F x y).val - x.val * y.val| ≤ relErr F * |x.val * y.val| + absErr F := by
  obtain ⟨h1, h2⟩ := mul_fin_inv F x y h
  rw [mul_round F x y h1 h2] at h ⊢
  exact round_err F _ _ h

theorem add_err (F : FloatFmt) (x y : Fl) (hx : x.Valid F) (hy : y.Valid F) (h : (Fl.add F x y).isFin = true) :
    |(Fl.add F x y).val - (x.val + y.val)| ≤ relErr F * |x.val + y.val| := by
  obtain ⟨h1, h2⟩ := add_fin_inv F x y h
  obtain ⟨s, hs⟩ := add_round F x y h1 h2
  rw [hs] at h ⊢
  refine round_err_grid F _ _ h ?_
  obtain ⟨k, hk⟩ := valid_grid F x hx
  obtain ⟨j, hj⟩ := valid_grid F y hy
  exact ⟨k + j, by rw [hk, hj]; push_cast; ring⟩

/-- A finite sum of products has finite operands, and is near the exact sum. -/
theorem flSum_err (F : FloatFmt) (hF : Fl.Ok F) (l : List (Fl × Fl)) (h : (flSum F l).isFin = true) :
    (∀ e ∈ l, e.1.isFin = true ∧ e.2.isFin = true) ∧
      |(flSum F l).val - exactSum l| ≤
        ((1 + relErr F) ^ (l.length + 1) - 1) * magSum l + l.length * (1 + relErr F) ^ l.length * absErr F := by
  induction l using List.reverseRecOn with
  | nil => simp [flSum, exactSum, magSum, Fl.val]
  | append_singleton l e ih =>
    rw [flSum_snoc] at h ⊢
    obtain ⟨h1, h2⟩ := add_fin_inv F _ _ h
    obtain ⟨i1, i2⟩ := ih h1
    refine ⟨?_, ?_⟩
    · intro e' he'
      rw [List.mem_append, List.mem_singleton] at he'
      rcases he' with he' | rfl
      · exact i1 e' he'
      · exact mul_fin_inv F _ _ h2
    · rw [exactSum_snoc, magSum_snoc, List.length_append, List.length_singleton, ← abs_mul]
      exact err_step (relErr F) (absErr F) (relErr_pos F) (absErr_pos F) l.length _ _ _ _ _ _ (magSum_nonneg l) (exactSum_le l) i2 (mul_err F _ _ h2)
        (add_err F _ _ (flSum_valid F hF l) (mul_valid F hF _ _) h)

theorem mul_fin_of (F : FloatFmt) (hF : Fl.Ok F) (x y : Fl) (hx : x.isFin = true) (hy : y.isFin = true) (h : |x.val * y.val| ≤ maxNum F) :
    (Fl.mul F x y).isFin = true := by
  rw [mul_round F x y hx hy]
  exact (round_correct F hF _ _ h).1

theorem add_fin_of (F : FloatFmt) (hF : Fl.Ok F) (x y : Fl) (hx : x.isFin = true) (hy : y.isFin = true) (h : |x.val + y.val| ≤ maxNum F) :
    (Fl.add F x y).isFin = true := by
  obtain ⟨s, hs⟩ := add_round F x y hx hy
  rw [hs]
  exact (round_correct F hF _ _ h).1

/-- A sum of products of finite operands does not overflow if the magnitudes leave room for the rounding errors. -/
theorem flSum_fin (F : FloatFmt) (hF : Fl.Ok F) (l : List (Fl × Fl)) (hl : ∀ e ∈ l, e.1.isFin = true ∧ e.2.isFin = true)
    (hm : (1 + relErr F) ^ (l.length + 1) * magSum l + l.length * (1 + relErr F) ^ l.length * absErr F ≤ maxNum F) : (flSum F l).isFin = true := by
  induction l using List.reverseRecOn with
  | nil => rfl
  | append_singleton l e ih =>
    have hu := relErr_pos F
    have hη := absErr_pos F
    have hM := magSum_nonneg l
    rw [magSum_snoc, List.length_append, List.length_singleton, ← abs_mul] at hm
    set u := relErr F
    set η := absErr F
    set k := l.length
    set P := magSum l
    set p := e.1.val * e.2.val
    have hp := abs_nonneg p
    have hq1 : (1 : Rat) ≤ (1 + u) ^ k := one_le_pow₀ (by linarith)
    have hq2 : (1 + u) ^ k ≤ (1 + u) ^ (k + 1) := pow_le_pow_right₀ (by linarith) (by omega)
    have hq3 : (1 + u) ^ (k + 1) ≤ (1 + u) ^ (k + 1 + 1) := pow_le_pow_right₀ (by linarith) (by omega)
    have hq4 : 1 + u ≤ (1 + u) ^ (k + 1) := by
      have : (1 + u) ^ 1 ≤ (1 + u) ^ (k + 1) := pow_le_pow_right₀ (by linarith) (by omega)
      rwa [pow_one] at this
    push_cast at hm
    have b1 : (1 + u) ^ (k + 1) * P ≤ (1 + u) ^ (k + 1 + 1) * P := mul_le_mul_of_nonneg_right hq3 hM
    have b2 : (1 + u) * |p| ≤ (1 + u) ^ (k + 1 + 1) * |p| := mul_le_mul_of_nonneg_right (hq4.trans hq3) hp
    have b3 : (k : Rat) * (1 + u) ^ k * η ≤ k * (1 + u) ^ (k + 1) * η := by
      apply mul_le_mul_of_nonneg_right _ hη.le
      exact mul_le_mul_of_nonneg_left hq2 (by positivity)
    have b4 : η ≤ (1 + u) ^ (k + 1) * η := by
      have := mul_le_mul_of_nonneg_right (hq1.trans hq2) hη.le
      linarith
    have b5 : 0 ≤ (1 + u) ^ (k + 1) * P := by positivity
    have b6 : 0 ≤ (k : Rat) * (1 + u) ^ k * η := by positivity
    have b7 : 0 ≤ u * |p| := by positivity
    have hlt : (1 + u) ^ (k + 1) * P + (1 + u) * |p| + k * (1 + u) ^ k * η + η ≤ maxNum F := by linarith
    have i1 := ih (fun e' he' => hl e' (by simp [he'])) (by linarith)
    obtain ⟨f1, f2⟩ := hl e (by simp)
    have i2 := mul_fin_of F hF e.1 e.2 f1 f2 (by show |p| ≤ _; linarith)
    rw [flSum_snoc]
    apply add_fin_of F hF _ _ i1 i2
    have j1 := (flSum_err F hF l i1).2
    have j2 := exactSum_le l
    have j3 := mul_err F _ _ i2
    have k1 : |(flSum F l).val| ≤ |(flSum F l).val - exactSum l| + |exactSum l| := by
      have := abs_add_le ((flSum F l).val - exactSum l) (exactSum l)
      rwa [sub_add_cancel] at this
    have k2 : |(Fl.mul F e.1 e.2).val| ≤ |(Fl.mul F e.1 e.2).val - p| + |p| := by
      have := abs_add_le ((Fl.mul F e.1 e.2).val - p) p
      rwa [sub_add_cancel] at this
    have k3 := abs_add_le (flSum F l).val (Fl.mul F e.1 e.2).val
    change _ ≤ ((1 + u) ^ (k + 1) - 1) * P + k * (1 + u) ^ k * η at j1
    change _ ≤ P at j2
    change _ ≤ u * |p| + η at j3
    linarith

/-- An integer of magnitude at most `2^prec` is a number of the format. -/
theorem numOf_int (F : FloatFmt) (hF : Fl.Ok F) (h0 : F.eMin ≤ 0) (h1 : (F.prec : Int) ≤ F.eMax) (n : Int) (hn : |n| ≤ 2 ^ F.prec) : NumOf F n := by
  rcases lt_or_eq_of_le hn with h | h
  · exact ⟨n, 0, h, h0, by omega, by simp⟩
  · have h2 : (1 : Int) < 2 ^ F.prec := one_lt_pow₀ (by norm_num) (by have := hF.prec; omega)
    rcases abs_choice n with h' | h'
    · refine ⟨1, F.prec, by simpa using h2, by omega, h1, ?_⟩
      rw [h'] at h
      rw [h]
      simp
    · refine ⟨-1, F.prec, by simpa using h2, by omega, h1, ?_⟩
      rw [h'] at h
      rw [show n = -(2 ^ F.prec) by omega]
      simp

theorem round_val_num (F : FloatFmt) (hF : Fl.Ok F) (s : Bool) (q : Rat) (hq : NumOf F q) : (Fl.round F s q).isFin = true ∧ (Fl.round F s q).val = q := by
  obtain ⟨h1, _, h3⟩ := round_correct F hF s q (numOf_le_max F q hq)
  exact ⟨h1, rounds_self F q _ hq h3⟩

/-- Sums of products of integers are exact as long as the magnitudes add up to at most `2^prec`. -/
theorem flSum_int (F : FloatFmt) (hF : Fl.Ok F) (h0 : F.eMin ≤ 0) (h1 : (F.prec : Int) ≤ F.eMax) (l : List (Fl × Fl))
    (hl : ∀ e ∈ l, e.1.isFin = true ∧ e.2.isFin = true ∧ (∃ n : Int, e.1.val = n) ∧ ∃ n : Int, e.2.val = n) (hm : magSum l ≤ 2 ^ F.prec) :
    (flSum F l).isFin = true ∧ (flSum F l).val = exactSum l ∧ ∃ n : Int, exactSum l = n := by
  induction l using List.reverseRecOn with
  | nil => exact ⟨rfl, rfl, 0, by simp [exactSum]⟩
  | append_singleton l e ih =>
    have hs := exactSum_le (l ++ [e])
    rw [exactSum_snoc] at hs
    rw [magSum_snoc] at hm hs
    have hM := magSum_nonneg l
    have hp : 0 ≤ |e.1.val| * |e.2.val| := by positivity
    obtain ⟨i1, i2, n, i3⟩ := ih (fun e' he' => hl e' (by simp [he'])) (by linarith)
    obtain ⟨f1, f2, ⟨x, f3⟩, y, f4⟩ := hl e (by simp)
    have hxy : (Fl.mul F e.1 e.2).isFin = true ∧ (Fl.mul F e.1 e.2).val = e.1.val * e.2.val := by
      rw [mul_round F _ _ f1 f2]
      apply round_val_num F hF
      have : e.1.val * e.2.val = ((x * y : Int) : Rat) := by rw [f3, f4]; push_cast; rfl
      rw [this]
      apply numOf_int F hF h0 h1
      have h5 : |((x * y : Int) : Rat)| ≤ 2 ^ F.prec := by rw [← this, abs_mul]; linarith
      exact_mod_cast h5
    rw [flSum_snoc, exactSum_snoc]
    obtain ⟨s, hs'⟩ := add_round F _ _ i1 hxy.1
    have hn : exactSum l + e.1.val * e.2.val = ((n + x * y : Int) : Rat) := by rw [i3, f3, f4]; push_cast; rfl
    rw [hs', i2, hxy.2]
    have := round_val_num F hF s (exactSum l + e.1.val * e.2.val) (by
      rw [hn]
      apply numOf_int F hF h0 h1
      have h5 : |((n + x * y : Int) : Rat)| ≤ 2 ^ F.prec := by rw [← hn]; linarith
      exact_mod_cast h5)
    exact ⟨this.1, this.2, _, hn⟩

end RA
