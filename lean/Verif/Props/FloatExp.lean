import Verif.Props.FloatExpr
import Verif.Props.ExpLog

/-!
# Accuracy of the exponentials and logarithms of tensors of floating-point numbers (C89)
-/

namespace RA
open Spec TensorKey TensorBasis DenseAlg Series WordFn Fl

/-! ## The operations on vectors near exact tensors -/

section
variable {F : FloatFmt} {p : Profile} {N : Nat}

/-- The exact tensor of a vector of floating-point numbers. -/
def fval (F : FloatFmt) (N : Nat) (v : Dense Fl) : WordFn Rat := fun w => open Classical in if ValidWord N w then (coef (floatCoeff F) N v w).val else 0

/-- The tensor of the magnitudes. -/
def absW (f : WordFn Rat) : WordFn Rat := fun w => |f w|

/-- The same, as plain functions. -/
def valFn (F : FloatFmt) (N : Nat) (v : Dense Fl) : List Nat → Rat := fun w => fval F N v w
def magFn (F : FloatFmt) (N : Nat) (v : Dense Fl) : List Nat → Rat := fun w => |fval F N v w|

theorem fval_word (v : Dense Fl) (w : List Nat) (hw : ValidWord N w) : fval F N v w = (coef (floatCoeff F) N v w).val := if_pos hw

/-- Every coefficient up to degree `n` is finite. -/
def FinTo (F : FloatFmt) (N n : Nat) (a : Dense Fl) : Prop := ∀ w, ValidWord N w → w.length ≤ n → (coef (floatCoeff F) N a w).isFin = true

theorem finTo_of (n : Nat) (a : Dense Fl) (h : ∀ x ∈ a.data, x.isFin = true) : FinTo F N n a := by
  intro w _ _
  unfold coef stored
  cases hw : a.data[wordIndex N w]? with
  | none => rfl
  | some x => exact h x (List.mem_of_getElem? hw)

theorem near_self (n : Nat) (a : Dense Fl) (d : Nat) (ha : FullTo N a d) (hv : ∀ x ∈ a.data, x.Valid F) :
    NearTo F N n a d (valFn F N a) (magFn F N a) (magFn F N a) :=
  { full := ha, valid := hv, mag := fun _ => le_refl _, le := fun _ => le_refl _,
    beyond := fun w _ hl => by
      show fval F N a w = 0
      unfold fval
      split_ifs with h
      · rw [coef_beyond ha w h hl]; rfl
      · rfl
    err := fun w hw _ _ => by
      show |_ - fval F N a w| ≤ _
      rw [fval_word a w hw, sub_self, sub_self, abs_zero] }

theorem NearTo.mono {n : Nat} {a : Dense Fl} {d : Nat} {V M T T' : List Nat → Rat} (h : NearTo F N n a d V M T) (h1 : ∀ w, M w ≤ T' w)
    (h3 : ∀ w, ValidWord N w → w.length ≤ n → T w ≤ T' w) : NearTo F N n a d V M T' :=
  { h with le := h1, err := fun w hw hl hf => (h.err w hw hl hf).trans (by linarith [h3 w hw hl]) }

theorem near_unit (hF : F = .f32 ∨ F = .f64) (p : Profile) (h2 : 2 ≤ N) (hN : N < 2 ^ 32) (n : Nat) :
    ∃ u, (DenseAlg.ops (floatCoeff F) p N).fromKey TensorKey.new = .ok u ∧ NearTo F N n u 0 unitFn unitFn unitFn ∧ FinTo F N n u := by
  obtain ⟨u, e, hu, hc⟩ := fromKeyScalar_word (floatCoeff F) p N h2 hN [] valid_nil (by simp) (by simp; omega) (floatCoeff F).one
  have e1 : ∀ w, ValidWord N w → (coef (floatCoeff F) N u w).isFin = true ∧ (coef (floatCoeff F) N u w).val = (unitFn w : Rat) ∧ (coef (floatCoeff F) N u w).Valid F := by
    intro w hw
    rw [hc w hw, unitFn]
    split_ifs
    · exact ⟨rfl, rfl, by norm_num, one_valid F hF⟩
    · exact ⟨rfl, rfl, trivial⟩
  have h1 : ∀ w, 0 ≤ (unitFn w : Rat) := by
    intro w
    unfold unitFn
    split_ifs <;> norm_num
  refine ⟨u, e, ⟨hu, valid_of_coef (by omega) u fun w hw => (e1 w hw).2.2, fun w => (abs_of_nonneg (h1 w)).le, fun _ => le_refl _, fun w _ hd => ?_, fun w hw _ _ => ?_⟩,
    fun w hw _ => (e1 w hw).1⟩
  · rw [unitFn, if_neg]
    rintro rfl
    simp at hd
  · rw [(e1 w hw).2.1]
    simp

theorem near_add (hF : Fl.Ok F) (p : Profile) (n : Nat) {a b : Dense Fl} {da db : Nat} {V M T V' M' T' : List Nat → Rat} (ha : NearTo F N n a da V M T)
    (hb : NearTo F N n b db V' M' T') :
    ∃ r, (DenseAlg.ops (floatCoeff F) p N).add a b = .ok r ∧
      NearTo F N n r (max da db) (fun w => V w + V' w) (fun w => M w + M' w) (fun w => (1 + relErr F) * (T w + T' w)) ∧
      (FinTo F N n a → FinTo F N n b → (∀ w, ValidWord N w → w.length ≤ n → (1 + relErr F) * (T w + T' w) ≤ maxNum F) → FinTo F N n r) := by
  obtain ⟨r, r1, r2, r3, r4⟩ := fl_add F p N hF a b ha.valid hb.valid
  have hu := relErr_pos F
  have nT : ∀ w, 0 ≤ T w := fun w => (abs_nonneg _).trans ((ha.mag w).trans (ha.le w))
  have nT' : ∀ w, 0 ≤ T' w := fun w => (abs_nonneg _).trans ((hb.mag w).trans (hb.le w))
  refine ⟨r, r1, ⟨fullTo_max ha.full hb.full r2, r3, fun w => ?_, fun w => ?_, fun w hl hd => ?_, fun w hw hl hf => ?_⟩, fun fa fb hr w hw hl => ?_⟩
  · exact (abs_add_le _ _).trans (add_le_add (ha.mag w) (hb.mag w))
  · have := mul_nonneg hu.le (add_nonneg (nT w) (nT' w))
    linarith [ha.le w, hb.le w]
  · rw [ha.beyond w hl (by omega), hb.beyond w hl (by omega), add_zero]
  · rcases r4 w with h4 | ⟨h4, h5⟩
    · rw [h4] at hf ⊢
      obtain ⟨f1, f2⟩ := add_fin_inv F _ _ hf
      exact sum_near _ _ (coef_valid F N a ha.valid w) (coef_valid F N b hb.valid w) hf _ _ _ _ _ _ (ha.err w hw hl f1)
        (hb.err w hw hl f2) (ha.mag w) (hb.mag w)
    · rw [h4] at hf ⊢
      have e1 := ha.err w hw hl hf
      have e2 := hb.err w hw hl (by rw [h5]; rfl)
      rw [h5, show (Fl.zero false).val = 0 from rfl] at e2
      have e3 := abs_add_le ((coef (floatCoeff F) N a w).val - V w) (0 - V' w)
      rw [show (coef (floatCoeff F) N a w).val - V w + (0 - V' w) = (coef (floatCoeff F) N a w).val - (V w + V' w) by ring] at e3
      have := mul_nonneg hu.le (add_nonneg (nT w) (nT' w))
      linarith
  · rcases r4 w with h4 | ⟨h4, h5⟩
    · rw [h4]
      apply add_fin_of F hF _ _ (fa w hw hl) (fb w hw hl)
      have h0 := hr w hw hl
      have e1 := ha.val_le w hw hl
      have e2 := hb.val_le w hw hl
      have e3 := abs_add_le (coef (floatCoeff F) N a w).val (coef (floatCoeff F) N b w).val
      have := mul_nonneg hu.le (add_nonneg ((abs_nonneg _).trans e1) ((abs_nonneg _).trans e2))
      linarith [mul_nonneg hu.le (add_nonneg (nT w) (nT' w))]
    · rw [h4]; exact fa w hw hl

theorem near_sub (hF : Fl.Ok F) (p : Profile) (n : Nat) {a b : Dense Fl} {da db : Nat} {V M T V' M' T' : List Nat → Rat} (ha : NearTo F N n a da V M T)
    (hb : NearTo F N n b db V' M' T') :
    ∃ r, (DenseAlg.ops (floatCoeff F) p N).sub a b = .ok r ∧
      NearTo F N n r (max da db) (fun w => V w - V' w) (fun w => M w + M' w) (fun w => (1 + relErr F) * (T w + T' w)) ∧
      (FinTo F N n a → FinTo F N n b → (∀ w, ValidWord N w → w.length ≤ n → (1 + relErr F) * (T w + T' w) ≤ maxNum F) → FinTo F N n r) := by
  obtain ⟨r, r1, r2, r3, r4⟩ := fl_sub F p N hF a b ha.valid hb.valid
  have hu := relErr_pos F
  have nT : ∀ w, 0 ≤ T w := fun w => (abs_nonneg _).trans ((ha.mag w).trans (ha.le w))
  have nT' : ∀ w, 0 ≤ T' w := fun w => (abs_nonneg _).trans ((hb.mag w).trans (hb.le w))
  refine ⟨r, r1, ⟨fullTo_max ha.full hb.full r2, r3, fun w => ?_, fun w => ?_, fun w hl hd => ?_, fun w hw hl hf => ?_⟩, fun fa fb hr w hw hl => ?_⟩
  · exact (abs_sub _ _).trans (add_le_add (ha.mag w) (hb.mag w))
  · have := mul_nonneg hu.le (add_nonneg (nT w) (nT' w))
    linarith [ha.le w, hb.le w]
  · rw [ha.beyond w hl (by omega), hb.beyond w hl (by omega), sub_zero]
  · rcases r4 w with h4 | ⟨h4, h5⟩
    · rw [h4] at hf ⊢
      obtain ⟨f1, f2⟩ := add_fin_inv F _ _ hf
      rw [neg_isFin] at f2
      rw [sub_eq_add_neg (V w)]
      refine sum_near _ _ (coef_valid F N a ha.valid w) (neg_valid F _ (coef_valid F N b hb.valid w)) hf _ _ _ _ _ _ (ha.err w hw hl f1)
        ?_ (ha.mag w) (by rw [abs_neg]; exact hb.mag w)
      rw [neg_val, ← abs_neg, show -(-(coef (floatCoeff F) N b w).val - -V' w) = (coef (floatCoeff F) N b w).val - V' w by ring]
      exact hb.err w hw hl f2
    · rw [h4] at hf ⊢
      have e1 := ha.err w hw hl hf
      have e2 := hb.err w hw hl (by rw [h5]; rfl)
      rw [h5, show (Fl.zero false).val = 0 from rfl, ← abs_neg] at e2
      have e3 := abs_add_le ((coef (floatCoeff F) N a w).val - V w) (-(0 - V' w))
      rw [show (coef (floatCoeff F) N a w).val - V w + -(0 - V' w) = (coef (floatCoeff F) N a w).val - (V w - V' w) by ring] at e3
      have := mul_nonneg hu.le (add_nonneg (nT w) (nT' w))
      linarith
  · rcases r4 w with h4 | ⟨h4, h5⟩
    · rw [h4]
      apply add_fin_of F hF _ _ (fa w hw hl) (by rw [neg_isFin]; exact fb w hw hl)
      have h0 := hr w hw hl
      have e1 := ha.val_le w hw hl
      have e2 := hb.val_le w hw hl
      have e3 := abs_add_le (coef (floatCoeff F) N a w).val (-(coef (floatCoeff F) N b w).val)
      rw [abs_neg] at e3
      rw [neg_val]
      linarith [mul_nonneg hu.le (add_nonneg (nT w) (nT' w))]
    · rw [h4]; exact fa w hw hl

/-- Division of a vector by a positive integer that is a floating-point number. -/
theorem near_div (hF : Fl.Ok F) (p : Profile) (n : Nat) {a : Dense Fl} {da : Nat} {V M T : List Nat → Rat} (ha : NearTo F N n a da V M T) (s : Fl) (m : Nat)
    (hm : 1 ≤ m) (hs : s.val = m) (fs : s.isFin = true) :
    ∃ r, (DenseAlg.ops (floatCoeff F) p N).scalarRdivide a s = .ok r ∧
      NearTo F N n r da (fun w => (m : Rat)⁻¹ * V w) (fun w => (m : Rat)⁻¹ * M w) (fun w => (1 + relErr F) * ((m : Rat)⁻¹ * T w) + absErr F) ∧
      (FinTo F N n a → (∀ w, ValidWord N w → w.length ≤ n → (m : Rat)⁻¹ * T w ≤ maxNum F) → FinTo F N n r) := by
  have hm0 : (0 : Rat) < m := by exact_mod_cast hm
  have h0 : ∀ t, s ≠ .zero t := by
    rintro t rfl
    rw [show (Fl.zero t).val = 0 from rfl] at hs
    linarith
  have hu := relErr_pos F
  have hη := absErr_pos F
  have hi : (0 : Rat) < (m : Rat)⁻¹ := inv_pos.2 hm0
  have nT : ∀ w, 0 ≤ T w := fun w => (abs_nonneg _).trans ((ha.mag w).trans (ha.le w))
  have r4 : ∀ w, coef (floatCoeff F) N (Dense.ofVec (a.data.map fun x => Fl.div F x s)) w = Fl.div F (coef (floatCoeff F) N a w) s ∨
      (coef (floatCoeff F) N (Dense.ofVec (a.data.map fun x => Fl.div F x s)) w = .zero false ∧ coef (floatCoeff F) N a w = .zero false) := by
    intro w
    unfold coef stored
    rw [Dense.ofVec_data, List.getElem?_map]
    cases a.data[wordIndex N w]? with
    | none => exact .inr ⟨rfl, rfl⟩
    | some x => exact .inl rfl
  have hdf : ∀ x : Fl, (Fl.div F x s).isFin = true → x.isFin = true := by
    intro x h
    cases x with
    | nan => exact absurd h (by cases s <;> nofun)
    | inf t => exact absurd h (by cases s <;> nofun)
    | _ => rfl
  have hdv : ∀ x : Fl, (Fl.div F x s).Valid F := by
    intro x
    by_cases h : (Fl.div F x s).isFin = true
    · obtain ⟨t, ht⟩ := div_fin F x s (hdf x h) fs h0
      rw [ht]
      exact round_valid F hF _ _
    · cases hz : Fl.div F x s with
      | fin q => rw [hz] at h; exact absurd rfl h
      | _ => trivial
  refine ⟨Dense.ofVec (a.data.map fun x => Fl.div F x s), rfl, ⟨⟨by rw [← ha.full.1]; simp [Dense.size], ha.full.2⟩, fun x hx => ?_, fun w => ?_, fun w => ?_, fun w hl hd => ?_, fun w hw hl hf => ?_⟩,
    fun fa hr w hw hl => ?_⟩
  · rw [Dense.ofVec_data] at hx
    obtain ⟨y, _, rfl⟩ := List.mem_map.1 hx
    exact hdv y
  · rw [abs_mul, abs_of_pos hi]
    exact mul_le_mul_of_nonneg_left (ha.mag w) hi.le
  · have h1 := mul_le_mul_of_nonneg_left (ha.le w) hi.le
    have h3 := mul_nonneg hu.le (mul_nonneg hi.le (nT w))
    linarith
  · rw [ha.beyond w hl hd, mul_zero]
  · have hT := mul_nonneg hi.le (nT w)
    rcases r4 w with h4 | ⟨h4, h5⟩
    · rw [h4] at hf ⊢
      have hfx := hdf _ hf
      obtain ⟨t, ht⟩ := div_fin F _ s hfx fs h0
      rw [ht] at hf ⊢
      have e1 := round_err F _ _ hf
      rw [hs] at e1 ⊢
      have e2 := mul_le_mul_of_nonneg_left (ha.err w hw hl hfx) hi.le
      have e3 := mul_le_mul_of_nonneg_left (ha.val_le w hw hl) hi.le
      have ea : |(coef (floatCoeff F) N a w).val / m| = (m : Rat)⁻¹ * |(coef (floatCoeff F) N a w).val| := by
        rw [div_eq_inv_mul, abs_mul, abs_of_pos hi]
      rw [ea] at e1
      have e5 := mul_le_mul_of_nonneg_left e3 hu.le
      have e6 := abs_add_le ((Fl.round F t ((coef (floatCoeff F) N a w).val / m)).val - (coef (floatCoeff F) N a w).val / m)
        ((m : Rat)⁻¹ * ((coef (floatCoeff F) N a w).val - V w))
      rw [show (Fl.round F t ((coef (floatCoeff F) N a w).val / m)).val - (coef (floatCoeff F) N a w).val / m +
        (m : Rat)⁻¹ * ((coef (floatCoeff F) N a w).val - V w) = (Fl.round F t ((coef (floatCoeff F) N a w).val / m)).val - (m : Rat)⁻¹ * V w by
          rw [div_eq_inv_mul]; ring, abs_mul (m : Rat)⁻¹, abs_of_pos hi] at e6
      linarith
    · have e1 : |V w| ≤ T w - M w := by
        have := ha.err w hw hl (by rw [h5]; rfl)
        rw [h5, show (Fl.zero false).val = 0 from rfl, zero_sub, abs_neg] at this
        exact this
      have e2 := mul_le_mul_of_nonneg_left e1 hi.le
      rw [h4, show (Fl.zero false).val = 0 from rfl, zero_sub, abs_neg, abs_mul, abs_of_pos hi]
      have := mul_nonneg hu.le hT
      linarith
  · rcases r4 w with h4 | ⟨h4, h5⟩
    · rw [h4]
      obtain ⟨t, ht⟩ := div_fin F _ s (fa w hw hl) fs h0
      rw [ht]
      refine (round_correct F hF t _ ?_).1
      rw [hs, div_eq_inv_mul, abs_mul, abs_of_pos hi]
      exact (mul_le_mul_of_nonneg_left (ha.val_le w hw hl) hi.le).trans (hr w hw hl)
    · rw [h4]; rfl

/-- The product of two vectors near exact tensors. -/
theorem near_mul (hF : Fl.Ok F) (p : Profile) (h2 : 2 ≤ N) (n D : Nat) (hn : n ≤ D) (hp : N ^ (D + 1) < 2 ^ 64) {a b : Dense Fl} {da db : Nat}
    {V M T V' M' T' : List Nat → Rat} (ha : NearTo F N n a da V M T) (hb : NearTo F N n b db V' M' T') (hM : 1 ≤ min D (da + db)) :
    ∃ r, (DenseAlg.ops (floatCoeff F) p N).multiply a b (some D) = .ok r ∧
      NearTo F N n r (min D (da + db)) (conv V V') (conv M M')
        (fun w => (1 + relErr F) ^ (w.length + 2) * conv T T' w + ((w.length + 1 : Nat) : Rat) * (1 + relErr F) ^ (w.length + 1) * absErr F) ∧
      (FinTo F N n a → FinTo F N n b → (∀ w, ValidWord N w → w.length ≤ n →
        (1 + relErr F) ^ (w.length + 2) * conv T T' w + ((w.length + 1 : Nat) : Rat) * (1 + relErr F) ^ (w.length + 1) * absErr F ≤ maxNum F) → FinTo F N n r) := by
  have hpm : N ^ (min D (da + db) + 1) < 2 ^ 64 := pow_lt64_mono h2 (by omega) hp
  have fx := ha.full
  have fy := hb.full
  have hu := relErr_pos F
  have hη := absErr_pos F
  obtain ⟨r, r1, r2, _⟩ := C33_multiply (floatCoeff F) p N h2 a b _ _ D (fx.hasDegree h2) (fy.hasDegree h2) hM hpm
    ⟨by rw [fx.1]; exact geomSum_mono (by omega), by rw [fy.1]; exact geomSum_mono (by omega)⟩
  have r3 := fun w hw hl => product_coef F p N h2 a b r _ _ D (fx.hasDegree h2) (fy.hasDegree h2) hpm r1 w hw hl
  have nM : ∀ w, 0 ≤ M w := fun w => (abs_nonneg _).trans (ha.mag w)
  have nM' : ∀ w, 0 ≤ M' w := fun w => (abs_nonneg _).trans (hb.mag w)
  have hbey : ∀ w : List Nat, w.length ≤ n → min D (da + db) < w.length → conv V V' w = 0 := by
    intro w hl hd
    rw [conv_eq_sum]
    apply List.sum_eq_zero
    intro x hx
    obtain ⟨k, hk, rfl⟩ := List.mem_map.1 hx
    rw [List.mem_range] at hk
    by_cases hka : da < k
    · rw [ha.beyond _ (by simp; omega) (by simp; omega), zero_mul]
    · rw [hb.beyond _ (by simp; omega) (by simp; omega), mul_zero]
  have hle : ∀ w, conv M M' w ≤ (1 + relErr F) ^ (w.length + 2) * conv T T' w + ((w.length + 1 : Nat) : Rat) * (1 + relErr F) ^ (w.length + 1) * absErr F := by
    intro w
    obtain ⟨c1, c2⟩ := conv_mono w (fun v => ⟨nM v, ha.le v⟩) (fun v => ⟨nM' v, hb.le v⟩)
    have h1 := mul_le_mul_of_nonneg_right (one_le_pow₀ (n := w.length + 2) (show (1 : Rat) ≤ 1 + relErr F by linarith)) (c1.trans c2)
    have h3 : 0 ≤ ((w.length + 1 : Nat) : Rat) * (1 + relErr F) ^ (w.length + 1) * absErr F := by positivity
    linarith
  refine ⟨r, r1, ⟨r2, valid_of_coef (N := N) (by omega) r fun w hw => ?_, fun w => ?_, hle, hbey, fun w hw hl hf => ?_⟩, fun fa fb hr w hw hl => ?_⟩
  · by_cases hl : w.length ≤ min D (da + db)
    · rw [(r3 w hw hl).1]
      exact flSum_valid F hF _
    · rw [coef_beyond r2 w hw (by omega)]
      trivial
  · exact (conv_abs_le w).trans (conv_mono w (fun u => ⟨abs_nonneg _, ha.mag u⟩) (fun u => ⟨abs_nonneg _, hb.mag u⟩)).2
  · by_cases hd : w.length ≤ min D (da + db)
    · obtain ⟨e1, e2, e3⟩ := r3 w hw hd
      rw [e1] at hf ⊢
      obtain ⟨g1, g2⟩ := ha.conv hb w hw hl (flSum_err F hF _ hf).1
      exact flSum_near hF _ (w.length + 1) (storedPairs_length _ _ w) _ _ _ (by rw [e3]; exact g2) hf (by rw [e2]; exact g1)
    · rw [coef_beyond r2 w hw (by omega), hbey w hl (by omega), show (Fl.zero false).val = 0 from rfl, sub_self, abs_zero]
      exact sub_nonneg.2 (hle w)
  · by_cases hd : w.length ≤ min D (da + db)
    · obtain ⟨e1, e2, e3⟩ := r3 w hw hd
      rw [e1]
      have hpf := pairs_of (P := fun c => c.isFin = true) (Q := fun c => c.isFin = true) fa fb w hw hl
      obtain ⟨g1, g2⟩ := ha.conv hb w hw hl hpf
      exact flSum_near_fin hF _ (w.length + 1) (storedPairs_length _ _ w) _ (by rw [e3]; exact g2) hpf (hr w hw hl)
    · rw [coef_beyond r2 w hw (by omega)]
      rfl

/-! ## Magnitudes of the partial sums -/

theorem conv_scaled (A M : List Nat → Rat) (c e : Rat) (w : List Nat) :
    conv A (fun v => c * (M v + e)) w = c * (conv A M w + e * conv A (fun _ => 1) w) := by
  rw [conv_smul_right c A (fun v => M v + e), conv_add_right A M (fun _ => e)]
  have := conv_smul_right e A (fun _ => 1) w
  rw [mul_one] at this
  rw [this]

/-- The bound of a product of an exact tensor with a tensor known up to `(1 + u)^K`. -/
theorem mul_bound (F : FloatFmt) (n K : Nat) (A M : List Nat → Rat) (b B : Rat) (w : List Nat) (b0 : 0 ≤ b) (hB : 0 ≤ B) (hc0 : 0 ≤ conv A M w)
    (hS : conv A (fun _ => 1) w ≤ B) (hl : w.length ≤ n) :
    (1 + relErr F) ^ (w.length + 2) * conv A (fun v => (1 + relErr F) ^ K * (M v + (n + 2) * absErr F * b)) w +
      ((w.length + 1 : Nat) : Rat) * (1 + relErr F) ^ (w.length + 1) * absErr F ≤
    (1 + relErr F) ^ (K + n + 2) * (conv A M w + (n + 2) * absErr F * (B * b)) + (n + 1) * (1 + relErr F) ^ (n + 1) * absErr F := by
  have hu := relErr_pos F
  have hη := absErr_pos F
  have hpow : ∀ i j : Nat, i ≤ j → (1 + relErr F) ^ i ≤ (1 + relErr F) ^ j := fun i j h => pow_le_pow_right₀ (by linarith) h
  have a1 : conv A M w + (n + 2) * absErr F * b * conv A (fun _ => 1) w ≤ conv A M w + (n + 2) * absErr F * (B * b) := by
    have := mul_le_mul_of_nonneg_left hS (show 0 ≤ ((n : Rat) + 2) * absErr F * b by positivity)
    linarith
  have a2 : 0 ≤ conv A M w + (n + 2) * absErr F * (B * b) := by positivity
  have a3 : (1 + relErr F) ^ (w.length + 2) * conv A (fun v => (1 + relErr F) ^ K * (M v + (n + 2) * absErr F * b)) w ≤
      (1 + relErr F) ^ (K + n + 2) * (conv A M w + (n + 2) * absErr F * (B * b)) := by
    rw [conv_scaled, ← mul_assoc, ← pow_add]
    calc _ ≤ (1 + relErr F) ^ (w.length + 2 + K) * (conv A M w + (n + 2) * absErr F * (B * b)) := mul_le_mul_of_nonneg_left a1 (by positivity)
      _ ≤ _ := mul_le_mul_of_nonneg_right (hpow _ _ (by omega)) a2
  have a4 : ((w.length + 1 : Nat) : Rat) * (1 + relErr F) ^ (w.length + 1) * absErr F ≤ (n + 1) * (1 + relErr F) ^ (n + 1) * absErr F := by
    have : ((w.length + 1 : Nat) : Rat) ≤ n + 1 := by exact_mod_cast (by omega : w.length + 1 ≤ n + 1)
    exact mul_le_mul_of_nonneg_right (mul_le_mul this (hpow _ _ (by omega)) (by positivity) (by positivity)) hη.le
  exact add_le_add a3 a4

theorem unitFn_nonneg (w : List Nat) : 0 ≤ (unitFn w : Rat) := by
  unfold unitFn
  split_ifs <;> norm_num

theorem absPow_nonneg (X : WordFn Rat) (i : Nat) (w : List Nat) : 0 ≤ (absW X ^ i) w := by
  induction i generalizing w with
  | zero =>
    rw [pow_zero, WordFn.one_apply]
    split_ifs <;> norm_num
  | succ i ih =>
    rw [pow_succ', WordFn.mul_apply]
    exact (conv_mono (f' := absW X) (g' := absW X ^ i) w (fun u => ⟨abs_nonneg _, le_refl _⟩) (fun u => ⟨ih u, le_refl _⟩)).1

theorem expPart_apply (D j : Nat) (X : WordFn Rat) (w : List Nat) :
    expPart (S := Rat) D j X w = ∑ i ∈ Finset.range (j + 1), (((D - j + 1).ascFactorial i : Nat) : Rat)⁻¹ * (X ^ i) w := by
  unfold expPart
  rw [WordFn.sum_apply]
  rfl

theorem expTo_apply (D : Nat) (X : WordFn Rat) (w : List Nat) : expTo Rat D X w = ∑ k ∈ Finset.range (D + 1), ((k.factorial : Rat)⁻¹) * (X ^ k) w := by
  unfold expTo
  rw [WordFn.sum_apply]
  rfl

/-- The partial sums of Horner's rule are below the whole series. -/
theorem part_le (D j : Nat) (hj : j ≤ D) (f : Nat → Rat) (hf : ∀ i, 0 ≤ f i) :
    0 ≤ ∑ i ∈ Finset.range (j + 1), (((D - j + 1).ascFactorial i : Nat) : Rat)⁻¹ * f i ∧
      ∑ i ∈ Finset.range (j + 1), (((D - j + 1).ascFactorial i : Nat) : Rat)⁻¹ * f i ≤ ∑ k ∈ Finset.range (D + 1), ((k.factorial : Rat)⁻¹) * f k := by
  constructor
  · exact Finset.sum_nonneg fun i _ => mul_nonneg (by positivity) (hf i)
  · calc _ ≤ ∑ i ∈ Finset.range (j + 1), ((i.factorial : Rat)⁻¹) * f i := by
          refine Finset.sum_le_sum fun i _ => mul_le_mul_of_nonneg_right ?_ (hf i)
          have h1 : i.factorial ≤ (D - j + 1).ascFactorial i := by
            rw [Nat.ascFactorial_eq_factorial_mul_choose]
            exact Nat.le_mul_of_pos_right _ (Nat.choose_pos (by omega))
          have h2 : (0 : Rat) < i.factorial := by exact_mod_cast Nat.factorial_pos i
          exact inv_anti₀ h2 (by exact_mod_cast h1)
      _ ≤ _ := Finset.sum_le_sum_of_subset_of_nonneg (Finset.range_mono (by omega)) fun i _ _ => mul_nonneg (by positivity) (hf i)

theorem expPart_abs (D j : Nat) (hj : j ≤ D) (X : WordFn Rat) (w : List Nat) :
    0 ≤ expPart (S := Rat) D j (absW X) w ∧ expPart (S := Rat) D j (absW X) w ≤ expTo Rat D (absW X) w := by
  rw [expPart_apply, expTo_apply]
  exact part_le D j hj _ fun i => absPow_nonneg X i w

theorem expPart_rat (D j : Nat) (hj : j ≤ D) (B : Rat) (hB : 0 ≤ B) :
    0 ≤ expPart (S := Rat) D j B ∧ expPart (S := Rat) D j B ≤ expTo Rat D B :=
  part_le D j hj _ fun i => pow_nonneg hB i

theorem expPart_zero {A : Type} [Ring A] [Algebra Rat A] (D : Nat) (x : A) : expPart (S := Rat) D 0 x = 1 := by
  unfold expPart
  simp

/-- The partial sums, as plain functions. -/
def expFn (D j : Nat) (X : WordFn Rat) : List Nat → Rat := fun w => expPart (S := Rat) D j X w

theorem expFn_zero (D : Nat) (X : WordFn Rat) : expFn D 0 X = unitFn := by
  funext w
  unfold expFn
  rw [expPart_zero, WordFn.one_apply]
  rfl

theorem expFn_succ (D j : Nat) (hj : j < D) (X : WordFn Rat) :
    expFn D (j + 1) X = fun w => unitFn w + ((D - j : Nat) : Rat)⁻¹ * conv (fun v => X v) (expFn D j X) w := by
  funext w
  unfold expFn
  rw [expPart_succ D j hj, WordFn.add_apply, WordFn.one_apply]
  rfl

theorem depth_lt (h2 : 2 ≤ N) (D : Nat) (hp : N ^ (D + 1) < 2 ^ 64) : D < 63 := by
  have h : 2 ^ (D + 1) < 2 ^ 64 := lt_of_le_of_lt (Nat.pow_le_pow_left h2 _) hp
  have := (Nat.pow_lt_pow_iff_right (by norm_num)).1 h
  omega

theorem degree_value (hF : F = .f32 ∨ F = .f64) (m : Nat) (hm : m < 63) :
    ((floatCoeff F).ratFromDegree m).val = m ∧ ((floatCoeff F).ratFromDegree m).isFin = true := by
  have hn : NumOf F m := by
    rcases hF with rfl | rfl
    · exact numOf_nat _ (by decide) (by decide) m (lt_trans hm (by decide))
    · exact numOf_nat _ (by decide) (by decide) m (lt_trans hm (by decide))
  obtain ⟨h1, h3, _⟩ := ofDegree_exact F (fmt_ok' hF) m hn
  exact ⟨h1, h3⟩

/-! ## The exponential -/

/-- The invariant of the loop of the exponential. -/
theorem expHorner_near (hF : F = .f32 ∨ F = .f64) (p : Profile) (h2 : 2 ≤ N) (hN : N < 2 ^ 32) (n D : Nat) (hn : n ≤ D) (hp : N ^ (D + 1) < 2 ^ 64) (x : Dense Fl) (d : Nat)
    (hd : 1 ≤ d) (hx : FullTo N x d) (hv : ∀ y ∈ x.data, y.Valid F) (B : Rat) (hB : 0 ≤ B)
    (hS : ∀ v, ValidWord N v → v.length ≤ n → conv (magFn F N x) (fun _ => 1) v ≤ B) (j : Nat) (hj : j ≤ D) :
    ∃ r dr, expHorner (floatCoeff F) p N D x j = .ok r ∧ (dr ≤ D ∧ (1 ≤ j → 1 ≤ dr)) ∧
      NearTo F N n r dr (expFn D j (fval F N x)) (expFn D j (absW (fval F N x)))
        (fun v => (1 + relErr F) ^ (j * (n + 4)) * (expFn D j (absW (fval F N x)) v + (n + 2) * absErr F * expPart (S := Rat) D j B)) ∧
      (FinTo F N n x → (∀ v, ValidWord N v → v.length ≤ n → (1 + relErr F) ^ (D * (n + 4)) *
        (D * (expTo Rat D (absW (fval F N x)) v + (n + 2) * absErr F * expTo Rat D B)) ≤ maxNum F) → FinTo F N n r) := by
  have hu := relErr_pos F
  have hη := absErr_pos F
  have h1u : (1 : Rat) ≤ 1 + relErr F := by linarith
  have hone : ∀ k : Nat, (1 : Rat) ≤ (1 + relErr F) ^ k := fun k => one_le_pow₀ h1u
  have hpow : ∀ i j : Nat, i ≤ j → (1 + relErr F) ^ i ≤ (1 + relErr F) ^ j := fun i j h => pow_le_pow_right₀ h1u h
  obtain ⟨u, eu, nu, fu⟩ := near_unit (F := F) hF p h2 hN n
  have nx := near_self n x d hx hv
  have hX : (fun v => absW (fval F N x) v) = magFn F N x := rfl
  have hX' : (fun v => fval F N x v) = valFn F N x := rfl
  induction j with
  | zero =>
    refine ⟨u, 0, eu, ⟨by omega, by omega⟩, ?_, fun _ _ => fu⟩
    rw [expFn_zero, expFn_zero, expPart_zero]
    refine nu.mono (fun w => ?_) (fun w _ _ => ?_)
    all_goals
      rw [Nat.zero_mul, pow_zero, one_mul]
      have : 0 ≤ ((n : Rat) + 2) * absErr F * 1 := by positivity
      linarith
  | succ j ih =>
    obtain ⟨y, dy, ey, ⟨hdy, _⟩, ny, fy⟩ := ih (by omega)
    obtain ⟨t, et, nt, ft⟩ := near_mul (fmt_ok' hF) p h2 n D hn hp nx ny (by omega)
    obtain ⟨v1, v2⟩ := degree_value (F := F) hF (D - j) (by have := depth_lt h2 D hp; omega)
    obtain ⟨q, eq, nq, fq⟩ := near_div (fmt_ok' hF) p n nt _ (D - j) (by omega) v1 v2
    obtain ⟨r, er, nr, fr⟩ := near_add (fmt_ok' hF) p n nu nq
    have hm1 : (1 : Rat) ≤ (D - j : Nat) := by exact_mod_cast (by omega : 1 ≤ D - j)
    have hmD : ((D - j : Nat) : Rat) ≤ D := by exact_mod_cast (by omega : D - j ≤ D)
    set m : Rat := ((D - j : Nat) : Rat) with hm
    have hm0 : 0 < m := by linarith
    have hb : expPart (S := Rat) D (j + 1) B = 1 + m⁻¹ * (B * expPart (S := Rat) D j B) := by
      rw [expPart_succ D j (by omega)]
      rfl
    obtain ⟨b0, _⟩ := expPart_rat D j (by omega) B hB
    obtain ⟨b0', b1'⟩ := expPart_rat D (j + 1) hj B hB
    have hK : (j + 1) * (n + 4) = j * (n + 4) + (n + 4) := by ring
    set b := expPart (S := Rat) D j B
    set K := j * (n + 4)
    set M := expFn D j (absW (fval F N x)) with hMdef
    set T1 : List Nat → Rat := fun w => (1 + relErr F) ^ (w.length + 2) * conv (magFn F N x) (fun v => (1 + relErr F) ^ K * (M v + (n + 2) * absErr F * b)) w +
      ((w.length + 1 : Nat) : Rat) * (1 + relErr F) ^ (w.length + 1) * absErr F with hT1
    -- the bound after the product
    have hc0 : ∀ w, 0 ≤ conv (magFn F N x) M w := fun w => (conv_mono (f' := magFn F N x) (g' := M) w (fun u => ⟨abs_nonneg _, le_refl _⟩)
      (fun u => ⟨(expPart_abs D j (by omega) (fval F N x) u).1, le_refl _⟩)).1
    have hG : ∀ w, ValidWord N w → w.length ≤ n → T1 w ≤ (1 + relErr F) ^ (K + n + 2) * (conv (magFn F N x) M w + (n + 2) * absErr F * (B * b)) +
        (n + 1) * (1 + relErr F) ^ (n + 1) * absErr F := fun w hw hl => mul_bound F n K _ M b B w b0 hB (hc0 w) (hS w hw hl) hl
    -- the bound after the sum
    have hH : ∀ w, ValidWord N w → w.length ≤ n → (1 + relErr F) * (unitFn w + ((1 + relErr F) * (m⁻¹ * T1 w) + absErr F)) ≤
        (1 + relErr F) ^ (K + (n + 4)) * (unitFn w + m⁻¹ * conv (magFn F N x) M w + (n + 2) * absErr F * (1 + m⁻¹ * (B * b))) := by
      intro w hw hl
      have g := mul_le_mul_of_nonneg_left (hG w hw hl) (show 0 ≤ m⁻¹ by positivity)
      have hmi : m⁻¹ ≤ 1 := inv_le_one_of_one_le₀ hm1
      have u0 : 0 ≤ (unitFn w : Rat) := by unfold unitFn; split_ifs <;> norm_num
      have c1 : (1 + relErr F) * unitFn w ≤ (1 + relErr F) ^ (K + (n + 4)) * unitFn w := by
        have := hpow 1 (K + (n + 4)) (by omega)
        rw [pow_one] at this
        exact mul_le_mul_of_nonneg_right this u0
      have c2 : (1 + relErr F) * absErr F ≤ (1 + relErr F) ^ (K + (n + 4)) * absErr F := by
        have := hpow 1 (K + (n + 4)) (by omega)
        rw [pow_one] at this
        exact mul_le_mul_of_nonneg_right this hη.le
      have c3 : (1 + relErr F) ^ 2 * (m⁻¹ * ((n + 1) * (1 + relErr F) ^ (n + 1) * absErr F)) ≤ (1 + relErr F) ^ (K + (n + 4)) * ((n + 1) * absErr F) := by
        have q0 : 0 ≤ ((n : Rat) + 1) * (1 + relErr F) ^ (n + 1) * absErr F := by positivity
        calc _ ≤ (1 + relErr F) ^ 2 * (1 * ((n + 1) * (1 + relErr F) ^ (n + 1) * absErr F)) := by
              exact mul_le_mul_of_nonneg_left (mul_le_mul_of_nonneg_right hmi q0) (by positivity)
          _ = (1 + relErr F) ^ (n + 3) * ((n + 1) * absErr F) := by ring
          _ ≤ _ := mul_le_mul_of_nonneg_right (hpow _ _ (by omega)) (by positivity)
      have c4 := mul_le_mul_of_nonneg_left g (show 0 ≤ (1 + relErr F) ^ 2 by positivity)
      have e1 : (1 + relErr F) * (unitFn w + ((1 + relErr F) * (m⁻¹ * T1 w) + absErr F)) =
        (1 + relErr F) * unitFn w + (1 + relErr F) ^ 2 * (m⁻¹ * T1 w) + (1 + relErr F) * absErr F := by ring
      have e2 : (1 + relErr F) ^ 2 * (m⁻¹ * ((1 + relErr F) ^ (K + n + 2) * (conv (magFn F N x) M w + (n + 2) * absErr F * (B * b)) +
        (n + 1) * (1 + relErr F) ^ (n + 1) * absErr F)) = (1 + relErr F) ^ (K + (n + 4)) * (m⁻¹ * conv (magFn F N x) M w + (n + 2) * absErr F * (m⁻¹ * (B * b))) +
          (1 + relErr F) ^ 2 * (m⁻¹ * ((n + 1) * (1 + relErr F) ^ (n + 1) * absErr F)) := by ring
      rw [e2] at c4
      rw [e1]
      linarith
    have hT0 : ∀ w, 0 ≤ T1 w := fun w => (abs_nonneg _).trans ((nt.mag w).trans (nt.le w))
    have hMs : expFn D (j + 1) (absW (fval F N x)) = fun w => unitFn w + m⁻¹ * conv (magFn F N x) M w := expFn_succ D j (by omega) _
    refine ⟨r, max 0 (min D (d + dy)), ?_, ⟨by omega, by omega⟩, ?_, fun fx hr => ?_⟩
    · unfold expHorner
      rw [ey, Res.bind_ok, et, Res.bind_ok, eq, Res.bind_ok, eu, Res.bind_ok, er]
    · rw [hK, expFn_succ D j (by omega) (fval F N x), hMs, hb, hX']
      refine nr.mono (fun w => ?_) hH
      have a1 := hc0 w
      have u0 : 0 ≤ (unitFn w : Rat) := by unfold unitFn; split_ifs <;> norm_num
      have a2 : 0 ≤ m⁻¹ * conv (magFn F N x) M w := mul_nonneg (by positivity) a1
      have a3 : 0 ≤ ((n : Rat) + 2) * absErr F * (1 + m⁻¹ * (B * b)) := by positivity
      have a4 := mul_le_mul_of_nonneg_right (hone (K + (n + 4))) (add_nonneg (add_nonneg u0 a2) a3)
      linarith
    · set Q : List Nat → Rat := fun w => (1 + relErr F) ^ (D * (n + 4)) * (expTo Rat D (absW (fval F N x)) w + (n + 2) * absErr F * expTo Rat D B) with hQ
      have hQr : ∀ w, ValidWord N w → w.length ≤ n → D * Q w ≤ maxNum F := by
        intro w hw hl
        have := hr w hw hl
        rw [mul_left_comm] at this
        exact this
      have hD1 : (1 : Rat) ≤ D := hm1.trans hmD
      have hHQ : ∀ w, ValidWord N w → w.length ≤ n → (1 + relErr F) * (unitFn w + ((1 + relErr F) * (m⁻¹ * T1 w) + absErr F)) ≤ Q w := by
        intro w hw hl
        refine (hH w hw hl).trans ?_
        rw [← hb, ← congrFun hMs w]
        obtain ⟨p1, p2⟩ := expPart_abs D (j + 1) hj (fval F N x) w
        have p3 : expFn D (j + 1) (absW (fval F N x)) w + (n + 2) * absErr F * expPart (S := Rat) D (j + 1) B ≤
            expTo Rat D (absW (fval F N x)) w + (n + 2) * absErr F * expTo Rat D B :=
          add_le_add p2 (mul_le_mul_of_nonneg_left b1' (by positivity))
        have p4 : 0 ≤ expFn D (j + 1) (absW (fval F N x)) w + (n + 2) * absErr F * expPart (S := Rat) D (j + 1) B := add_nonneg p1 (by positivity)
        refine mul_le_mul (hpow _ _ ?_) p3 p4 (by positivity)
        rw [← hK]
        exact Nat.mul_le_mul_right _ hj
      have hdiv : ∀ w, ValidWord N w → w.length ≤ n → m⁻¹ * T1 w ≤ Q w := by
        intro w hw hl
        have u0 : 0 ≤ (unitFn w : Rat) := by unfold unitFn; split_ifs <;> norm_num
        have a1 := hHQ w hw hl
        have a2 : 0 ≤ m⁻¹ * T1 w := mul_nonneg (by positivity) (hT0 w)
        have a3 := mul_nonneg hu.le a2
        have a4 := mul_nonneg hu.le (add_nonneg u0 (add_nonneg (mul_nonneg (by linarith : 0 ≤ 1 + relErr F) a2) hη.le))
        linarith
      have hQ0 : ∀ w, ValidWord N w → w.length ≤ n → Q w ≤ D * Q w ∧ 0 ≤ Q w := by
        intro w hw hl
        have a2 : 0 ≤ m⁻¹ * T1 w := mul_nonneg (by positivity) (hT0 w)
        have a3 := a2.trans (hdiv w hw hl)
        exact ⟨by have := mul_le_mul_of_nonneg_right hD1 a3; linarith, a3⟩
      have ft' : FinTo F N n t := by
        refine ft fx (fy fx hr) fun w hw hl => ?_
        have a1 := mul_le_mul_of_nonneg_left (hdiv w hw hl) hm0.le
        rw [← mul_assoc, mul_inv_cancel₀ hm0.ne', one_mul] at a1
        exact a1.trans ((mul_le_mul_of_nonneg_right hmD (hQ0 w hw hl).2).trans (hQr w hw hl))
      have fq' : FinTo F N n q := fq ft' fun w hw hl => (hdiv w hw hl).trans ((hQ0 w hw hl).1.trans (hQr w hw hl))
      exact fr fu fq' fun w hw hl => (hHQ w hw hl).trans ((hQ0 w hw hl).1.trans (hQr w hw hl))

/-! ## The logarithm -/

/-- The partial sums of the logarithm, as plain functions. -/
def logFn (D j : Nat) (X : WordFn Rat) : List Nat → Rat := fun w => logPart (S := Rat) D j X w

theorem logFn_zero (D : Nat) (X : WordFn Rat) : logFn D 0 X = fun w => (D : Rat)⁻¹ * unitFn w := by
  funext w
  unfold logFn logPart
  simp only [Nat.zero_add, Finset.sum_range_one, pow_zero, one_mul, Nat.sub_zero, Nat.add_zero]
  rw [WordFn.smul_apply, WordFn.one_apply]
  rfl

theorem logFn_succ (D j : Nat) (hj : j + 1 < D) (X : WordFn Rat) :
    logFn D (j + 1) X = fun w => ((D - 1 - j : Nat) : Rat)⁻¹ * unitFn w - conv (fun v => X v) (logFn D j X) w := by
  funext w
  unfold logFn
  rw [logPart_succ D j hj, WordFn.sub_apply, WordFn.smul_apply, WordFn.one_apply]
  rfl

theorem logFn_succ_neg (D j : Nat) (hj : j + 1 < D) (X : WordFn Rat) :
    logFn D (j + 1) (-X) = fun w => ((D - 1 - j : Nat) : Rat)⁻¹ * unitFn w + conv (fun v => X v) (logFn D j (-X)) w := by
  funext w
  unfold logFn
  rw [logPart_succ D j hj, neg_mul, sub_neg_eq_add, WordFn.add_apply, WordFn.smul_apply, WordFn.one_apply]
  rfl

theorem logFn_neg_apply (D j : Nat) (X : WordFn Rat) (w : List Nat) :
    logFn D j (-X) w = ∑ i ∈ Finset.range (j + 1), ((D - j + i : Nat) : Rat)⁻¹ * (X ^ i) w := by
  unfold logFn logPart
  rw [WordFn.sum_apply]
  refine Finset.sum_congr rfl fun i _ => ?_
  rw [neg_pow X i, show ((-1 : WordFn Rat) ^ i) = algebraMap Rat (WordFn Rat) ((-1) ^ i) by rw [map_pow, map_neg, map_one], ← Algebra.smul_def, smul_smul,
    mul_right_comm, ← mul_pow, neg_one_mul, neg_neg, one_pow, one_mul]
  rfl

/-- The series `y + y^2/2 + ... + y^D/D`. -/
theorem logTo_neg_apply (D : Nat) (hD : 1 ≤ D) (X : WordFn Rat) (w : List Nat) :
    conv (fun v => X v) (logFn D (D - 1) (-X)) w = ∑ k ∈ Finset.Ico 1 (D + 1), (k : Rat)⁻¹ * (X ^ k) w := by
  have h := logPart_all (S := Rat) D hD (-X)
  rw [neg_mul, neg_eq_iff_eq_neg] at h
  have h' : conv (fun v => X v) (logFn D (D - 1) (-X)) w = (X * logPart (S := Rat) D (D - 1) (-X)) w := rfl
  rw [h', h]
  show -(logTo Rat D (-X) w) = _
  unfold logTo
  rw [WordFn.sum_apply, ← Finset.sum_neg_distrib]
  refine Finset.sum_congr rfl fun k _ => ?_
  rw [neg_pow X k, show ((-1 : WordFn Rat) ^ k) = algebraMap Rat (WordFn Rat) ((-1) ^ k) by rw [map_pow, map_neg, map_one], ← Algebra.smul_def, smul_smul,
    WordFn.smul_apply, pow_succ]
  have : ((-1 : Rat) ^ k) * (-1) ^ k = 1 := by rw [← mul_pow]; simp
  linear_combination (-(k : Rat)⁻¹ * (-1) * (X ^ k) w) * this

theorem logFn_abs (D j : Nat) (hj : j < D) (X : WordFn Rat) (w : List Nat) :
    0 ≤ logFn D j (-absW X) w ∧ logFn D j (-absW X) w ≤ unitFn w + ∑ k ∈ Finset.Ico 1 (D + 1), (k : Rat)⁻¹ * (absW X ^ k) w := by
  rw [logFn_neg_apply]
  have hn := fun i => absPow_nonneg X i w
  constructor
  · exact Finset.sum_nonneg fun i _ => mul_nonneg (by positivity) (hn i)
  · rw [Finset.sum_range_succ', Finset.sum_Ico_eq_sum_range, add_comm]
    refine add_le_add ?_ ?_
    · rw [pow_zero, WordFn.one_apply]
      show _ ≤ unitFn w
      unfold unitFn
      have : (1 : Rat) ≤ ((D - j + 0 : Nat) : Rat) := by exact_mod_cast (by omega : 1 ≤ D - j + 0)
      split_ifs
      · rw [mul_one]
        exact inv_le_one_of_one_le₀ this
      · rw [mul_zero]
    · calc _ ≤ ∑ i ∈ Finset.range j, ((1 + i : Nat) : Rat)⁻¹ * (absW X ^ (1 + i)) w := by
            refine Finset.sum_le_sum fun i _ => ?_
            rw [Nat.add_comm 1 i]
            refine mul_le_mul_of_nonneg_right ?_ (hn _)
            have h1 : (0 : Rat) < ((i + 1 : Nat) : Rat) := by exact_mod_cast Nat.succ_pos i
            exact inv_anti₀ h1 (by exact_mod_cast (by omega : i + 1 ≤ D - j + (i + 1)))
        _ ≤ _ := Finset.sum_le_sum_of_subset_of_nonneg (Finset.range_mono (by omega)) fun i _ _ => mul_nonneg (by positivity) (hn _)

/-- The invariant of the loop of the logarithm. -/
theorem logHorner_near (hF : F = .f32 ∨ F = .f64) (p : Profile) (h2 : 2 ≤ N) (hN : N < 2 ^ 32) (n D : Nat) (hn : n ≤ D) (hp : N ^ (D + 1) < 2 ^ 64) (x : Dense Fl) (d : Nat)
    (hd : 1 ≤ d) (hx : FullTo N x d) (hv : ∀ y ∈ x.data, y.Valid F) (B : Rat) (hB : 0 ≤ B)
    (hS : ∀ v, ValidWord N v → v.length ≤ n → conv (magFn F N x) (fun _ => 1) v ≤ B) (j : Nat) (hj : j < D) :
    ∃ r dr, logHorner (floatCoeff F) p N D x j = .ok r ∧ dr ≤ D ∧
      NearTo F N n r dr (logFn D j (fval F N x)) (logFn D j (-absW (fval F N x)))
        (fun v => (1 + relErr F) ^ (j * (n + 3) + 1) * (logFn D j (-absW (fval F N x)) v + (n + 2) * absErr F * ∑ i ∈ Finset.range (j + 1), B ^ i)) ∧
      (FinTo F N n x → (∀ v, ValidWord N v → v.length ≤ n → (1 + relErr F) ^ (D * (n + 3)) *
        (unitFn v + ∑ k ∈ Finset.Ico 1 (D + 1), (k : Rat)⁻¹ * (absW (fval F N x) ^ k) v + (n + 2) * absErr F * ∑ i ∈ Finset.range (D + 1), B ^ i) ≤ maxNum F) →
        FinTo F N n r) := by
  have hu := relErr_pos F
  have hη := absErr_pos F
  have h1u : (1 : Rat) ≤ 1 + relErr F := by linarith
  have hone : ∀ k : Nat, (1 : Rat) ≤ (1 + relErr F) ^ k := fun k => one_le_pow₀ h1u
  have hpow : ∀ i j : Nat, i ≤ j → (1 + relErr F) ^ i ≤ (1 + relErr F) ^ j := fun i j h => pow_le_pow_right₀ h1u h
  have hbn : ∀ k, 0 ≤ ∑ i ∈ Finset.range (k + 1), B ^ i := fun k => Finset.sum_nonneg fun i _ => pow_nonneg hB i
  obtain ⟨u, eu, nu, fu⟩ := near_unit (F := F) hF p h2 hN n
  have nx := near_self n x d hx hv
  have hX : (fun v => absW (fval F N x) v) = magFn F N x := rfl
  have hX' : (fun v => fval F N x v) = valFn F N x := rfl
  -- what is in range
  have hroom : ∀ j, j < D → (∀ v, ValidWord N v → v.length ≤ n → (1 + relErr F) ^ (D * (n + 3)) *
        (unitFn v + ∑ k ∈ Finset.Ico 1 (D + 1), (k : Rat)⁻¹ * (absW (fval F N x) ^ k) v + (n + 2) * absErr F * ∑ i ∈ Finset.range (D + 1), B ^ i) ≤ maxNum F) →
      ∀ w, ValidWord N w → w.length ≤ n →
        (1 + relErr F) ^ (j * (n + 3) + 1) * (logFn D j (-absW (fval F N x)) w + (n + 2) * absErr F * ∑ i ∈ Finset.range (j + 1), B ^ i) ≤ maxNum F := by
    intro j hj hr w hw hl
    refine le_trans (mul_le_mul (hpow _ _ ?_) (add_le_add (logFn_abs D j hj (fval F N x) w).2 (mul_le_mul_of_nonneg_left ?_ (by positivity))) ?_ (by positivity)) (hr w hw hl)
    · calc j * (n + 3) + 1 ≤ j * (n + 3) + (n + 3) := by omega
        _ = (j + 1) * (n + 3) := by ring
        _ ≤ _ := Nat.mul_le_mul_right _ hj
    · exact Finset.sum_le_sum_of_subset_of_nonneg (Finset.range_mono (by omega)) fun i _ _ => pow_nonneg hB i
    · exact add_nonneg (logFn_abs D j hj (fval F N x) w).1 (by have := hbn j; positivity)
  induction j with
  | zero =>
    obtain ⟨v1, v2⟩ := degree_value (F := F) hF D (by have := depth_lt h2 D hp; omega)
    obtain ⟨q, eq, nq, fq⟩ := near_div (fmt_ok' hF) p n nu _ D (by omega) v1 v2
    have hD0 : (0 : Rat) < D := by exact_mod_cast hj
    have hbd : ∀ w, (1 + relErr F) * ((D : Rat)⁻¹ * unitFn w) + absErr F ≤ (1 + relErr F) ^ (0 * (n + 3) + 1) * ((D : Rat)⁻¹ * unitFn w + (n + 2) * absErr F * ∑ i ∈ Finset.range (0 + 1), B ^ i) := by
      intro w
      have e : ∑ i ∈ Finset.range (0 + 1), B ^ i = 1 := by simp
      rw [e, Nat.zero_mul, Nat.zero_add, pow_one, mul_one]
      have := mul_nonneg hu.le (show 0 ≤ ((n : Rat) + 2) * absErr F by positivity)
      have : 0 ≤ (n : Rat) * absErr F := by positivity
      linarith
    refine ⟨q, 0, ?_, by omega, ?_, fun fx hr => ?_⟩
    · unfold logHorner
      rw [eu, Res.bind_ok, eq]
    · rw [logFn_zero, logFn_zero]
      refine nq.mono (fun w => ?_) fun w _ _ => hbd w
      have : 0 ≤ (D : Rat)⁻¹ * unitFn w := mul_nonneg (by positivity) (unitFn_nonneg w)
      have := mul_nonneg hu.le this
      linarith [hbd w]
    · refine fq fu fun w hw hl => ?_
      have h := hroom 0 hj hr w hw hl
      rw [logFn_zero] at h
      have : 0 ≤ (D : Rat)⁻¹ * unitFn w := mul_nonneg (by positivity) (unitFn_nonneg w)
      have := mul_nonneg hu.le this
      linarith [hbd w]
  | succ j ih =>
    obtain ⟨y, dy, ey, hdy, ny, fy⟩ := ih (by omega)
    obtain ⟨t, et, nt, ft⟩ := near_mul (fmt_ok' hF) p h2 n D hn hp nx ny (by omega)
    obtain ⟨v1, v2⟩ := degree_value (F := F) hF (D - 1 - j) (by have := depth_lt h2 D hp; omega)
    obtain ⟨q, eq, nq, fq⟩ := near_div (fmt_ok' hF) p n nu _ (D - 1 - j) (by omega) v1 v2
    obtain ⟨r, er, nr, fr⟩ := near_sub (fmt_ok' hF) p n nq nt
    have hm1 : (1 : Rat) ≤ (D - 1 - j : Nat) := by exact_mod_cast (by omega : 1 ≤ D - 1 - j)
    have hMs : logFn D (j + 1) (-absW (fval F N x)) = fun w => ((D - 1 - j : Nat) : Rat)⁻¹ * unitFn w + conv (magFn F N x) (logFn D j (-absW (fval F N x))) w :=
      logFn_succ_neg D j (by omega) _
    have hrj := hroom (j + 1) hj
    have hK : (j + 1) * (n + 3) + 1 = j * (n + 3) + 1 + (n + 3) := by ring
    have hb : ∑ i ∈ Finset.range (j + 1 + 1), B ^ i = 1 + B * ∑ i ∈ Finset.range (j + 1), B ^ i := by
      rw [Finset.sum_range_succ', Finset.mul_sum, pow_zero, add_comm]
      congr 1
      exact Finset.sum_congr rfl fun i _ => pow_succ' B i
    have b0 := hbn j
    rw [hK, hb, hMs] at hrj
    set m : Rat := ((D - 1 - j : Nat) : Rat) with hm
    have hm0 : 0 < m := by linarith
    set b := ∑ i ∈ Finset.range (j + 1), B ^ i
    set K := j * (n + 3) + 1 with hKd
    set M := logFn D j (-absW (fval F N x)) with hMdef
    set T1 : List Nat → Rat := fun w => (1 + relErr F) ^ (w.length + 2) * conv (magFn F N x) (fun v => (1 + relErr F) ^ K * (M v + (n + 2) * absErr F * b)) w +
      ((w.length + 1 : Nat) : Rat) * (1 + relErr F) ^ (w.length + 1) * absErr F with hT1
    have hc0 : ∀ w, 0 ≤ conv (magFn F N x) M w := fun w => (conv_mono (f' := magFn F N x) (g' := M) w (fun u => ⟨abs_nonneg _, le_refl _⟩)
      (fun u => ⟨(logFn_abs D j (by omega) (fval F N x) u).1, le_refl _⟩)).1
    have hG : ∀ w, ValidWord N w → w.length ≤ n → T1 w ≤ (1 + relErr F) ^ (K + n + 2) * (conv (magFn F N x) M w + (n + 2) * absErr F * (B * b)) +
        (n + 1) * (1 + relErr F) ^ (n + 1) * absErr F := fun w hw hl => mul_bound F n K _ M b B w b0 hB (hc0 w) (hS w hw hl) hl
    have hH : ∀ w, ValidWord N w → w.length ≤ n → (1 + relErr F) * ((1 + relErr F) * (m⁻¹ * unitFn w) + absErr F + T1 w) ≤
        (1 + relErr F) ^ (K + (n + 3)) * (m⁻¹ * unitFn w + conv (magFn F N x) M w + (n + 2) * absErr F * (1 + B * b)) := by
      intro w hw hl
      have u0 : 0 ≤ m⁻¹ * (unitFn w : Rat) := mul_nonneg (by positivity) (unitFn_nonneg w)
      have c1 : (1 + relErr F) ^ 2 * (m⁻¹ * unitFn w) ≤ (1 + relErr F) ^ (K + (n + 3)) * (m⁻¹ * unitFn w) :=
        mul_le_mul_of_nonneg_right (hpow _ _ (by omega)) u0
      have c2 : (1 + relErr F) * absErr F ≤ (1 + relErr F) ^ (K + (n + 3)) * absErr F := by
        have := hpow 1 (K + (n + 3)) (by omega)
        rw [pow_one] at this
        exact mul_le_mul_of_nonneg_right this hη.le
      have c3 : (1 + relErr F) * ((n + 1) * (1 + relErr F) ^ (n + 1) * absErr F) ≤ (1 + relErr F) ^ (K + (n + 3)) * ((n + 1) * absErr F) := by
        calc _ = (1 + relErr F) ^ (n + 2) * ((n + 1) * absErr F) := by ring
          _ ≤ _ := mul_le_mul_of_nonneg_right (hpow _ _ (by omega)) (by positivity)
      have c4 := mul_le_mul_of_nonneg_left (hG w hw hl) (show 0 ≤ 1 + relErr F by linarith)
      have e1 : (1 + relErr F) * ((1 + relErr F) * (m⁻¹ * unitFn w) + absErr F + T1 w) =
        (1 + relErr F) ^ 2 * (m⁻¹ * unitFn w) + (1 + relErr F) * T1 w + (1 + relErr F) * absErr F := by ring
      have e2 : (1 + relErr F) * ((1 + relErr F) ^ (K + n + 2) * (conv (magFn F N x) M w + (n + 2) * absErr F * (B * b)) +
        (n + 1) * (1 + relErr F) ^ (n + 1) * absErr F) = (1 + relErr F) ^ (K + (n + 3)) * (conv (magFn F N x) M w + (n + 2) * absErr F * (B * b)) +
          (1 + relErr F) * ((n + 1) * (1 + relErr F) ^ (n + 1) * absErr F) := by ring
      rw [e2] at c4
      rw [e1]
      linarith
    have hT0 : ∀ w, 0 ≤ T1 w := fun w => (abs_nonneg _).trans ((nt.mag w).trans (nt.le w))
    refine ⟨r, max 0 (min D (d + dy)), ?_, by omega, ?_, fun fx hr => ?_⟩
    · unfold logHorner
      rw [ey, Res.bind_ok, et, Res.bind_ok, eu, Res.bind_ok, eq, Res.bind_ok, er]
    · rw [hK, logFn_succ D j (by omega) (fval F N x), hMs, hb, hX']
      refine nr.mono (fun w => ?_) hH
      have a1 := hc0 w
      have a2 : 0 ≤ m⁻¹ * (unitFn w : Rat) := mul_nonneg (by positivity) (unitFn_nonneg w)
      have a3 : 0 ≤ ((n : Rat) + 2) * absErr F * (1 + B * b) := by positivity
      have a4 := mul_le_mul_of_nonneg_right (hone (K + (n + 3))) (add_nonneg (add_nonneg a2 a1) a3)
      linarith
    · have hsum : ∀ w, ValidWord N w → w.length ≤ n → (1 + relErr F) * ((1 + relErr F) * (m⁻¹ * unitFn w) + absErr F + T1 w) ≤ maxNum F :=
        fun w hw hl => (hH w hw hl).trans (hrj hr w hw hl)
      have hpos : ∀ w, ValidWord N w → w.length ≤ n → m⁻¹ * unitFn w ≤ maxNum F ∧ T1 w ≤ maxNum F := by
        intro w hw hl
        have a1 := hsum w hw hl
        have a2 : 0 ≤ m⁻¹ * (unitFn w : Rat) := mul_nonneg (by positivity) (unitFn_nonneg w)
        have a3 := hT0 w
        have a4 := mul_nonneg hu.le a2
        have a5 := mul_nonneg hu.le (add_nonneg (add_nonneg (mul_nonneg (by linarith : 0 ≤ 1 + relErr F) a2) hη.le) a3)
        constructor
        · linarith
        · linarith
      exact fr (fq fu fun w hw hl => (hpos w hw hl).1) (ft fx (fy fx hr) fun w hw hl => (hpos w hw hl).2) hsum

/-- Subtracting one from a tensor with constant term one makes no error. -/
theorem sub_unit_exact (hF : F = .f32 ∨ F = .f64) (p : Profile) (h2 : 2 ≤ N) (hN : N < 2 ^ 32) (g : Dense Fl) (d : Nat) (hg : FullTo N g d) (hv : ∀ y ∈ g.data, y.Valid F)
    (h1 : (coef (floatCoeff F) N g []).val = 1) :
    ∃ u x, (DenseAlg.ops (floatCoeff F) p N).fromKey TensorKey.new = .ok u ∧ (DenseAlg.ops (floatCoeff F) p N).sub g u = .ok x ∧ FullTo N x d ∧
      (∀ y ∈ x.data, y.Valid F) ∧ fval F N x = fval F N g - 1 ∧ ∀ n, FinTo F N n g → FinTo F N n x := by
  have hok := fmt_ok' hF
  obtain ⟨u, e, hu, hc⟩ := fromKeyScalar_word (floatCoeff F) p N h2 hN [] valid_nil (by simp) (by simp; omega) (floatCoeff F).one
  have hvu : ∀ y ∈ u.data, y.Valid F := valid_of_coef (N := N) (by omega) u fun w hw => by
    rw [hc w hw]
    split_ifs
    · exact ⟨by norm_num, one_valid F hF⟩
    · trivial
  obtain ⟨x, ex, sx, vx, cx⟩ := fl_sub F p N hok g u hv hvu
  have key : ∀ w, ValidWord N w → ((coef (floatCoeff F) N g w).isFin = true → (coef (floatCoeff F) N x w).isFin = true) ∧
      (coef (floatCoeff F) N x w).val = (coef (floatCoeff F) N g w).val - (1 : WordFn Rat) w := by
    intro w hw
    have hvg := coef_valid F N g hv w
    have hcw := hc w hw
    rw [WordFn.one_apply]
    rcases cx w with h | ⟨h, h'⟩
    · rw [h, hcw]
      by_cases hw0 : w = []
      · subst hw0
        rw [if_pos rfl, if_pos rfl]
        have hf : (coef (floatCoeff F) N g []).isFin = true := by
          cases hz : coef (floatCoeff F) N g [] with
          | fin q => rfl
          | _ => rw [hz] at h1; simp [Fl.val] at h1
        obtain ⟨s, hs⟩ := add_round F (coef (floatCoeff F) N g []) (Fl.neg (floatCoeff F).one) hf rfl
        rw [hs, h1, show (Fl.neg (floatCoeff F).one).val = -1 from rfl, add_neg_cancel]
        have hz : Fl.round F s 0 = .zero s := by simp [Fl.round]
        rw [hz]
        exact ⟨fun _ => rfl, by simp [Fl.val]⟩
      · rw [if_neg hw0, if_neg hw0, sub_zero]
        show (_ → (Fl.add F (coef (floatCoeff F) N g w) (.zero true)).isFin = true) ∧ (Fl.add F (coef (floatCoeff F) N g w) (.zero true)).val = _
        cases hz : coef (floatCoeff F) N g w with
        | fin q =>
          rw [hz] at hvg
          have : Fl.add F (.fin q) (.zero true) = Fl.round F false (q + 0) := rfl
          rw [this, add_zero, round_num F hok _ q hvg.1 hvg.2]
          exact ⟨fun _ => rfl, rfl⟩
        | zero t => exact ⟨fun _ => rfl, rfl⟩
        | inf t => exact ⟨nofun, rfl⟩
        | nan => exact ⟨nofun, rfl⟩
    · rw [hcw] at h'
      by_cases hw0 : w = []
      · rw [if_pos hw0] at h'
        exact absurd h' nofun
      · rw [h, if_neg hw0, sub_zero]
        exact ⟨id, rfl⟩
  refine ⟨u, x, e, ex, ?_, vx, ?_, fun n hn w hw hl => (key w hw).1 (hn w hw hl)⟩
  · have := fullTo_max hg hu sx
    simpa using this
  · funext w
    rw [WordFn.sub_apply]
    by_cases hw : ValidWord N w
    · rw [fval_word x w hw, fval_word g w hw, (key w hw).2]
    · unfold fval
      rw [if_neg hw, if_neg hw, WordFn.one_apply, if_neg, sub_zero]
      rintro rfl
      exact hw valid_nil

theorem conv_prefix (X : WordFn Rat) (v : List Nat) : conv (fun w => |X w|) (fun _ => 1) v = ∑ k ∈ Finset.range (v.length + 1), |X (v.take k)| := by
  rw [conv_eq_sum]
  simp only [mul_one]
  rfl

end

/-! ## C89 -/

section
variable (F : FloatFmt) (p : Profile) (N : Nat)

/-- C89.  The exponential of a tensor of floating-point numbers returns, and every finite coefficient is within a multiple of the magnitude of the series, and a
term of the order of the least positive number, of the coefficient of `1 + x + ... + x^D/D!`. -/
theorem C89_exp_accuracy (hF : F = .f32 ∨ F = .f64) (h2 : 2 ≤ N) (hN : N < 2 ^ 32) (D : Nat) (hp : N ^ (D + 1) < 2 ^ 64) (x : Dense Fl) (d : Nat) (hd : 1 ≤ d)
    (hx : FullTo N x d) (hv : ∀ y ∈ x.data, y.Valid F) :
    ∃ r, tensorExp (floatCoeff F) p N D x = .ok r ∧ ∀ w, ValidWord N w → w.length ≤ D → (coef (floatCoeff F) N r w).isFin = true →
      ∀ B : Rat, (∀ v, ValidWord N v → v.length ≤ w.length → ∑ k ∈ Finset.range (v.length + 1), |fval F N x (v.take k)| ≤ B) →
      |(coef (floatCoeff F) N r w).val - (∑ k ∈ Finset.range (D + 1), ((k.factorial : Rat)⁻¹) • fval F N x ^ k) w| ≤
        ((1 + relErr F) ^ (D * (w.length + 4)) - 1) * (∑ k ∈ Finset.range (D + 1), ((k.factorial : Rat)⁻¹) • absW (fval F N x) ^ k) w +
          (1 + relErr F) ^ (D * (w.length + 4)) * ((w.length + 2) * absErr F * ∑ k ∈ Finset.range (D + 1), ((k.factorial : Rat)⁻¹) * B ^ k) := by
  have key : ∀ w, ValidWord N w → w.length ≤ D → ∀ B : Rat,
      (∀ v, ValidWord N v → v.length ≤ w.length → ∑ k ∈ Finset.range (v.length + 1), |fval F N x (v.take k)| ≤ B) → _ := fun w hw hl B hS =>
    expHorner_near hF p h2 hN w.length D hl hp x d hd hx hv B
      ((Finset.sum_nonneg fun k _ => abs_nonneg _).trans (hS [] valid_nil (Nat.zero_le _)))
      (fun v hv hl => (conv_prefix (fval F N x) v).le.trans (hS v hv hl)) D le_rfl
  obtain ⟨r, _, er, _⟩ := key [] valid_nil (Nat.zero_le _) |fval F N x []| (fun v _ hl => by
    rw [List.length_eq_zero_iff.1 (Nat.le_zero.1 hl)]
    simp)
  refine ⟨r, er, fun w hw hl hf B hS => ?_⟩
  obtain ⟨r', _, er', _, nr, _⟩ := key w hw hl B hS
  cases er'.symm.trans er
  have := nr.err w hw le_rfl hf
  unfold expFn at this
  rw [expPart_all, expPart_all, expPart_all] at this
  refine this.trans (le_of_eq ?_)
  rw [show expTo Rat D (absW (fval F N x)) w = (∑ k ∈ Finset.range (D + 1), ((k.factorial : Rat)⁻¹) • absW (fval F N x) ^ k) w from rfl,
    show expTo Rat D B = ∑ k ∈ Finset.range (D + 1), ((k.factorial : Rat)⁻¹) * B ^ k from rfl]
  ring

/-- C89.  No coefficient of the exponential overflows when there is room for `D` times the magnitude of the series. -/
theorem C89_exp_finite (hF : F = .f32 ∨ F = .f64) (h2 : 2 ≤ N) (hN : N < 2 ^ 32) (D : Nat) (hp : N ^ (D + 1) < 2 ^ 64) (x : Dense Fl) (d : Nat) (hd : 1 ≤ d)
    (hx : FullTo N x d) (hv : ∀ y ∈ x.data, y.Valid F) (hfin : ∀ y ∈ x.data, y.isFin = true) (B : Rat)
    (hS : ∀ v, ValidWord N v → v.length ≤ D → ∑ k ∈ Finset.range (v.length + 1), |fval F N x (v.take k)| ≤ B)
    (hroom : ∀ w, ValidWord N w → w.length ≤ D → (1 + relErr F) ^ (D * (D + 4)) * (D * ((∑ k ∈ Finset.range (D + 1), ((k.factorial : Rat)⁻¹) • absW (fval F N x) ^ k) w +
      (D + 2) * absErr F * ∑ k ∈ Finset.range (D + 1), ((k.factorial : Rat)⁻¹) * B ^ k)) ≤ maxNum F) :
    ∃ r, tensorExp (floatCoeff F) p N D x = .ok r ∧ ∀ w, ValidWord N w → (coef (floatCoeff F) N r w).isFin = true := by
  obtain ⟨r, dr, er, ⟨hdr, _⟩, nr, fr⟩ := expHorner_near hF p h2 hN D D le_rfl hp x d hd hx hv B
    ((Finset.sum_nonneg fun k _ => abs_nonneg _).trans (hS [] valid_nil (Nat.zero_le _)))
    (fun v hv hl => (conv_prefix (fval F N x) v).le.trans (hS v hv hl)) D le_rfl
  refine ⟨r, er, fun w hw => ?_⟩
  by_cases hl : w.length ≤ D
  · exact fr (finTo_of D x hfin) hroom w hw hl
  · rw [coef_beyond nr.full w hw (by omega)]
    rfl

theorem fval_linear (x : Dense Fl) (hx : FullTo N x 1) (h0 : (coef (floatCoeff F) N x []).val = 0) (w : List Nat) (hw : w.length ≠ 1) : fval F N x w = 0 := by
  by_cases hv : ValidWord N w
  · rw [fval_word x w hv]
    rcases Nat.lt_or_ge 1 w.length with h | h
    · rw [coef_beyond hx w hv h]
      rfl
    · rw [List.length_eq_zero_iff.1 (by omega : w.length = 0), h0]
  · exact if_neg hv

theorem exp_linear_apply (D : Nat) (X : WordFn Rat) (hX : ∀ w : List Nat, w.length ≠ 1 → X w = 0) (w : List Nat) (hl : w.length ≤ D) :
    (∑ k ∈ Finset.range (D + 1), ((k.factorial : Rat)⁻¹) • X ^ k) w = (w.map fun l => X [l]).prod / w.length.factorial := by
  rw [WordFn.sum_apply, Finset.sum_eq_single w.length]
  · rw [WordFn.smul_apply, pow_linear _ hX, if_pos rfl, div_eq_inv_mul]
  · intro k _ hk
    rw [WordFn.smul_apply, pow_linear _ hX, if_neg (fun h => hk h.symm), mul_zero]
  · intro hk
    exact absurd (Finset.mem_range.2 (by omega)) hk

theorem abs_linear (X : WordFn Rat) (hX : ∀ w : List Nat, w.length ≠ 1 → X w = 0) (w : List Nat) (hw : w.length ≠ 1) : absW X w = 0 := by
  unfold absW
  rw [hX w hw, abs_zero]

theorem prod_abs (X : WordFn Rat) (w : List Nat) : (w.map fun l => absW X [l]).prod = |(w.map fun l => X [l]).prod| := by
  induction w with
  | nil => simp
  | cons l w ih =>
    rw [List.map_cons, List.prod_cons, ih, List.map_cons, List.prod_cons, abs_mul]
    rfl

theorem prefix_linear (X : WordFn Rat) (hX : ∀ w : List Nat, w.length ≠ 1 → X w = 0) (B : Rat) (h0 : 0 ≤ B) (hB : ∀ l, 1 ≤ l → l ≤ N → |X [l]| ≤ B) (v : List Nat)
    (hv : ValidWord N v) : ∑ k ∈ Finset.range (v.length + 1), |X (v.take k)| ≤ B := by
  cases v with
  | nil => simpa [hX [] (by simp)] using h0
  | cons l v =>
    rw [Finset.sum_eq_single 1]
    · rw [List.take_succ_cons, List.take_zero]
      obtain ⟨h1, h3⟩ := hv l (by simp)
      exact hB l h1 h3
    · intro k hk hk1
      rw [Finset.mem_range] at hk
      rw [hX _ (by rw [List.length_take]; omega), abs_zero]
    · intro h
      exact absurd (Finset.mem_range.2 (by simp)) h

/-- C89.  The exponential of a linear combination of letters, as for the increment of a path, is accurate to a few units in the last place in every coefficient:
the error is a small multiple of the coefficient itself, up to underflow. -/
theorem C89_exp_linear (hF : F = .f32 ∨ F = .f64) (h2 : 2 ≤ N) (hN : N < 2 ^ 32) (D : Nat) (hp : N ^ (D + 1) < 2 ^ 64) (x : Dense Fl) (hx : FullTo N x 1)
    (hv : ∀ y ∈ x.data, y.Valid F) (h0 : (coef (floatCoeff F) N x []).val = 0) (B : Rat) (hB : ∀ l, 1 ≤ l → l ≤ N → |(coef (floatCoeff F) N x [l]).val| ≤ B) :
    ∃ r, tensorExp (floatCoeff F) p N D x = .ok r ∧ ∀ w, ValidWord N w → w.length ≤ D → (coef (floatCoeff F) N r w).isFin = true →
      |(coef (floatCoeff F) N r w).val - (w.map fun l => (coef (floatCoeff F) N x [l]).val).prod / w.length.factorial| ≤
        ((1 + relErr F) ^ (D * (w.length + 4)) - 1) * |(w.map fun l => (coef (floatCoeff F) N x [l]).val).prod / w.length.factorial| +
          (1 + relErr F) ^ (D * (w.length + 4)) * ((w.length + 2) * absErr F * ∑ k ∈ Finset.range (D + 1), ((k.factorial : Rat)⁻¹) * B ^ k) := by
  obtain ⟨r, er, h⟩ := C89_exp_accuracy F p N hF h2 hN D hp x 1 le_rfl hx hv
  refine ⟨r, er, fun w hw hl hf => ?_⟩
  have hX := fval_linear F N x hx h0
  have hlet : ∀ l, 1 ≤ l → l ≤ N → fval F N x [l] = (coef (floatCoeff F) N x [l]).val := fun l h1 h3 =>
    fval_word x [l] (by intro m hm; rw [List.mem_singleton] at hm; rw [hm]; exact ⟨h1, h3⟩)
  have hB0 : 0 ≤ B := (abs_nonneg _).trans (hB 1 le_rfl (by omega))
  have := h w hw hl hf B fun v hv _ => prefix_linear N (fval F N x) hX B hB0 (fun l h1 h3 => by rw [hlet l h1 h3]; exact hB l h1 h3) v hv
  rw [exp_linear_apply D _ hX w hl, exp_linear_apply D _ (abs_linear _ hX) w hl, prod_abs] at this
  have hmap : (w.map fun l => fval F N x [l]) = w.map fun l => (coef (floatCoeff F) N x [l]).val :=
    List.map_congr_left fun l hlw => hlet l (hw l hlw).1 (hw l hlw).2
  rw [hmap] at this
  rwa [abs_div, abs_of_nonneg (show (0 : Rat) ≤ (w.length.factorial : Rat) by positivity)]

theorem linear_bound (w : List Nat) (X : WordFn Rat) (B : Rat) (hB : ∀ l ∈ w, |X [l]| ≤ B) : |(w.map fun l => X [l]).prod| ≤ B ^ w.length := by
  induction w with
  | nil => simp
  | cons l w ih =>
    rw [List.map_cons, List.prod_cons, abs_mul, List.length_cons, pow_succ']
    exact mul_le_mul (hB l (by simp)) (ih fun m hm => hB m (by simp [hm])) (abs_nonneg _) ((abs_nonneg _).trans (hB l (by simp)))

theorem exp_linear_le (D : Nat) (X : WordFn Rat) (hX : ∀ w : List Nat, w.length ≠ 1 → X w = 0) (B : Rat) (hB0 : 0 ≤ B) (w : List Nat) (hl : w.length ≤ D)
    (hB : ∀ l ∈ w, |X [l]| ≤ B) :
    (∑ k ∈ Finset.range (D + 1), ((k.factorial : Rat)⁻¹) • absW X ^ k) w ≤ ∑ k ∈ Finset.range (D + 1), ((k.factorial : Rat)⁻¹) * B ^ k := by
  rw [exp_linear_apply D _ (abs_linear _ hX) w hl, prod_abs, div_eq_inv_mul]
  have h1 : ((w.length.factorial : Rat)⁻¹) * |(w.map fun l => X [l]).prod| ≤ ((w.length.factorial : Rat)⁻¹) * B ^ w.length :=
    mul_le_mul_of_nonneg_left (linear_bound w X B hB) (by positivity)
  have h3 : ∀ k ∈ Finset.range (D + 1), 0 ≤ ((k.factorial : Rat)⁻¹) * B ^ k := fun k _ => mul_nonneg (by positivity) (pow_nonneg hB0 k)
  have h4 : w.length ∈ Finset.range (D + 1) := Finset.mem_range.2 (by omega)
  exact h1.trans (Finset.single_le_sum h3 h4)

/-- C89.  The exponential of a linear combination of letters with coefficients of at most `B` does not overflow when there is room for `D` times the exponential
sum of `B`. -/
theorem C89_exp_linear_finite (hF : F = .f32 ∨ F = .f64) (h2 : 2 ≤ N) (hN : N < 2 ^ 32) (D : Nat) (hp : N ^ (D + 1) < 2 ^ 64) (x : Dense Fl) (hx : FullTo N x 1)
    (hv : ∀ y ∈ x.data, y.Valid F) (hfin : ∀ y ∈ x.data, y.isFin = true) (h0 : (coef (floatCoeff F) N x []).val = 0) (B : Rat)
    (hB : ∀ l, 1 ≤ l → l ≤ N → |(coef (floatCoeff F) N x [l]).val| ≤ B)
    (hroom : (1 + relErr F) ^ (D * (D + 4)) * (D * ((1 + (D + 2) * absErr F) * ∑ k ∈ Finset.range (D + 1), ((k.factorial : Rat)⁻¹) * B ^ k)) ≤ maxNum F) :
    ∃ r, tensorExp (floatCoeff F) p N D x = .ok r ∧ ∀ w, ValidWord N w → (coef (floatCoeff F) N r w).isFin = true := by
  have hX := fval_linear F N x hx h0
  have hu := relErr_pos F
  have hlet : ∀ l, 1 ≤ l → l ≤ N → |fval F N x [l]| ≤ B := fun l h1 h3 => by
    rw [fval_word x [l] (by intro m hm; rw [List.mem_singleton] at hm; rw [hm]; exact ⟨h1, h3⟩)]
    exact hB l h1 h3
  have hB0 : 0 ≤ B := (abs_nonneg _).trans (hB 1 le_rfl (by omega))
  refine C89_exp_finite F p N hF h2 hN D hp x 1 le_rfl hx hv hfin B (fun v hv _ => prefix_linear N (fval F N x) hX B hB0 hlet v hv) fun w hw hl => le_trans ?_ hroom
  have hw' := exp_linear_le D (fval F N x) hX B hB0 w hl fun l hlw => hlet l (hw l hlw).1 (hw l hlw).2
  set E := (∑ k ∈ Finset.range (D + 1), ((k.factorial : Rat)⁻¹) • absW (fval F N x) ^ k) w
  set e := ∑ k ∈ Finset.range (D + 1), ((k.factorial : Rat)⁻¹) * B ^ k
  have h3 : E + (D + 2) * absErr F * e ≤ (1 + (D + 2) * absErr F) * e := by linarith
  exact mul_le_mul_of_nonneg_left (mul_le_mul_of_nonneg_left h3 (Nat.cast_nonneg D)) (pow_nonneg (by linarith) _)

/-- The value of the program of the logarithm. -/
theorem tensorLog_near (hF : F = .f32 ∨ F = .f64) (h2 : 2 ≤ N) (hN : N < 2 ^ 32) (n D : Nat) (hn : n ≤ D) (hD : 1 ≤ D) (hp : N ^ (D + 1) < 2 ^ 64) (g : Dense Fl) (d : Nat)
    (hd : 1 ≤ d) (hg : FullTo N g d) (hv : ∀ y ∈ g.data, y.Valid F) (h1 : (coef (floatCoeff F) N g []).val = 1) (B : Rat)
    (hS : ∀ v, ValidWord N v → v.length ≤ n → ∑ k ∈ Finset.range (v.length + 1), |(fval F N g - 1) (v.take k)| ≤ B) :
    ∃ r dr, tensorLog (floatCoeff F) p N D g = .ok r ∧ dr ≤ D ∧ FullTo N r dr ∧
      (∀ w, ValidWord N w → w.length ≤ n → (coef (floatCoeff F) N r w).isFin = true →
        |(coef (floatCoeff F) N r w).val - (∑ k ∈ Finset.Ico 1 (D + 1), ((-1) ^ (k + 1) * (k : Rat)⁻¹) • (fval F N g - 1) ^ k) w| ≤
          ((1 + relErr F) ^ (D * (n + 3)) - 1) * (∑ k ∈ Finset.Ico 1 (D + 1), ((k : Rat)⁻¹) • absW (fval F N g - 1) ^ k) w +
            (1 + relErr F) ^ (D * (n + 3)) * ((n + 2) * absErr F * ∑ k ∈ Finset.range (D + 1), B ^ k)) ∧
      (FinTo F N n g → (∀ w, ValidWord N w → w.length ≤ n → (1 + relErr F) ^ (D * (n + 3)) * ((if w = [] then 1 else 0) +
        (∑ k ∈ Finset.Ico 1 (D + 1), ((k : Rat)⁻¹) • absW (fval F N g - 1) ^ k) w + (n + 2) * absErr F * ∑ k ∈ Finset.range (D + 1), B ^ k) ≤ maxNum F) →
        FinTo F N n r) := by
  have hu := relErr_pos F
  have hη := absErr_pos F
  have hpow : ∀ i j : Nat, i ≤ j → (1 + relErr F) ^ i ≤ (1 + relErr F) ^ j := fun i j h => pow_le_pow_right₀ (by linarith) h
  obtain ⟨u, x, eu, ex, hx, vx, cx, fx⟩ := sub_unit_exact hF p h2 hN g d hg hv h1
  have hB : 0 ≤ B := (Finset.sum_nonneg fun k _ => abs_nonneg _).trans (hS [] valid_nil (Nat.zero_le _))
  have hS' : ∀ v, ValidWord N v → v.length ≤ n → conv (magFn F N x) (fun _ => 1) v ≤ B := by
    intro v hv hl
    refine (conv_prefix (fval F N x) v).le.trans ?_
    rw [cx]
    exact hS v hv hl
  obtain ⟨q, dq, eq, hdq, nq, fq⟩ := logHorner_near hF p h2 hN n D hn hp x d hd hx vx B hB hS' (D - 1) (by omega)
  have nx := near_self (F := F) n x d hx vx
  obtain ⟨r, er, nr, fr⟩ := near_mul (fmt_ok' hF) p h2 n D hn hp nx nq (by omega)
  have hsum : ∀ w, ∑ k ∈ Finset.Ico 1 (D + 1), (k : Rat)⁻¹ * (absW (fval F N g - 1) ^ k) w =
      (∑ k ∈ Finset.Ico 1 (D + 1), ((k : Rat)⁻¹) • absW (fval F N g - 1) ^ k) w := by
    intro w
    rw [WordFn.sum_apply]
    rfl
  have hMl : ∀ w, conv (magFn F N x) (logFn D (D - 1) (-absW (fval F N x))) w = (∑ k ∈ Finset.Ico 1 (D + 1), ((k : Rat)⁻¹) • absW (fval F N g - 1) ^ k) w := by
    intro w
    rw [← hsum, ← cx]
    exact logTo_neg_apply D hD (absW (fval F N x)) w
  have hM0 : ∀ w, 0 ≤ conv (magFn F N x) (logFn D (D - 1) (-absW (fval F N x))) w := fun w => (conv_mono (f' := magFn F N x) (g' := logFn D (D - 1) (-absW (fval F N x))) w
    (fun u => ⟨abs_nonneg _, le_refl _⟩) (fun u => ⟨(logFn_abs D (D - 1) (by omega) (fval F N x) u).1, le_refl _⟩)).1
  have hb : ∑ i ∈ Finset.range (D + 1), B ^ i = 1 + B * ∑ i ∈ Finset.range (D - 1 + 1), B ^ i := by
    rw [show D - 1 + 1 = D by omega, Finset.sum_range_succ', Finset.mul_sum, pow_zero, add_comm]
    congr 1
    exact Finset.sum_congr rfl fun i _ => pow_succ' B i
  have b0 : 0 ≤ ∑ i ∈ Finset.range (D - 1 + 1), B ^ i := Finset.sum_nonneg fun i _ => pow_nonneg hB i
  have hT : ∀ w, ValidWord N w → w.length ≤ n → (1 + relErr F) ^ (w.length + 2) * conv (magFn F N x) (fun v => (1 + relErr F) ^ ((D - 1) * (n + 3) + 1) *
        (logFn D (D - 1) (-absW (fval F N x)) v + (n + 2) * absErr F * ∑ i ∈ Finset.range (D - 1 + 1), B ^ i)) w +
      ((w.length + 1 : Nat) : Rat) * (1 + relErr F) ^ (w.length + 1) * absErr F ≤
      (1 + relErr F) ^ (D * (n + 3)) * ((∑ k ∈ Finset.Ico 1 (D + 1), ((k : Rat)⁻¹) • absW (fval F N g - 1) ^ k) w + (n + 2) * absErr F * ∑ k ∈ Finset.range (D + 1), B ^ k) := by
    intro w hw hl
    refine (mul_bound F n _ _ _ _ B w b0 hB (hM0 w) (hS' w hw hl) hl).trans ?_
    have hK : (D - 1) * (n + 3) + 1 + n + 2 = D * (n + 3) := by
      obtain ⟨e, rfl⟩ : ∃ e, D = e + 1 := ⟨D - 1, by omega⟩
      rw [Nat.add_sub_cancel]
      ring
    have c3 : (n + 1) * (1 + relErr F) ^ (n + 1) * absErr F ≤ (1 + relErr F) ^ (D * (n + 3)) * ((n + 2) * absErr F) := by
      calc _ = (1 + relErr F) ^ (n + 1) * ((n + 1) * absErr F) := by ring
        _ ≤ _ := mul_le_mul (hpow _ _ (by rw [← hK]; omega)) (by linarith) (by positivity) (by positivity)
    rw [hK, hMl, hb]
    linarith
  refine ⟨r, _, ?_, ?_, nr.full, fun w hw hl hf => ?_, fun fg hr => ?_⟩
  · unfold tensorLog
    rw [eu, Res.bind_ok, ex, Res.bind_ok, eq, Res.bind_ok, er]
  · omega
  · have h := nr.err w hw hl hf
    have hV : conv (valFn F N x) (logFn D (D - 1) (fval F N x)) w = (∑ k ∈ Finset.Ico 1 (D + 1), ((-1) ^ (k + 1) * (k : Rat)⁻¹) • (fval F N g - 1) ^ k) w := by
      have : conv (valFn F N x) (logFn D (D - 1) (fval F N x)) w = (fval F N x * logPart (S := Rat) D (D - 1) (fval F N x)) w := rfl
      rw [this, logPart_all D hD, cx]
      rfl
    rw [hV, hMl] at h
    linarith [hT w hw hl]
  · have hr' : ∀ v, ValidWord N v → v.length ≤ n → (1 + relErr F) ^ (D * (n + 3)) *
        (unitFn v + ∑ k ∈ Finset.Ico 1 (D + 1), (k : Rat)⁻¹ * (absW (fval F N x) ^ k) v + (n + 2) * absErr F * ∑ i ∈ Finset.range (D + 1), B ^ i) ≤ maxNum F := by
      intro v hv hl
      rw [cx, hsum]
      exact hr v hv hl
    refine fr (fx n fg) (fq (fx n fg) hr') fun w hw hl => (hT w hw hl).trans (le_trans ?_ (hr w hw hl))
    refine mul_le_mul_of_nonneg_left ?_ (by positivity)
    have : (0 : Rat) ≤ if w = [] then 1 else 0 := by split_ifs <;> norm_num
    linarith

/-- C89.  The logarithm of a tensor of floating-point numbers with constant term one returns, and every finite coefficient is within a multiple of the magnitude of
the series, and a term of the order of the least positive number, of the coefficient of `y - y^2/2 + ... ± y^D/D`, `y = g - 1`. -/
theorem C89_log_accuracy (hF : F = .f32 ∨ F = .f64) (h2 : 2 ≤ N) (hN : N < 2 ^ 32) (D : Nat) (hD : 1 ≤ D) (hp : N ^ (D + 1) < 2 ^ 64) (g : Dense Fl) (d : Nat) (hd : 1 ≤ d)
    (hg : FullTo N g d) (hv : ∀ y ∈ g.data, y.Valid F) (h1 : (coef (floatCoeff F) N g []).val = 1) :
    ∃ r, tensorLog (floatCoeff F) p N D g = .ok r ∧ ∀ w, ValidWord N w → w.length ≤ D → (coef (floatCoeff F) N r w).isFin = true →
      ∀ B : Rat, (∀ v, ValidWord N v → v.length ≤ w.length → ∑ k ∈ Finset.range (v.length + 1), |(fval F N g - 1) (v.take k)| ≤ B) →
      |(coef (floatCoeff F) N r w).val - (∑ k ∈ Finset.Ico 1 (D + 1), ((-1) ^ (k + 1) * (k : Rat)⁻¹) • (fval F N g - 1) ^ k) w| ≤
        ((1 + relErr F) ^ (D * (w.length + 3)) - 1) * (∑ k ∈ Finset.Ico 1 (D + 1), ((k : Rat)⁻¹) • absW (fval F N g - 1) ^ k) w +
          (1 + relErr F) ^ (D * (w.length + 3)) * ((w.length + 2) * absErr F * ∑ k ∈ Finset.range (D + 1), B ^ k) := by
  obtain ⟨r, _, er, _⟩ := tensorLog_near F p N hF h2 hN 0 D (Nat.zero_le _) hD hp g d hd hg hv h1 |(fval F N g - 1) []| (fun v _ hl => by
    rw [List.length_eq_zero_iff.1 (Nat.le_zero.1 hl)]
    simp)
  refine ⟨r, er, fun w hw hl hf B hS => ?_⟩
  obtain ⟨r', _, er', _, _, nr, _⟩ := tensorLog_near F p N hF h2 hN w.length D hl hD hp g d hd hg hv h1 B hS
  cases er'.symm.trans er
  exact nr w hw le_rfl hf

/-- C89.  No coefficient of the logarithm overflows when there is room for the magnitude of the series. -/
theorem C89_log_finite (hF : F = .f32 ∨ F = .f64) (h2 : 2 ≤ N) (hN : N < 2 ^ 32) (D : Nat) (hD : 1 ≤ D) (hp : N ^ (D + 1) < 2 ^ 64) (g : Dense Fl) (d : Nat) (hd : 1 ≤ d)
    (hg : FullTo N g d) (hv : ∀ y ∈ g.data, y.Valid F) (h1 : (coef (floatCoeff F) N g []).val = 1) (hfin : ∀ y ∈ g.data, y.isFin = true) (B : Rat)
    (hS : ∀ v, ValidWord N v → v.length ≤ D → ∑ k ∈ Finset.range (v.length + 1), |(fval F N g - 1) (v.take k)| ≤ B)
    (hroom : ∀ w, ValidWord N w → w.length ≤ D → (1 + relErr F) ^ (D * (D + 3)) * ((if w = [] then 1 else 0) +
      (∑ k ∈ Finset.Ico 1 (D + 1), ((k : Rat)⁻¹) • absW (fval F N g - 1) ^ k) w + (D + 2) * absErr F * ∑ k ∈ Finset.range (D + 1), B ^ k) ≤ maxNum F) :
    ∃ r, tensorLog (floatCoeff F) p N D g = .ok r ∧ ∀ w, ValidWord N w → (coef (floatCoeff F) N r w).isFin = true := by
  obtain ⟨r, dr, er, hdr, hr, _, fr⟩ := tensorLog_near F p N hF h2 hN D D le_rfl hD hp g d hd hg hv h1 B hS
  refine ⟨r, er, fun w hw => ?_⟩
  by_cases hl : w.length ≤ D
  · exact fr (finTo_of D g hfin) hroom w hw hl
  · rw [coef_beyond hr w hw (by omega)]
    rfl

end

/-! ## Concrete cases -/

/-- The increment `3 e_1 - 7 e_2`. -/
def exInc : Dense Fl := .ofVec [.zero false, .fin 3, .fin (-7)]

theorem exInc_ok : FullTo 2 exInc 1 ∧ (∀ y ∈ exInc.data, y.Valid .f32) ∧ (∀ y ∈ exInc.data, y.isFin = true) ∧ (coef (floatCoeff .f32) 2 exInc []).val = 0 ∧
    ∀ l, 1 ≤ l → l ≤ 2 → |(coef (floatCoeff .f32) 2 exInc [l]).val| ≤ 7 := by
  refine ⟨⟨rfl, by decide⟩, ?_, ?_, rfl, ?_⟩
  · intro y hy
    simp only [exInc, Dense.ofVec, List.mem_cons, List.not_mem_nil, or_false] at hy
    rcases hy with rfl | rfl | rfl
    · trivial
    · exact ⟨by norm_num, 3, 0, by decide, by decide, by decide, by norm_num⟩
    · exact ⟨by norm_num, -7, 0, by decide, by decide, by decide, by norm_num⟩
  · intro y hy
    simp only [exInc, Dense.ofVec, List.mem_cons, List.not_mem_nil, or_false] at hy
    rcases hy with rfl | rfl | rfl <;> rfl
  · intro l h1 h2
    obtain rfl | rfl : l = 1 ∨ l = 2 := by omega
    · norm_num [coef, stored, exInc, Dense.ofVec, wordIndex, Fl.val, geomSum]
    · norm_num [coef, stored, exInc, Dense.ofVec, wordIndex, Fl.val, geomSum]

/-- C89 on `3 e_1 - 7 e_2` in `f32` up to degree three: the coefficient at `12` is finite and within `1.1e-6` relative of `-21/2`. -/
example : ∃ r, tensorExp (floatCoeff .f32) .release 2 3 exInc = .ok r ∧ (coef (floatCoeff .f32) 2 r [1, 2]).isFin = true ∧
    |(coef (floatCoeff .f32) 2 r [1, 2]).val - (-21 / 2)| ≤ 12 / 1000000 := by
  obtain ⟨e1, e2, e3, e4, e5⟩ := exInc_ok
  obtain ⟨r, er, h⟩ := C89_exp_linear .f32 .release 2 (.inl rfl) (by omega) (by omega) 3 (by decide) exInc e1 e2 e4 7 e5
  obtain ⟨r', er', h'⟩ := C89_exp_linear_finite .f32 .release 2 (.inl rfl) (by omega) (by omega) 3 (by decide) exInc e1 e2 e3 e4 7 e5 (by
    rw [ex_errs.1, ex_errs.2]
    norm_num [maxNum, FloatFmt.f32, Finset.sum_range_succ, Nat.factorial])
  cases er'.symm.trans er
  have hw : ValidWord 2 [1, 2] := by decide
  refine ⟨r, er, h' _ hw, ?_⟩
  have := h [1, 2] hw (by decide) (h' _ hw)
  have e : ([1, 2].map fun l => (coef (floatCoeff .f32) 2 exInc [l]).val).prod / ([1, 2] : List Nat).length.factorial = -21 / 2 := by
    norm_num [coef, stored, exInc, Dense.ofVec, wordIndex, Fl.val, geomSum, Nat.factorial]
  rw [e, ex_errs.1, ex_errs.2] at this
  refine this.trans ?_
  norm_num [Finset.sum_range_succ, Nat.factorial, abs_of_nonneg]

/-- `1 + 2 e_1 - 3 e_2`. -/
def exGrp : Dense Fl := .ofVec [.fin 1, .fin 2, .fin (-3)]

theorem exGrp_run : (match tensorLog (floatCoeff .f32) .debug 2 3 exGrp with | .ok r => (coef (floatCoeff .f32) 2 r [1, 1, 1]) | _ => .nan) = .fin (11184811 / 4194304) := by
  decide +kernel

theorem exGrp_val (w : List Nat) : (fval .f32 2 exGrp - 1) w = if w = [1] then 2 else if w = [2] then -3 else 0 := by
  rw [WordFn.sub_apply, WordFn.one_apply]
  by_cases hv : ValidWord 2 w
  · rw [fval_word exGrp w hv]
    match w with
    | [] => norm_num [coef, stored, exGrp, Dense.ofVec, wordIndex, Fl.val, geomSum]
    | [l] =>
      obtain ⟨h1, h2⟩ := hv l (by simp)
      obtain rfl | rfl : l = 1 ∨ l = 2 := by omega
      · norm_num [coef, stored, exGrp, Dense.ofVec, wordIndex, Fl.val, geomSum]
      · norm_num [coef, stored, exGrp, Dense.ofVec, wordIndex, Fl.val, geomSum]
    | l :: m :: w =>
      rw [coef_beyond (d := 1) ⟨rfl, by decide⟩ _ hv (by simp)]
      simp [Fl.val]
  · unfold fval
    rw [if_neg hv, if_neg, if_neg, if_neg, sub_zero]
    all_goals
      rintro rfl
      exact hv (by decide)

/-- C89 on `1 + 2 e_1 - 3 e_2` in `f32` up to degree three: the coefficient of the logarithm at `111` is within `3e-6` of `8/3`, and not equal to it. -/
example : ∃ r, tensorLog (floatCoeff .f32) .debug 2 3 exGrp = .ok r ∧ |(coef (floatCoeff .f32) 2 r [1, 1, 1]).val - 8 / 3| ≤ 3 / 1000000 ∧
    (coef (floatCoeff .f32) 2 r [1, 1, 1]).val ≠ 8 / 3 := by
  have hX : ∀ w : List Nat, w.length ≠ 1 → (fval .f32 2 exGrp - 1) w = 0 := by
    intro w hw
    rw [exGrp_val, if_neg (by rintro rfl; simp at hw), if_neg (by rintro rfl; simp at hw)]
  obtain ⟨r, er, h⟩ := C89_log_accuracy .f32 .debug 2 (.inl rfl) (by omega) (by omega) 3 (by omega) (by decide) exGrp 1 le_rfl ⟨rfl, by decide⟩ (by
    intro y hy
    simp only [exGrp, Dense.ofVec, List.mem_cons, List.not_mem_nil, or_false] at hy
    rcases hy with rfl | rfl | rfl
    · exact ⟨by norm_num, 1, 0, by decide, by decide, by decide, by norm_num⟩
    · exact ⟨by norm_num, 2, 0, by decide, by decide, by decide, by norm_num⟩
    · exact ⟨by norm_num, -3, 0, by decide, by decide, by decide, by norm_num⟩) (by rfl)
  have hrun := exGrp_run
  rw [er] at hrun
  have hrun' : coef (floatCoeff .f32) 2 r [1, 1, 1] = .fin (11184811 / 4194304) := hrun
  have := h [1, 1, 1] (by decide) (by decide) (by rw [hrun']; rfl) 3 fun v hv _ => prefix_linear 2 _ hX 3 (by norm_num) (fun l h1 h2 => by
    rw [exGrp_val]
    obtain rfl | rfl : l = 1 ∨ l = 2 := by omega
    · norm_num
    · norm_num) v hv
  have hs : ∀ (Y : WordFn Rat) (c : Nat → Rat), (∀ w : List Nat, w.length ≠ 1 → Y w = 0) → (∑ k ∈ Finset.Ico 1 (3 + 1), c k • Y ^ k) [1, 1, 1] = c 3 * (Y [1] * (Y [1] * Y [1])) := by
    intro Y c hY
    rw [WordFn.sum_apply, Finset.sum_eq_single 3]
    · rw [WordFn.smul_apply, pow_linear Y hY]
      simp
    · intro k _ hk
      rw [WordFn.smul_apply, pow_linear Y hY, if_neg (fun h => hk (by simpa using h.symm)), mul_zero]
    · intro hk
      simp at hk
  refine ⟨r, er, ?_, ?_⟩
  · rw [hs _ (fun k => (-1) ^ (k + 1) * (k : Rat)⁻¹) hX, hs _ (fun k => (k : Rat)⁻¹) (abs_linear _ hX), exGrp_val, absW, exGrp_val, ex_errs.1, ex_errs.2] at this
    rw [if_pos rfl] at this
    norm_num [Finset.sum_range_succ] at this ⊢
    linarith
  · rw [hrun']
    norm_num [Fl.val]

end RA
