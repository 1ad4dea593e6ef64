import Verif.SpecError
import Verif.Props.Expr
import Verif.Props.FloatCommutator

/-!
# Expressions of tensors of floating-point numbers (C80)
-/

namespace RA
open Spec TensorKey TensorBasis DenseAlg

/-! ## Magnitudes -/

theorem conv_mono {f f' g g' : List Nat → Rat} (w : List Nat) (hf : ∀ u, 0 ≤ f u ∧ f u ≤ f' u) (hg : ∀ u, 0 ≤ g u ∧ g u ≤ g' u) :
    0 ≤ conv f g w ∧ conv f g w ≤ conv f' g' w := by
  induction w generalizing f f' with
  | nil => exact ⟨mul_nonneg (hf _).1 (hg _).1, mul_le_mul (hf _).2 (hg _).2 (hg _).1 ((hf _).1.trans (hf _).2)⟩
  | cons l w ih =>
    obtain ⟨i1, i2⟩ := ih (f := fun u => f (l :: u)) (f' := fun u => f' (l :: u)) (fun u => hf _)
    exact ⟨add_nonneg (mul_nonneg (hf _).1 (hg _).1) i1, add_le_add (mul_le_mul (hf _).2 (hg _).2 (hg _).1 ((hf _).1.trans (hf _).2)) i2⟩

/-- A bound on the error of each term of a product bounds the error of the product. -/
theorem conv_err {x y V W T T' M M' : List Nat → Rat} (w : List Nat)
    (h : ∀ u v, u ++ v = w → |x u * y v - V u * W v| ≤ T u * T' v - M u * M' v) :
    |conv x y w - conv V W w| ≤ conv T T' w - conv M M' w := by
  induction w generalizing x V T M with
  | nil => exact h [] [] rfl
  | cons l w ih =>
    have h1 := h [] (l :: w) rfl
    have h2 := ih (x := fun u => x (l :: u)) (V := fun u => V (l :: u)) (T := fun u => T (l :: u)) (M := fun u => M (l :: u))
      (fun u v huv => h (l :: u) v (by simp [huv]))
    simp only [conv]
    rw [show x [] * y (l :: w) + conv (fun u => x (l :: u)) y w - (V [] * W (l :: w) + conv (fun u => V (l :: u)) W w) =
      (x [] * y (l :: w) - V [] * W (l :: w)) + (conv (fun u => x (l :: u)) y w - conv (fun u => V (l :: u)) W w) by ring]
    exact (abs_add_le _ _).trans (by linarith)

theorem conv_abs_le {f g : List Nat → Rat} (w : List Nat) : |conv f g w| ≤ conv (fun u => |f u|) (fun u => |g u|) w := by
  induction w generalizing f with
  | nil => exact (abs_mul _ _).le
  | cons l w ih =>
    refine (abs_add_le _ _).trans (add_le_add (abs_mul _ _).le ?_)
    exact ih

theorem inflate_mono (u η : Rat) (hu : 0 ≤ u) (hη : 0 ≤ η) (e : TExpr Rat) (w : List Nat) :
    0 ≤ e.inflate 0 0 w ∧ e.inflate 0 0 w ≤ e.inflate u η w := by
  have hp : ∀ k : Nat, (1 : Rat) ≤ (1 + u) ^ k := fun k => one_le_pow₀ (by linarith)
  induction e generalizing w with
  | term v s =>
    show 0 ≤ (if w = v then |s| else 0) ∧ (if w = v then |s| else 0) ≤ (if w = v then |s| else 0)
    split_ifs
    · exact ⟨abs_nonneg s, le_refl _⟩
    · exact ⟨le_refl _, le_refl _⟩
  | add a b iha ihb | sub a b iha ihb =>
    obtain ⟨a1, a2⟩ := iha w
    obtain ⟨b1, b2⟩ := ihb w
    simp only [TExpr.inflate]
    constructor
    · linarith
    · have := mul_nonneg hu (add_nonneg (a1.trans a2) (b1.trans b2))
      linarith
  | neg a ih => exact ih w
  | smul s a ih =>
    obtain ⟨a1, a2⟩ := ih w
    have h1 := mul_nonneg (abs_nonneg s) a1
    have h2 := mul_le_mul_of_nonneg_left a2 (abs_nonneg s)
    have h3 := mul_nonneg hu (h1.trans h2)
    simp only [TExpr.inflate]
    constructor
    · linarith
    · linarith
  | mul a b iha ihb =>
    obtain ⟨c1, c2⟩ := conv_mono w iha ihb
    have h1 := mul_le_mul_of_nonneg_right (hp (w.length + 1 + 1)) (c1.trans c2)
    have h2 : 0 ≤ ((w.length + 1 : Nat) : Rat) * (1 + u) ^ (w.length + 1) * η := by positivity
    have h0 : (1 + (0 : Rat)) ^ (w.length + 1 + 1) * conv (a.inflate 0 0) (b.inflate 0 0) w + ((w.length + 1 : Nat) : Rat) * (1 + 0) ^ (w.length + 1) * 0 =
      conv (a.inflate 0 0) (b.inflate 0 0) w := by simp
    simp only [TExpr.inflate]
    rw [h0]
    exact ⟨c1, by linarith⟩
  | comm a b iha ihb =>
    obtain ⟨c1, c2⟩ := conv_mono w iha ihb
    obtain ⟨d1, d2⟩ := conv_mono w ihb iha
    have h1 := mul_le_mul_of_nonneg_right (hp (2 * (w.length + 1) + 1)) (add_nonneg (c1.trans c2) (d1.trans d2))
    have h2 : 0 ≤ ((2 * (w.length + 1) : Nat) : Rat) * (1 + u) ^ (2 * (w.length + 1)) * η := by positivity
    have h0 : (1 + (0 : Rat)) ^ (2 * (w.length + 1) + 1) * (conv (a.inflate 0 0) (b.inflate 0 0) w + conv (b.inflate 0 0) (a.inflate 0 0) w) +
        ((2 * (w.length + 1) : Nat) : Rat) * (1 + 0) ^ (2 * (w.length + 1)) * 0 =
      conv (a.inflate 0 0) (b.inflate 0 0) w + conv (b.inflate 0 0) (a.inflate 0 0) w := by simp
    simp only [TExpr.inflate]
    rw [h0]
    exact ⟨by linarith, by linarith⟩

theorem inflate_zero_mul (a b : TExpr Rat) (w : List Nat) : (TExpr.mul a b).inflate 0 0 w = conv (a.inflate 0 0) (b.inflate 0 0) w := by
  simp [TExpr.inflate]

theorem inflate_zero_comm (a b : TExpr Rat) (w : List Nat) :
    (TExpr.comm a b).inflate 0 0 w = conv (a.inflate 0 0) (b.inflate 0 0) w + conv (b.inflate 0 0) (a.inflate 0 0) w := by
  simp [TExpr.inflate]

theorem value_le (e : TExpr Rat) (w : List Nat) : |e.value w| ≤ e.inflate 0 0 w := by
  have hc : ∀ a b : TExpr Rat, (∀ w, |a.value w| ≤ a.inflate 0 0 w) → (∀ w, |b.value w| ≤ b.inflate 0 0 w) → ∀ w,
      |conv a.value b.value w| ≤ conv (a.inflate 0 0) (b.inflate 0 0) w := fun a b ha hb w =>
    (conv_abs_le w).trans (conv_mono w (fun u => ⟨abs_nonneg _, ha u⟩) (fun u => ⟨abs_nonneg _, hb u⟩)).2
  induction e generalizing w with
  | term v s =>
    show |if w = v then s else 0| ≤ (if w = v then |s| else 0)
    split_ifs
    · exact le_refl _
    · simp
  | add a b iha ihb =>
    simp only [TExpr.inflate, TExpr.value]
    have := abs_add_le (a.value w) (b.value w)
    linarith [iha w, ihb w]
  | sub a b iha ihb =>
    simp only [TExpr.inflate, TExpr.value]
    have := abs_sub (a.value w) (b.value w)
    linarith [iha w, ihb w]
  | neg a ih =>
    simp only [TExpr.inflate, TExpr.value]
    rw [abs_neg]
    exact ih w
  | smul s a ih =>
    simp only [TExpr.inflate, TExpr.value]
    rw [abs_mul]
    have := mul_le_mul_of_nonneg_left (ih w) (abs_nonneg s)
    linarith
  | mul a b iha ihb =>
    rw [inflate_zero_mul]
    exact hc a b iha ihb w
  | comm a b iha ihb =>
    rw [inflate_zero_comm]
    refine (abs_sub _ _).trans (add_le_add (hc a b iha ihb w) (hc b a ihb iha w))

/-- The value of an expression vanishes beyond its degree. -/
theorem value_beyond (N D : Nat) (e : TExpr Rat) (h : e.Words N D) (w : List Nat) (hl : w.length ≤ D) (hd : e.deg D < w.length) : e.value w = 0 := by
  have hc : ∀ a b : TExpr Rat, (∀ w : List Nat, w.length ≤ D → a.deg D < w.length → a.value w = 0) →
      (∀ w : List Nat, w.length ≤ D → b.deg D < w.length → b.value w = 0) → ∀ w : List Nat, w.length ≤ D → min D (a.deg D + b.deg D) < w.length →
      conv a.value b.value w = 0 := by
    intro a b ha hb w hl hd
    rw [conv_eq_sum]
    apply List.sum_eq_zero
    intro x hx
    obtain ⟨k, hk, rfl⟩ := List.mem_map.1 hx
    rw [List.mem_range] at hk
    by_cases hka : a.deg D < k
    · rw [ha _ (by simp; omega) (by simp; omega), zero_mul]
    · rw [hb _ (by simp; omega) (by simp; omega), mul_zero]
  induction e generalizing w with
  | term v s =>
    have : v.length < w.length := hd
    show (if w = v then s else 0) = 0
    rw [if_neg]
    rintro rfl
    omega
  | add a b iha ihb =>
    have h' : max (a.deg D) (b.deg D) < w.length := hd
    show a.value w + b.value w = 0
    rw [iha h.1 w hl (by omega), ihb h.2 w hl (by omega), add_zero]
  | sub a b iha ihb =>
    have h' : max (a.deg D) (b.deg D) < w.length := hd
    show a.value w - b.value w = 0
    rw [iha h.1 w hl (by omega), ihb h.2 w hl (by omega), sub_zero]
  | neg a ih => show - a.value w = 0; rw [ih h w hl hd, neg_zero]
  | smul s a ih => show s * a.value w = 0; rw [ih h w hl hd, mul_zero]
  | mul a b iha ihb => exact hc a b (iha h.1) (ihb h.2) w hl hd
  | comm a b iha ihb =>
    show conv a.value b.value w - conv b.value a.value w = 0
    have hd' : min D (a.deg D + b.deg D) < w.length := hd
    rw [hc a b (iha h.1) (ihb h.2) w hl hd, hc b a (ihb h.2) (iha h.1) w hl (by omega), sub_zero]

/-- Without underflow the magnitudes grow by `1 + u` per rounding. -/
theorem inflate_le_pow (u : Rat) (hu : 0 ≤ u) (e : TExpr Rat) (n : Nat) (w : List Nat) (hw : w.length ≤ n) :
    e.inflate u 0 w ≤ (1 + u) ^ e.roundings n * e.inflate 0 0 w := by
  have h1 : (1 : Rat) ≤ 1 + u := by linarith
  have hpow : ∀ i j : Nat, i ≤ j → (1 + u) ^ i ≤ (1 + u) ^ j := fun i j h => pow_le_pow_right₀ h1 h
  have hc : ∀ a b : TExpr Rat, (∀ w : List Nat, w.length ≤ n → a.inflate u 0 w ≤ (1 + u) ^ a.roundings n * a.inflate 0 0 w) →
      (∀ w : List Nat, w.length ≤ n → b.inflate u 0 w ≤ (1 + u) ^ b.roundings n * b.inflate 0 0 w) → ∀ w : List Nat, w.length ≤ n →
      conv (a.inflate u 0) (b.inflate u 0) w ≤ (1 + u) ^ (a.roundings n + b.roundings n) * conv (a.inflate 0 0) (b.inflate 0 0) w := by
    intro a b ha hb w hw
    have e1 : conv (a.inflate u 0) (b.inflate u 0) w = conv (fun v => if v.length ≤ n then a.inflate u 0 v else 0)
        (fun v => if v.length ≤ n then b.inflate u 0 v else 0) w :=
      conv_congr w (fun v hv => by rw [if_pos (by omega)]) (fun v hv => by rw [if_pos (by omega)])
    rw [e1]
    refine (conv_mono (f' := fun v => (1 + u) ^ a.roundings n * a.inflate 0 0 v) (g' := fun v => (1 + u) ^ b.roundings n * b.inflate 0 0 v) w ?_ ?_).2.trans ?_
    · intro v
      have := inflate_mono u 0 hu (le_refl _) a v
      split_ifs with h
      · exact ⟨this.1.trans this.2, ha v h⟩
      · exact ⟨le_refl _, mul_nonneg (by positivity) this.1⟩
    · intro v
      have := inflate_mono u 0 hu (le_refl _) b v
      split_ifs with h
      · exact ⟨this.1.trans this.2, hb v h⟩
      · exact ⟨le_refl _, mul_nonneg (by positivity) this.1⟩
    · rw [conv_smul_left, conv_smul_right, ← mul_assoc, pow_add]
  have hnn : ∀ (e : TExpr Rat) w, 0 ≤ e.inflate 0 0 w := fun e w => (inflate_mono 0 0 (le_refl _) (le_refl _) e w).1
  have hcn : ∀ (a b : TExpr Rat) w, 0 ≤ conv (a.inflate 0 0) (b.inflate 0 0) w := fun a b w => by
    rw [← inflate_zero_mul]; exact hnn _ w
  have hadd : ∀ (a b : TExpr Rat) (w : List Nat), a.inflate u 0 w ≤ (1 + u) ^ a.roundings n * a.inflate 0 0 w → b.inflate u 0 w ≤ (1 + u) ^ b.roundings n * b.inflate 0 0 w →
      (1 + u) * (a.inflate u 0 w + b.inflate u 0 w) ≤ (1 + u) ^ (max (a.roundings n) (b.roundings n) + 1) * ((1 + 0) * (a.inflate 0 0 w + b.inflate 0 0 w)) := by
    intro a b w ha hb
    have ea := ha.trans (mul_le_mul_of_nonneg_right (hpow _ _ (le_max_left (a.roundings n) (b.roundings n))) (hnn a w))
    have eb := hb.trans (mul_le_mul_of_nonneg_right (hpow _ _ (le_max_right (a.roundings n) (b.roundings n))) (hnn b w))
    rw [pow_succ', add_zero, one_mul, mul_assoc]
    exact mul_le_mul_of_nonneg_left (by linarith) (by linarith)
  induction e generalizing w with
  | term v s => simp [TExpr.inflate, TExpr.roundings]
  | add a b iha ihb => exact hadd a b w (iha w hw) (ihb w hw)
  | sub a b iha ihb => exact hadd a b w (iha w hw) (ihb w hw)
  | neg a ih => exact ih w hw
  | smul s a ih =>
    have h := mul_le_mul_of_nonneg_left (ih w hw) (mul_nonneg (show 0 ≤ 1 + u by linarith) (abs_nonneg s))
    simp only [TExpr.inflate, TExpr.roundings]
    rw [pow_succ]
    calc _ = (1 + u) * |s| * a.inflate u 0 w := by ring
      _ ≤ _ := h
      _ = _ := by ring
  | mul a b iha ihb =>
    rw [inflate_zero_mul]
    simp only [TExpr.inflate, TExpr.roundings, mul_zero, add_zero]
    have h := mul_le_mul_of_nonneg_left (hc a b iha ihb w hw) (show 0 ≤ (1 + u) ^ (w.length + 1 + 1) by positivity)
    refine h.trans ?_
    rw [← mul_assoc, ← pow_add]
    exact mul_le_mul_of_nonneg_right (hpow _ _ (by omega)) (hcn a b w)
  | comm a b iha ihb =>
    rw [inflate_zero_comm]
    simp only [TExpr.inflate, TExpr.roundings, mul_zero, add_zero]
    have h3 := hc b a ihb iha w hw
    rw [Nat.add_comm (b.roundings n)] at h3
    have h := mul_le_mul_of_nonneg_left (add_le_add (hc a b iha ihb w hw) h3) (show 0 ≤ (1 + u) ^ (2 * (w.length + 1) + 1) by positivity)
    refine h.trans ?_
    rw [← mul_add, ← mul_assoc, ← pow_add]
    exact mul_le_mul_of_nonneg_right (hpow _ _ (by omega)) (add_nonneg (hcn a b w) (hcn b a w))

/-! ## The operations of vectors of floating-point numbers -/

theorem add_zero_left_val (F : FloatFmt) (hF : Fl.Ok F) (y : Fl) (hy : y.Valid F) (fy : y.isFin = true) :
    (Fl.add F (.zero false) y).isFin = true ∧ (Fl.add F (.zero false) y).val = y.val := by
  cases y with
  | nan => cases fy
  | inf s => cases fy
  | zero s => exact ⟨rfl, rfl⟩
  | fin q =>
    have h : Fl.add F (.zero false) (.fin q) = Fl.round F false (0 + q) := rfl
    rw [h, zero_add, round_num F hF _ q hy.1 hy.2]
    exact ⟨rfl, rfl⟩

section
variable (F : FloatFmt) (p : Profile) (N : Nat)

/-- Every coefficient of a sum is the rounded sum of the coefficients, or a copy where the other vector stores none. -/
theorem fl_add (hF : Fl.Ok F) (a b : Dense Fl) (hva : ∀ x ∈ a.data, x.Valid F) (hvb : ∀ x ∈ b.data, x.Valid F) :
    ∃ r, (DenseAlg.ops (floatCoeff F) p N).add a b = .ok r ∧ r.size = max a.size b.size ∧ (∀ x ∈ r.data, x.Valid F) ∧
      ∀ w, (coef (floatCoeff F) N r w = Fl.add F (coef (floatCoeff F) N a w) (coef (floatCoeff F) N b w) ∨
        (coef (floatCoeff F) N r w = coef (floatCoeff F) N a w ∧ coef (floatCoeff F) N b w = .zero false)) := by
  obtain ⟨r, h1, h3⟩ := Dense.addInplace_data (floatCoeff F) (Dense.ofVec a.data) b
  have hr : ∀ i : Nat, r.data[i]? = match a.data[i]?, b.data[i]? with
      | some x, some y => some (Fl.add F x y)
      | some x, none => some x
      | none, some y => some (Fl.add F (.zero false) y)
      | none, none => none := fun i => by
    rw [h3, Dense.combine_getElem?, Dense.ofVec_data]
    cases a.data[i]? <;> cases b.data[i]? <;> rfl
  refine ⟨r, h1, ?_, fun x hx => ?_, fun w => ?_⟩
  · unfold Dense.size
    rw [h3, Dense.combine_length]
    rfl
  · obtain ⟨i, hi⟩ := List.getElem?_of_mem hx
    rw [hr] at hi
    have ha := fun y (h : a.data[i]? = some y) => hva y (List.mem_of_getElem? h)
    have hb := fun y (h : b.data[i]? = some y) => hvb y (List.mem_of_getElem? h)
    revert hi ha hb
    cases a.data[i]? <;> cases b.data[i]? <;> intro hi ha hb <;> simp only [Option.some.injEq, reduceCtorEq] at hi
    · rw [← hi]; exact add_valid F hF _ _ trivial (hb _ rfl)
    · rw [← hi]; exact ha _ rfl
    · rw [← hi]; exact add_valid F hF _ _ (ha _ rfl) (hb _ rfl)
  · unfold coef stored
    rw [hr]
    cases a.data[wordIndex N w]? <;> cases b.data[wordIndex N w]?
    · exact .inr ⟨rfl, rfl⟩
    · exact .inl rfl
    · exact .inr ⟨rfl, rfl⟩
    · exact .inl rfl

theorem fl_sub (hF : Fl.Ok F) (a b : Dense Fl) (hva : ∀ x ∈ a.data, x.Valid F) (hvb : ∀ x ∈ b.data, x.Valid F) :
    ∃ r, (DenseAlg.ops (floatCoeff F) p N).sub a b = .ok r ∧ r.size = max a.size b.size ∧ (∀ x ∈ r.data, x.Valid F) ∧
      ∀ w, (coef (floatCoeff F) N r w = Fl.add F (coef (floatCoeff F) N a w) (Fl.neg (coef (floatCoeff F) N b w)) ∨
        (coef (floatCoeff F) N r w = coef (floatCoeff F) N a w ∧ coef (floatCoeff F) N b w = .zero false)) := by
  obtain ⟨r, h1, h3⟩ := Dense.subInplace_data (floatCoeff F) (Dense.ofVec a.data) b
  have hr : ∀ i : Nat, r.data[i]? = match a.data[i]?, b.data[i]? with
      | some x, some y => some (Fl.add F x (Fl.neg y))
      | some x, none => some x
      | none, some y => some (Fl.add F (.zero false) (Fl.neg y))
      | none, none => none := fun i => by
    rw [h3, Dense.combine_getElem?, Dense.ofVec_data]
    cases a.data[i]? <;> cases b.data[i]? <;> rfl
  refine ⟨r, h1, ?_, fun x hx => ?_, fun w => ?_⟩
  · unfold Dense.size
    rw [h3, Dense.combine_length]
    rfl
  · obtain ⟨i, hi⟩ := List.getElem?_of_mem hx
    rw [hr] at hi
    have ha := fun y (h : a.data[i]? = some y) => hva y (List.mem_of_getElem? h)
    have hb := fun y (h : b.data[i]? = some y) => neg_valid F _ (hvb y (List.mem_of_getElem? h))
    revert hi ha hb
    cases a.data[i]? <;> cases b.data[i]? <;> intro hi ha hb <;> simp only [Option.some.injEq, reduceCtorEq] at hi
    · rw [← hi]; exact add_valid F hF _ _ trivial (hb _ rfl)
    · rw [← hi]; exact ha _ rfl
    · rw [← hi]; exact add_valid F hF _ _ (ha _ rfl) (hb _ rfl)
  · unfold coef stored
    rw [hr]
    cases a.data[wordIndex N w]? <;> cases b.data[wordIndex N w]?
    · exact .inr ⟨rfl, rfl⟩
    · exact .inl rfl
    · exact .inr ⟨rfl, rfl⟩
    · exact .inl rfl

theorem fl_neg (a : Dense Fl) (hva : ∀ x ∈ a.data, x.Valid F) :
    ∃ r, (DenseAlg.ops (floatCoeff F) p N).uminus a = .ok r ∧ r.size = a.size ∧ (∀ x ∈ r.data, x.Valid F) ∧
      ∀ w, (coef (floatCoeff F) N r w).isFin = (coef (floatCoeff F) N a w).isFin ∧ (coef (floatCoeff F) N r w).val = -(coef (floatCoeff F) N a w).val := by
  refine ⟨Dense.ofVec (a.data.map Fl.neg), rfl, by simp [Dense.size], fun x hx => ?_, fun w => ?_⟩
  · rw [Dense.ofVec_data] at hx
    obtain ⟨y, hy, rfl⟩ := List.mem_map.1 hx
    exact neg_valid F y (hva y hy)
  · unfold coef stored
    rw [Dense.ofVec_data, List.getElem?_map]
    cases a.data[wordIndex N w]? with
    | none => exact ⟨rfl, by simp [floatCoeff, Fl.val]⟩
    | some x => exact ⟨neg_isFin x, neg_val x⟩

theorem fl_smul (hF : Fl.Ok F) (a : Dense Fl) (s : Fl) :
    ∃ r, (DenseAlg.ops (floatCoeff F) p N).scalarLmultiply a s = .ok r ∧ r.size = a.size ∧ (∀ x ∈ r.data, x.Valid F) ∧
      ∀ w, (coef (floatCoeff F) N r w = Fl.mul F (coef (floatCoeff F) N a w) s ∨
        (coef (floatCoeff F) N r w = .zero false ∧ coef (floatCoeff F) N a w = .zero false)) := by
  refine ⟨Dense.ofVec (a.data.map fun x => Fl.mul F x s), rfl, by simp [Dense.size], fun x hx => ?_, fun w => ?_⟩
  · rw [Dense.ofVec_data] at hx
    obtain ⟨y, _, rfl⟩ := List.mem_map.1 hx
    exact mul_valid F hF _ _
  · unfold coef stored
    rw [Dense.ofVec_data, List.getElem?_map]
    cases a.data[wordIndex N w]? with
    | none => exact .inr ⟨rfl, rfl⟩
    | some x => exact .inl rfl

/-! ## Products of nearby tensors -/

/-- `V` is the exact tensor, `M` its magnitude and `T` the inflated magnitude: every finite coefficient of `a` is within `T - M` of `V`. -/
structure NearTo (D : Nat) (a : Dense Fl) (d : Nat) (V M T : List Nat → Rat) : Prop where
  full : FullTo N a d
  valid : ∀ x ∈ a.data, x.Valid F
  mag : ∀ w, |V w| ≤ M w
  le : ∀ w, M w ≤ T w
  beyond : ∀ w : List Nat, w.length ≤ D → d < w.length → V w = 0
  err : ∀ w, ValidWord N w → w.length ≤ D → (coef (floatCoeff F) N a w).isFin = true → |(coef (floatCoeff F) N a w).val - V w| ≤ T w - M w

variable {F N}

theorem NearTo.val_le {D : Nat} {a : Dense Fl} {d : Nat} {V M T : List Nat → Rat} (h : NearTo F N D a d V M T) (w : List Nat) (hw : ValidWord N w)
    (hl : w.length ≤ D) : |(coef (floatCoeff F) N a w).val| ≤ T w := by
  have h1 := h.mag w
  have h2 := h.le w
  by_cases hf : (coef (floatCoeff F) N a w).isFin = true
  · have h3 := h.err w hw hl hf
    have := abs_add_le ((coef (floatCoeff F) N a w).val - V w) (V w)
    rw [sub_add_cancel] at this
    linarith
  · have : (coef (floatCoeff F) N a w).val = 0 := by
      cases hc : coef (floatCoeff F) N a w with
      | fin q => rw [hc] at hf; exact absurd rfl hf
      | _ => rfl
    rw [this, abs_zero]
    exact (abs_nonneg _).trans (h1.trans h2)

theorem NearTo.none {D : Nat} {a : Dense Fl} {d : Nat} {V M T : List Nat → Rat} (h : NearTo F N D a d V M T) (w : List Nat) (hw : ValidWord N w)
    (hl : w.length ≤ D) (hn : stored N a w = none) : (coef (floatCoeff F) N a w).val = 0 ∧ V w = 0 := by
  refine ⟨by unfold coef; rw [hn]; rfl, h.beyond w hl ?_⟩
  by_contra hc
  obtain ⟨x, _, hx⟩ := (stored_of_full N h.full w hw).1 (by omega)
  rw [hn] at hx
  cases hx

/-- The exact product of the computed factors is near the product of the exact factors. -/
theorem NearTo.conv {D : Nat} {a b : Dense Fl} {da db : Nat} {V M T V' M' T' : List Nat → Rat} (ha : NearTo F N D a da V M T)
    (hb : NearTo F N D b db V' M' T') (w : List Nat) (hw : ValidWord N w) (hl : w.length ≤ D)
    (hf : ∀ e ∈ storedPairs (stored N a) (stored N b) w, e.1.isFin = true ∧ e.2.isFin = true) :
    |exactCoef F N a b w - conv V V' w| ≤ conv T T' w - conv M M' w ∧ magCoef F N a b w ≤ conv T T' w := by
  have hsplit : ∀ u v, u ++ v = w → (ValidWord N u ∧ u.length ≤ D) ∧ ValidWord N v ∧ v.length ≤ D := by
    rintro u v rfl
    rw [List.length_append] at hl
    exact ⟨⟨(ValidWord.append.1 hw).1, by omega⟩, (ValidWord.append.1 hw).2, by omega⟩
  constructor
  · apply conv_err
    intro u v huv
    obtain ⟨⟨u1, u2⟩, v1, v2⟩ := hsplit u v huv
    have p1 := ha.mag u
    have p2 := ha.le u
    have p3 := hb.mag v
    have p4 := hb.le v
    have q1 := abs_nonneg (V u)
    have q2 := abs_nonneg (V' v)
    have hdiff : 0 ≤ T u * T' v - M u * M' v := by
      have := mul_le_mul p2 p4 (q2.trans p3) (q1.trans (p1.trans p2))
      linarith
    cases hsu : stored N a u with
    | none =>
      obtain ⟨z1, z2⟩ := ha.none u u1 u2 hsu
      rw [z1, z2, zero_mul, zero_mul, sub_self, abs_zero]
      exact hdiff
    | some x =>
      cases hsv : stored N b v with
      | none =>
        obtain ⟨z1, z2⟩ := hb.none v v1 v2 hsv
        rw [z1, z2, mul_zero, mul_zero, sub_self, abs_zero]
        exact hdiff
      | some y =>
        obtain ⟨f1, f2⟩ := hf (x, y) ((mem_storedPairs _ _ _ _).2 ⟨u, v, huv, hsu, hsv⟩)
        have e1 : coef (floatCoeff F) N a u = x := by unfold coef; rw [hsu]; rfl
        have e2 : coef (floatCoeff F) N b v = y := by unfold coef; rw [hsv]; rfl
        have r1 := ha.err u u1 u2 (by rw [e1]; exact f1)
        have r2 := hb.err v v1 v2 (by rw [e2]; exact f2)
        have r3 := hb.val_le v v1 v2
        rw [e1] at r1
        rw [e2] at r2 r3
        rw [e1, e2, show x.val * y.val - V u * V' v = (x.val - V u) * y.val + V u * (y.val - V' v) by ring]
        refine (abs_add_le _ _).trans ?_
        rw [abs_mul, abs_mul]
        have s1 := mul_le_mul r1 r3 (abs_nonneg _) ((abs_nonneg _).trans r1)
        have s2 := mul_le_mul p1 r2 (abs_nonneg _) (q1.trans p1)
        calc _ ≤ (T u - M u) * T' v + M u * (T' v - M' v) := add_le_add s1 s2
          _ = _ := by ring
  · have h := conv_err (x := fun u => |(coef (floatCoeff F) N a u).val|) (y := fun v => |(coef (floatCoeff F) N b v).val|) (V := fun _ => 0)
      (W := fun _ => 0) (T := T) (T' := T') (M := fun _ => 0) (M' := fun _ => 0) w (by
        intro u v huv
        obtain ⟨⟨u1, u2⟩, v1, v2⟩ := hsplit u v huv
        have r1 := ha.val_le u u1 u2
        have r2 := hb.val_le v v1 v2
        rw [mul_zero, sub_zero, sub_zero, abs_mul, abs_abs, abs_abs]
        exact mul_le_mul r1 r2 (abs_nonneg _) ((abs_nonneg _).trans r1))
    rw [conv_zero_left, sub_zero, sub_zero] at h
    exact (le_abs_self _).trans h

/-- A computed sum of products whose exact value is near `V`. -/
theorem flSum_near (hF : Fl.Ok F) (l : List (Fl × Fl)) (n : Nat) (hn : l.length ≤ n) (V M T : Rat) (hm : magSum l ≤ T) (h : (flSum F l).isFin = true)
    (he : |exactSum l - V| ≤ T - M) :
    |(flSum F l).val - V| ≤ (1 + relErr F) ^ (n + 1) * T + n * (1 + relErr F) ^ n * absErr F - M := by
  have h1 := (flSum_err F hF l h).2
  have h2 := err_mono F l.length n hn (magSum l) (magSum_nonneg l)
  have h3 := abs_add_le ((flSum F l).val - exactSum l) (exactSum l - V)
  rw [sub_add_sub_cancel] at h3
  have h4 : ((1 + relErr F) ^ (n + 1) - 1) * magSum l ≤ ((1 + relErr F) ^ (n + 1) - 1) * T := by
    apply mul_le_mul_of_nonneg_left hm
    have : (1 : Rat) ≤ (1 + relErr F) ^ (n + 1) := one_le_pow₀ (by have := relErr_pos F; linarith)
    linarith
  linarith

theorem flSum_near_fin (hF : Fl.Ok F) (l : List (Fl × Fl)) (n : Nat) (hn : l.length ≤ n) (T : Rat) (hm : magSum l ≤ T)
    (hl : ∀ e ∈ l, e.1.isFin = true ∧ e.2.isFin = true) (hT : (1 + relErr F) ^ (n + 1) * T + n * (1 + relErr F) ^ n * absErr F ≤ maxNum F) :
    (flSum F l).isFin = true := by
  apply flSum_fin F hF l hl
  have h2 := err_mono F l.length n hn (magSum l) (magSum_nonneg l)
  have h4 : (1 + relErr F) ^ (n + 1) * magSum l ≤ (1 + relErr F) ^ (n + 1) * T :=
    mul_le_mul_of_nonneg_left hm (by have := relErr_pos F; positivity)
  linarith

/-! ## Evaluation -/

variable {p : Profile}

theorem map_words {S T : Type} (f : S → T) (D : Nat) (e : TExpr S) (h : e.Words N D) : (e.map f).Words N D := by
  induction e with
  | term w s => exact h
  | add a b iha ihb | sub a b iha ihb | mul a b iha ihb | comm a b iha ihb => exact ⟨iha h.1, ihb h.2⟩
  | neg a ih | smul s a ih => exact ih h

theorem map_deg {S T : Type} (f : S → T) (D : Nat) (e : TExpr S) : (e.map f).deg D = e.deg D := by
  induction e with
  | term w s => rfl
  | add a b iha ihb | sub a b iha ihb | mul a b iha ihb | comm a b iha ihb => simp only [TExpr.map, TExpr.deg, iha, ihb]
  | neg a ih | smul s a ih => exact ih

theorem valid_of_coef (h1 : 1 ≤ N) (r : Dense Fl) (h : ∀ w, ValidWord N w → (coef (floatCoeff F) N r w).Valid F) (x : Fl) (hx : x ∈ r.data) : x.Valid F := by
  obtain ⟨i, hi⟩ := List.getElem?_of_mem hx
  have := h _ (validWord_indexWord h1 i)
  unfold coef stored at this
  rwa [wordIndex_indexWord, hi] at this

theorem coef_beyond {r : Dense Fl} {d : Nat} (hr : FullTo N r d) (w : List Nat) (hw : ValidWord N w) (hl : d < w.length) :
    coef (floatCoeff F) N r w = .zero false := by
  unfold coef
  rw [(stored_of_full N hr w hw).2 hl]
  rfl

/-- The exact tensor of an expression, its magnitude and its inflated magnitude. -/
abbrev exactOf (e : TExpr Fl) : List Nat → Rat := (e.map Fl.val).value
abbrev magOf (e : TExpr Fl) : List Nat → Rat := (e.map Fl.val).inflate 0 0
abbrev inflOf (F : FloatFmt) (e : TExpr Fl) : List Nat → Rat := (e.map Fl.val).inflate (relErr F) (absErr F)

/-- No inflated magnitude of the expression is out of range. -/
abbrev RoomFor (F : FloatFmt) (N D : Nat) (e : TExpr Fl) : Prop :=
  e.Everywhere fun a => ∀ w, ValidWord N w → w.length ≤ D → inflOf F a w ≤ maxNum F

/-- All magnitudes are at most `2^prec`. -/
abbrev SmallFor (F : FloatFmt) (N D : Nat) (e : TExpr Fl) : Prop :=
  e.Everywhere fun a => ∀ w, ValidWord N w → w.length ≤ D → magOf a w ≤ 2 ^ F.prec

/-- What is proved of each subexpression. -/
structure Evaluated (F : FloatFmt) (p : Profile) (N D : Nat) (e : TExpr Fl) (r : Dense Fl) : Prop where
  run : runExpr (floatCoeff F) p N D e = .ok r
  near : NearTo F N D r (e.deg D) (exactOf e) (magOf e) (inflOf F e)
  fin : (e.Scalars fun s => s.isFin = true) → RoomFor F N D e → ∀ w, ValidWord N w → w.length ≤ D → (coef (floatCoeff F) N r w).isFin = true
  int : (e.Scalars fun s => s.isFin = true ∧ ∃ n : Int, s.val = (n : Rat)) → SmallFor F N D e → ∀ w, ValidWord N w → w.length ≤ D →
    (coef (floatCoeff F) N r w).isFin = true ∧ (coef (floatCoeff F) N r w).val = exactOf e w ∧ ∃ n : Int, exactOf e w = n

theorem nearTo_of (D : Nat) (e : TExpr Fl) (hw : e.Words N D) (r : Dense Fl) (full : FullTo N r (e.deg D)) (valid : ∀ x ∈ r.data, x.Valid F)
    (err : ∀ w, ValidWord N w → w.length ≤ D → (coef (floatCoeff F) N r w).isFin = true →
      |(coef (floatCoeff F) N r w).val - exactOf e w| ≤ inflOf F e w - magOf e w) :
    NearTo F N D r (e.deg D) (exactOf e) (magOf e) (inflOf F e) :=
  { full := full, valid := valid, mag := value_le _, le := fun w => (inflate_mono _ _ (relErr_pos F).le (absErr_pos F).le _ w).2,
    beyond := fun w hl hd => value_beyond N D _ (map_words _ D e hw) w hl (by rw [map_deg]; exact hd), err := err }

/-- A rounded sum of two values near exact ones. -/
theorem sum_near (x y : Fl) (hx : x.Valid F) (hy : y.Valid F) (h : (Fl.add F x y).isFin = true) (V W M M' T T' : Rat)
    (h1 : |x.val - V| ≤ T - M) (h2 : |y.val - W| ≤ T' - M') (m1 : |V| ≤ M) (m2 : |W| ≤ M') :
    |(Fl.add F x y).val - (V + W)| ≤ (1 + relErr F) * (T + T') - (M + M') := by
  have e1 := add_err F x y hx hy h
  have e2 : |x.val + y.val - (V + W)| ≤ (T - M) + (T' - M') := by
    rw [show x.val + y.val - (V + W) = (x.val - V) + (y.val - W) by ring]
    exact (abs_add_le _ _).trans (by linarith)
  have e3 : |x.val + y.val| ≤ T + T' := by
    have a1 := abs_add_le (x.val + y.val - (V + W)) (V + W)
    rw [sub_add_cancel] at a1
    have a2 := abs_add_le V W
    linarith
  have e4 := mul_le_mul_of_nonneg_left e3 (relErr_pos F).le
  have e5 := abs_add_le ((Fl.add F x y).val - (x.val + y.val)) (x.val + y.val - (V + W))
  rw [sub_add_sub_cancel] at e5
  linarith

theorem sum_int (hF : F = .f32 ∨ F = .f64) (x y : Fl) (fx : x.isFin = true) (fy : y.isFin = true) (n m : Int) (hx : x.val = n) (hy : y.val = m)
    (h : |x.val + y.val| ≤ 2 ^ F.prec) : (Fl.add F x y).isFin = true ∧ (Fl.add F x y).val = x.val + y.val := by
  obtain ⟨s, hs⟩ := add_round F x y fx fy
  rw [hs]
  apply round_val_num F (fmt_ok' hF)
  rw [hx, hy, ← Int.cast_add] at h ⊢
  exact numOf_int F (fmt_ok' hF) (by rcases hF with rfl | rfl <;> decide) (by rcases hF with rfl | rfl <;> decide) _ (by exact_mod_cast h)

theorem prod_int (hF : F = .f32 ∨ F = .f64) (x y : Fl) (fx : x.isFin = true) (fy : y.isFin = true) (n m : Int) (hx : x.val = n) (hy : y.val = m)
    (h : |x.val * y.val| ≤ 2 ^ F.prec) : (Fl.mul F x y).isFin = true ∧ (Fl.mul F x y).val = x.val * y.val := by
  rw [mul_round F x y fx fy]
  apply round_val_num F (fmt_ok' hF)
  rw [hx, hy, ← Int.cast_mul] at h ⊢
  exact numOf_int F (fmt_ok' hF) (by rcases hF with rfl | rfl <;> decide) (by rcases hF with rfl | rfl <;> decide) _ (by exact_mod_cast h)

variable (F N) in
theorem coef_valid (r : Dense Fl) (h : ∀ x ∈ r.data, x.Valid F) (w : List Nat) : (coef (floatCoeff F) N r w).Valid F := by
  unfold coef stored
  cases hw : r.data[wordIndex N w]? with
  | none => trivial
  | some x => exact h x (List.mem_of_getElem? hw)

theorem eval_term (h2 : 2 ≤ N) (hN : N < 2 ^ 32) (D : Nat) (hm : D ≤ maxDepth N) (hp : N ^ (D + 1) < 2 ^ 64)
    (v : List Nat) (s : Fl) (hw : (TExpr.term v s).Words N D) (hs : s.Valid F) : ∃ r, Evaluated F p N D (.term v s) r := by
  obtain ⟨r, h1, h3, h4⟩ := fromKeyScalar_word (floatCoeff F) p N h2 hN v hw.1 (hw.2.trans hm) (pow_lt64_mono h2 (by have := hw.2; omega) hp) s
  have hv : ∀ x ∈ r.data, x.Valid F := valid_of_coef (N := N) (by omega) r fun u hu => by
    rw [h4 u hu]
    split_ifs
    · exact hs
    · trivial
  have hval : ∀ u, ValidWord N u → (coef (floatCoeff F) N r u).val = exactOf (.term v s) u := fun u hu => by
    rw [h4 u hu]
    show _ = if u = v then s.val else 0
    split_ifs <;> rfl
  refine ⟨r, h1, nearTo_of D _ hw r h3 hv fun u hu _ _ => ?_, fun hf _ u hu _ => ?_, fun hi _ u hu _ => ?_⟩
  · rw [hval u hu, sub_self, abs_zero]
    exact sub_nonneg.2 (inflate_mono _ _ (relErr_pos F).le (absErr_pos F).le _ u).2
  · rw [h4 u hu]
    split_ifs
    · exact hf
    · rfl
  · refine ⟨?_, hval u hu, ?_⟩
    · rw [h4 u hu]
      split_ifs
      · exact hi.1
      · rfl
    · obtain ⟨n, hn⟩ := hi.2
      show ∃ m : Int, (if u = v then s.val else 0) = m
      split_ifs
      · exact ⟨n, hn⟩
      · exact ⟨0, by simp⟩

theorem eval_neg (D : Nat) (a : TExpr Fl) (hw : a.Words N D) (h : ∃ r, Evaluated F p N D a r) : ∃ r, Evaluated F p N D (.neg a) r := by
  obtain ⟨x, hx⟩ := h
  obtain ⟨r, r1, r2, r3, r4⟩ := fl_neg F p N x hx.near.valid
  have hfull : FullTo N r (a.deg D) := ⟨r2.trans hx.near.full.1, hx.near.full.2⟩
  refine ⟨r, ?_, nearTo_of D (.neg a) hw r hfull r3 fun w hw hl hf => ?_, fun hs hr w hw hl => ?_, fun hs hr w hw hl => ?_⟩
  · show (runExpr (floatCoeff F) p N D a >>= fun x => (DenseAlg.ops (floatCoeff F) p N).uminus x) = _
    rw [hx.run, Res.bind_ok, r1]
  · rw [(r4 w).1] at hf
    rw [(r4 w).2]
    show |_ - -exactOf a w| ≤ inflOf F a w - magOf a w
    rw [show -(coef (floatCoeff F) N x w).val - -exactOf a w = -((coef (floatCoeff F) N x w).val - exactOf a w) by ring, abs_neg]
    exact hx.near.err w hw hl hf
  · rw [(r4 w).1]
    exact hx.fin hs hr.2 w hw hl
  · rw [(r4 w).1, (r4 w).2]
    obtain ⟨i1, i2, n, i3⟩ := hx.int hs hr.2 w hw hl
    refine ⟨i1, by rw [i2]; rfl, -n, ?_⟩
    show -exactOf a w = _
    rw [i3]
    push_cast
    rfl

theorem eval_smul (hF : F = .f32 ∨ F = .f64) (D : Nat) (s : Fl) (a : TExpr Fl) (hw : a.Words N D) (h : ∃ r, Evaluated F p N D a r) :
    ∃ r, Evaluated F p N D (.smul s a) r := by
  obtain ⟨x, hx⟩ := h
  obtain ⟨r, r1, r2, r3, r4⟩ := fl_smul F p N (fmt_ok' hF) x s
  have hfull : FullTo N r (a.deg D) := ⟨r2.trans hx.near.full.1, hx.near.full.2⟩
  have hu := relErr_pos F
  have hη := absErr_pos F
  refine ⟨r, ?_, nearTo_of D (.smul s a) hw r hfull r3 fun w hw hl hf => ?_, fun hs hr w hw hl => ?_, fun hs hr w hw hl => ?_⟩
  · show (runExpr (floatCoeff F) p N D a >>= fun x => (DenseAlg.ops (floatCoeff F) p N).scalarLmultiply x s) = _
    rw [hx.run, Res.bind_ok, r1]
  · show |_ - s.val * exactOf a w| ≤ ((1 + relErr F) * (|s.val| * inflOf F a w) + absErr F) - ((1 + 0) * (|s.val| * magOf a w) + 0)
    have m1 := hx.near.mag w
    have m2 := hx.near.le w
    have s0 := abs_nonneg s.val
    have hT : 0 ≤ |s.val| * inflOf F a w := mul_nonneg s0 ((abs_nonneg _).trans (m1.trans m2))
    have hMT := mul_le_mul_of_nonneg_left m2 s0
    rcases r4 w with h4 | ⟨h4, h5⟩
    · rw [h4] at hf ⊢
      have hfx := (mul_fin_inv F _ _ hf).1
      have e1 := mul_err F _ _ hf
      have e2 := hx.near.err w hw hl hfx
      have e3 := mul_le_mul_of_nonneg_left (hx.near.val_le w hw hl) s0
      have e4 := mul_le_mul_of_nonneg_left e2 s0
      rw [← abs_mul] at e4
      rw [← abs_mul, mul_comm s.val] at e3
      have e5 := mul_le_mul_of_nonneg_left e3 hu.le
      have e6 := abs_add_le ((Fl.mul F (coef (floatCoeff F) N x w) s).val - (coef (floatCoeff F) N x w).val * s.val)
        (s.val * ((coef (floatCoeff F) N x w).val - exactOf a w))
      rw [show (Fl.mul F (coef (floatCoeff F) N x w) s).val - (coef (floatCoeff F) N x w).val * s.val +
        s.val * ((coef (floatCoeff F) N x w).val - exactOf a w) = (Fl.mul F (coef (floatCoeff F) N x w) s).val - s.val * exactOf a w by ring] at e6
      linarith
    · have e1 : |exactOf a w| ≤ inflOf F a w - magOf a w := by
        have := hx.near.err w hw hl (by rw [h5]; rfl)
        rw [h5, show (Fl.zero false).val = 0 from rfl, zero_sub, abs_neg] at this
        exact this
      have e2 := mul_le_mul_of_nonneg_left e1 s0
      rw [h4, show (Fl.zero false).val = 0 from rfl, zero_sub, abs_neg, abs_mul]
      have := mul_nonneg hu.le hT
      linarith
  · rcases r4 w with h4 | ⟨h4, h5⟩
    · rw [h4]
      have hfx := hx.fin hs.2 hr.2 w hw hl
      apply mul_fin_of F (fmt_ok' hF) _ _ hfx hs.1
      have h0 : (1 + relErr F) * (|s.val| * inflOf F a w) + absErr F ≤ maxNum F := hr.1 w hw hl
      have e3 := mul_le_mul_of_nonneg_left (hx.near.val_le w hw hl) (abs_nonneg s.val)
      have hT : 0 ≤ |s.val| * inflOf F a w := (mul_nonneg (abs_nonneg _) (abs_nonneg _)).trans e3
      have := mul_nonneg hu.le hT
      rw [← abs_mul, mul_comm s.val] at e3
      linarith
    · rw [h4]; rfl
  · obtain ⟨i1, i2, n, i3⟩ := hx.int hs.2 hr.2 w hw hl
    obtain ⟨f1, m, f2⟩ := hs.1
    have hex : exactOf (.smul s a) w = ((m * n : Int) : Rat) := by
      show s.val * exactOf a w = _
      rw [f2, i3]
      push_cast
      rfl
    refine ⟨?_, ?_, _, hex⟩
    all_goals
      rcases r4 w with h4 | ⟨h4, h5⟩
      · have h0 : (1 + 0) * (|s.val| * magOf a w) + 0 ≤ 2 ^ F.prec := hr.1 w hw hl
        have e3 := mul_le_mul_of_nonneg_left (hx.near.mag w) (abs_nonneg s.val)
        obtain ⟨g1, g2⟩ := prod_int hF _ s i1 f1 n m (i2.trans i3) f2 (by
          rw [i2, mul_comm, abs_mul]
          linarith)
        rw [h4]
        first
          | exact g1
          | (rw [g2, i2, mul_comm]; rfl)
      · rw [h4]
        first
          | rfl
          | (rw [h5] at i2
             show (0 : Rat) = s.val * exactOf a w
             rw [← i2]
             simp [Fl.val])

theorem eval_add (hF : F = .f32 ∨ F = .f64) (D : Nat) (a b : TExpr Fl) (hw : (TExpr.add a b).Words N D) (ha : ∃ r, Evaluated F p N D a r)
    (hb : ∃ r, Evaluated F p N D b r) : ∃ r, Evaluated F p N D (.add a b) r := by
  obtain ⟨x, hx⟩ := ha
  obtain ⟨y, hy⟩ := hb
  obtain ⟨r, r1, r2, r3, r4⟩ := fl_add F p N (fmt_ok' hF) x y hx.near.valid hy.near.valid
  have hfull : FullTo N r (max (a.deg D) (b.deg D)) := fullTo_max hx.near.full hy.near.full r2
  have hu := relErr_pos F
  refine ⟨r, ?_, nearTo_of D (.add a b) hw r hfull r3 fun w hw hl hf => ?_, fun hs hr w hw hl => ?_, fun hs hr w hw hl => ?_⟩
  · show (runExpr (floatCoeff F) p N D a >>= fun x => runExpr (floatCoeff F) p N D b >>= fun y => (DenseAlg.ops (floatCoeff F) p N).add x y) = _
    rw [hx.run, Res.bind_ok, hy.run, Res.bind_ok, r1]
  · show |_ - (exactOf a w + exactOf b w)| ≤ (1 + relErr F) * (inflOf F a w + inflOf F b w) - (1 + 0) * (magOf a w + magOf b w)
    rw [add_zero, one_mul]
    rcases r4 w with h4 | ⟨h4, h5⟩
    · rw [h4] at hf ⊢
      obtain ⟨f1, f2⟩ := add_fin_inv F _ _ hf
      exact sum_near _ _ (coef_valid F N x hx.near.valid w) (coef_valid F N y hy.near.valid w) hf _ _ _ _ _ _ (hx.near.err w hw hl f1)
        (hy.near.err w hw hl f2) (hx.near.mag w) (hy.near.mag w)
    · rw [h4] at hf ⊢
      have e1 := hx.near.err w hw hl hf
      have e2 := hy.near.err w hw hl (by rw [h5]; rfl)
      rw [h5, show (Fl.zero false).val = 0 from rfl] at e2
      have e3 := abs_add_le ((coef (floatCoeff F) N x w).val - exactOf a w) (0 - exactOf b w)
      rw [show (coef (floatCoeff F) N x w).val - exactOf a w + (0 - exactOf b w) = (coef (floatCoeff F) N x w).val - (exactOf a w + exactOf b w) by ring] at e3
      have m1 := (abs_nonneg _).trans ((hx.near.mag w).trans (hx.near.le w))
      have m2 := (abs_nonneg _).trans ((hy.near.mag w).trans (hy.near.le w))
      have := mul_nonneg hu.le (add_nonneg m1 m2)
      linarith
  · have fx := hx.fin hs.1 hr.2.1 w hw hl
    have fy := hy.fin hs.2 hr.2.2 w hw hl
    rcases r4 w with h4 | ⟨h4, h5⟩
    · rw [h4]
      apply add_fin_of F (fmt_ok' hF) _ _ fx fy
      have h0 : (1 + relErr F) * (inflOf F a w + inflOf F b w) ≤ maxNum F := hr.1 w hw hl
      have e1 := hx.near.val_le w hw hl
      have e2 := hy.near.val_le w hw hl
      have e3 := abs_add_le (coef (floatCoeff F) N x w).val (coef (floatCoeff F) N y w).val
      have := mul_nonneg hu.le (add_nonneg ((abs_nonneg _).trans e1) ((abs_nonneg _).trans e2))
      linarith
    · rw [h4]; exact fx
  · obtain ⟨i1, i2, n, i3⟩ := hx.int hs.1 hr.2.1 w hw hl
    obtain ⟨j1, j2, m, j3⟩ := hy.int hs.2 hr.2.2 w hw hl
    have h0 : (1 + 0) * (magOf a w + magOf b w) ≤ 2 ^ F.prec := hr.1 w hw hl
    have hex : exactOf (.add a b) w = exactOf a w + exactOf b w := rfl
    have hint : ∃ k : Int, exactOf (.add a b) w = k := ⟨n + m, by rw [hex, i3, j3]; push_cast; rfl⟩
    rcases r4 w with h4 | ⟨h4, h5⟩
    · obtain ⟨g1, g2⟩ := sum_int hF _ _ i1 j1 n m (i2.trans i3) (j2.trans j3) (by
        rw [i2, j2]
        have := abs_add_le (exactOf a w) (exactOf b w)
        linarith [hx.near.mag w, hy.near.mag w])
      rw [h4]
      exact ⟨g1, by rw [g2, i2, j2, hex], hint⟩
    · rw [h4]
      rw [h5, show (Fl.zero false).val = 0 from rfl] at j2
      exact ⟨i1, by rw [i2, hex, ← j2, add_zero], hint⟩

theorem eval_sub (hF : F = .f32 ∨ F = .f64) (D : Nat) (a b : TExpr Fl) (hw : (TExpr.sub a b).Words N D) (ha : ∃ r, Evaluated F p N D a r)
    (hb : ∃ r, Evaluated F p N D b r) : ∃ r, Evaluated F p N D (.sub a b) r := by
  obtain ⟨x, hx⟩ := ha
  obtain ⟨y, hy⟩ := hb
  obtain ⟨r, r1, r2, r3, r4⟩ := fl_sub F p N (fmt_ok' hF) x y hx.near.valid hy.near.valid
  have hfull : FullTo N r (max (a.deg D) (b.deg D)) := fullTo_max hx.near.full hy.near.full r2
  have hu := relErr_pos F
  refine ⟨r, ?_, nearTo_of D (.sub a b) hw r hfull r3 fun w hw hl hf => ?_, fun hs hr w hw hl => ?_, fun hs hr w hw hl => ?_⟩
  · show (runExpr (floatCoeff F) p N D a >>= fun x => runExpr (floatCoeff F) p N D b >>= fun y => (DenseAlg.ops (floatCoeff F) p N).sub x y) = _
    rw [hx.run, Res.bind_ok, hy.run, Res.bind_ok, r1]
  · show |_ - (exactOf a w - exactOf b w)| ≤ (1 + relErr F) * (inflOf F a w + inflOf F b w) - (1 + 0) * (magOf a w + magOf b w)
    rw [add_zero, one_mul]
    rcases r4 w with h4 | ⟨h4, h5⟩
    · rw [h4] at hf ⊢
      obtain ⟨f1, f2⟩ := add_fin_inv F _ _ hf
      rw [neg_isFin] at f2
      rw [sub_eq_add_neg (exactOf a w)]
      refine sum_near _ _ (coef_valid F N x hx.near.valid w) (neg_valid F _ (coef_valid F N y hy.near.valid w)) hf _ _ _ _ _ _
        (hx.near.err w hw hl f1) ?_ (hx.near.mag w) (by rw [abs_neg]; exact hy.near.mag w)
      rw [neg_val, show -(coef (floatCoeff F) N y w).val - -exactOf b w = -((coef (floatCoeff F) N y w).val - exactOf b w) by ring, abs_neg]
      exact hy.near.err w hw hl f2
    · rw [h4] at hf ⊢
      have e1 := hx.near.err w hw hl hf
      have e2 := hy.near.err w hw hl (by rw [h5]; rfl)
      rw [h5, show (Fl.zero false).val = 0 from rfl, zero_sub, abs_neg] at e2
      have e3 := abs_add_le ((coef (floatCoeff F) N x w).val - exactOf a w) (exactOf b w)
      rw [show (coef (floatCoeff F) N x w).val - exactOf a w + exactOf b w = (coef (floatCoeff F) N x w).val - (exactOf a w - exactOf b w) by ring] at e3
      have m1 := (abs_nonneg _).trans ((hx.near.mag w).trans (hx.near.le w))
      have m2 := (abs_nonneg _).trans ((hy.near.mag w).trans (hy.near.le w))
      have := mul_nonneg hu.le (add_nonneg m1 m2)
      linarith
  · have fx := hx.fin hs.1 hr.2.1 w hw hl
    have fy := hy.fin hs.2 hr.2.2 w hw hl
    rcases r4 w with h4 | ⟨h4, h5⟩
    · rw [h4]
      apply add_fin_of F (fmt_ok' hF) _ _ fx (by rw [neg_isFin]; exact fy)
      have h0 : (1 + relErr F) * (inflOf F a w + inflOf F b w) ≤ maxNum F := hr.1 w hw hl
      have e1 := hx.near.val_le w hw hl
      have e2 := hy.near.val_le w hw hl
      have e3 := abs_sub (coef (floatCoeff F) N x w).val (coef (floatCoeff F) N y w).val
      have := mul_nonneg hu.le (add_nonneg ((abs_nonneg _).trans e1) ((abs_nonneg _).trans e2))
      rw [neg_val, ← sub_eq_add_neg]
      linarith
    · rw [h4]; exact fx
  · obtain ⟨i1, i2, n, i3⟩ := hx.int hs.1 hr.2.1 w hw hl
    obtain ⟨j1, j2, m, j3⟩ := hy.int hs.2 hr.2.2 w hw hl
    have h0 : (1 + 0) * (magOf a w + magOf b w) ≤ 2 ^ F.prec := hr.1 w hw hl
    have hex : exactOf (.sub a b) w = exactOf a w - exactOf b w := rfl
    have hint : ∃ k : Int, exactOf (.sub a b) w = k := ⟨n - m, by rw [hex, i3, j3]; push_cast; rfl⟩
    rcases r4 w with h4 | ⟨h4, h5⟩
    · obtain ⟨g1, g2⟩ := sum_int hF _ _ i1 ((neg_isFin _).trans j1) n (-m) (i2.trans i3) (by rw [neg_val, j2, j3]; push_cast; rfl) (by
        rw [neg_val, i2, j2, ← sub_eq_add_neg]
        have := abs_sub (exactOf a w) (exactOf b w)
        linarith [hx.near.mag w, hy.near.mag w])
      rw [h4]
      exact ⟨g1, by rw [g2, neg_val, i2, j2, hex, sub_eq_add_neg], hint⟩
    · rw [h4]
      rw [h5, show (Fl.zero false).val = 0 from rfl] at j2
      exact ⟨i1, by rw [i2, hex, ← j2, sub_zero], hint⟩

/-- What the product and the commutator have in common: each coefficient is a computed sum of products. -/
theorem eval_sums (hF : F = .f32 ∨ F = .f64) (D : Nat) (e : TExpr Fl) (hw : e.Words N D) (h1 : 1 ≤ N) (r : Dense Fl)
    (hrun : runExpr (floatCoeff F) p N D e = .ok r) (hfull : FullTo N r (e.deg D)) (l : List Nat → List (Fl × Fl)) (n : List Nat → Nat)
    (T : List Nat → Rat) (hcoef : ∀ w, ValidWord N w → w.length ≤ e.deg D → coef (floatCoeff F) N r w = flSum F (l w))
    (hlen : ∀ w, (l w).length ≤ n w)
    (hinfl : ∀ w, inflOf F e w = (1 + relErr F) ^ (n w + 1) * T w + n w * (1 + relErr F) ^ n w * absErr F)
    (hnear : ∀ w, ValidWord N w → w.length ≤ D → (∀ q ∈ l w, q.1.isFin = true ∧ q.2.isFin = true) →
      |exactSum (l w) - exactOf e w| ≤ T w - magOf e w ∧ magSum (l w) ≤ T w)
    (hfin : (e.Scalars fun s => s.isFin = true) → RoomFor F N D e → ∀ w, ValidWord N w → w.length ≤ D → inflOf F e w ≤ maxNum F ∧
      ∀ q ∈ l w, q.1.isFin = true ∧ q.2.isFin = true)
    (hint : (e.Scalars fun s => s.isFin = true ∧ ∃ n : Int, s.val = (n : Rat)) → SmallFor F N D e → ∀ w, ValidWord N w → w.length ≤ D →
      (∀ q ∈ l w, q.1.isFin = true ∧ q.2.isFin = true ∧ (∃ n : Int, q.1.val = n) ∧ ∃ n : Int, q.2.val = n) ∧ magSum (l w) ≤ 2 ^ F.prec ∧
        exactSum (l w) = exactOf e w) :
    Evaluated F p N D e r := by
  have hbeyond : ∀ w : List Nat, w.length ≤ D → e.deg D < w.length → exactOf e w = 0 := fun w hl hd =>
    value_beyond N D _ (map_words _ D e hw) w hl (by rw [map_deg]; exact hd)
  refine ⟨hrun, nearTo_of D e hw r hfull (valid_of_coef h1 r fun w hw => ?_) fun w hw hl hf => ?_, fun hs hr w hw hl => ?_, fun hs hr w hw hl => ?_⟩
  · by_cases hd : w.length ≤ e.deg D
    · rw [hcoef w hw hd]
      exact flSum_valid F (fmt_ok' hF) _
    · rw [coef_beyond hfull w hw (by omega)]
      trivial
  · by_cases hd : w.length ≤ e.deg D
    · rw [hcoef w hw hd] at hf ⊢
      obtain ⟨q1, q2⟩ := hnear w hw hl (flSum_err F (fmt_ok' hF) _ hf).1
      rw [hinfl]
      exact flSum_near (fmt_ok' hF) _ _ (hlen w) _ _ _ q2 hf q1
    · rw [coef_beyond hfull w hw (by omega), hbeyond w hl (by omega), show (Fl.zero false).val = 0 from rfl, sub_self, abs_zero]
      exact sub_nonneg.2 (inflate_mono _ _ (relErr_pos F).le (absErr_pos F).le _ w).2
  · by_cases hd : w.length ≤ e.deg D
    · rw [hcoef w hw hd]
      obtain ⟨q1, q2⟩ := hfin hs hr w hw hl
      rw [hinfl] at q1
      exact flSum_near_fin (fmt_ok' hF) _ _ (hlen w) _ (hnear w hw hl q2).2 q2 q1
    · rw [coef_beyond hfull w hw (by omega)]
      rfl
  · by_cases hd : w.length ≤ e.deg D
    · rw [hcoef w hw hd]
      obtain ⟨q1, q2, q3⟩ := hint hs hr w hw hl
      obtain ⟨g1, g2, n, g3⟩ := flSum_int F (fmt_ok' hF) (by rcases hF with rfl | rfl <;> decide) (by rcases hF with rfl | rfl <;> decide) _ q1 q2
      exact ⟨g1, g2.trans q3, n, q3.symm.trans g3⟩
    · rw [coef_beyond hfull w hw (by omega), hbeyond w hl (by omega)]
      exact ⟨rfl, rfl, 0, by simp⟩

theorem pairs_of {a b : Dense Fl} {D : Nat} {P Q : Fl → Prop} (hP : ∀ w, ValidWord N w → w.length ≤ D → P (coef (floatCoeff F) N a w))
    (hQ : ∀ w, ValidWord N w → w.length ≤ D → Q (coef (floatCoeff F) N b w)) (w : List Nat) (hw : ValidWord N w) (hl : w.length ≤ D) (q : Fl × Fl)
    (hq : q ∈ storedPairs (stored N a) (stored N b) w) : P q.1 ∧ Q q.2 := by
  obtain ⟨u, v, rfl, h1, h2⟩ := (mem_storedPairs _ _ _ _).1 hq
  rw [List.length_append] at hl
  have e1 := hP u (ValidWord.append.1 hw).1 (by omega)
  have e2 := hQ v (ValidWord.append.1 hw).2 (by omega)
  unfold coef at e1 e2
  rw [h1] at e1
  rw [h2] at e2
  exact ⟨e1, e2⟩

theorem magCoef_le {D : Nat} {a b : TExpr Fl} {x y : Dense Fl} (hx : ∀ w, ValidWord N w → w.length ≤ D → (coef (floatCoeff F) N x w).val = exactOf a w)
    (hy : ∀ w, ValidWord N w → w.length ≤ D → (coef (floatCoeff F) N y w).val = exactOf b w) (w : List Nat) (hw : ValidWord N w) (hl : w.length ≤ D) :
    exactCoef F N x y w = conv (exactOf a) (exactOf b) w ∧ magCoef F N x y w ≤ conv (magOf a) (magOf b) w := by
  constructor
  · exact conv_congr_valid N w hw (fun u hu h => hx u hu (by omega)) (fun u hu h => hy u hu (by omega))
  · have : magCoef F N x y w = conv (fun u => |exactOf a u|) (fun u => |exactOf b u|) w :=
      conv_congr_valid N w hw (fun u hu h => by rw [hx u hu (by omega)]) (fun u hu h => by rw [hy u hu (by omega)])
    rw [this]
    exact (conv_mono w (fun u => ⟨abs_nonneg _, value_le _ u⟩) (fun u => ⟨abs_nonneg _, value_le _ u⟩)).2

theorem eval_mul (hF : F = .f32 ∨ F = .f64) (h2 : 2 ≤ N) (D : Nat) (hD : 1 ≤ D) (hp : N ^ (D + 1) < 2 ^ 64) (a b : TExpr Fl)
    (hw : (TExpr.mul a b).Words N D) (hc : 1 ≤ a.deg D + b.deg D) (ha : ∃ r, Evaluated F p N D a r) (hb : ∃ r, Evaluated F p N D b r) :
    ∃ r, Evaluated F p N D (.mul a b) r := by
  obtain ⟨x, hx⟩ := ha
  obtain ⟨y, hy⟩ := hb
  have hM : 1 ≤ min D (a.deg D + b.deg D) := le_min hD hc
  have hpm : N ^ (min D (a.deg D + b.deg D) + 1) < 2 ^ 64 := pow_lt64_mono h2 (by omega) hp
  have fx := hx.near.full
  have fy := hy.near.full
  obtain ⟨r, r1, r2, _⟩ := C33_multiply (floatCoeff F) p N h2 x y _ _ D (fx.hasDegree h2) (fy.hasDegree h2) hM hpm
    ⟨by rw [fx.1]; exact geomSum_mono (by have := exprDeg_le a hw.1; omega), by rw [fy.1]; exact geomSum_mono (by have := exprDeg_le b hw.2; omega)⟩
  have hex : ∀ w, exactSum (storedPairs (stored N x) (stored N y) w) = exactCoef F N x y w := fun w => pairs_sum Fl.val _ _ w rfl
  have hmg : ∀ w, magSum (storedPairs (stored N x) (stored N y) w) = magCoef F N x y w := fun w =>
    pairs_sum (fun x => |x.val|) _ _ w (by simp [Fl.val])
  refine ⟨r, eval_sums hF D (.mul a b) hw (by omega) r ?_ r2 (fun w => storedPairs (stored N x) (stored N y) w) (fun w => w.length + 1)
    (conv (inflOf F a) (inflOf F b)) ?_ ?_ ?_ ?_ ?_ ?_⟩
  · show (runExpr (floatCoeff F) p N D a >>= fun x => runExpr (floatCoeff F) p N D b >>= fun y =>
      (DenseAlg.ops (floatCoeff F) p N).multiply x y (some D)) = _
    rw [hx.run, Res.bind_ok, hy.run, Res.bind_ok, r1]
  · exact fun w hw hl => (product_coef F p N h2 x y r _ _ D (fx.hasDegree h2) (fy.hasDegree h2) hpm r1 w hw hl).1
  · exact fun w => storedPairs_length _ _ w
  · exact fun w => rfl
  · intro w hw hl hf
    rw [hex, hmg, show magOf (.mul a b) w = conv (magOf a) (magOf b) w from inflate_zero_mul _ _ w]
    exact hx.near.conv hy.near w hw hl hf
  · intro hs hr w hw hl
    exact ⟨hr.1 w hw hl, pairs_of (P := fun c => c.isFin = true) (Q := fun c => c.isFin = true) (hx.fin hs.1 hr.2.1) (hy.fin hs.2 hr.2.2) w hw hl⟩
  · intro hs hr w hw hl
    have ix := hx.int hs.1 hr.2.1
    have iy := hy.int hs.2 hr.2.2
    obtain ⟨g1, g2⟩ := magCoef_le (fun w hw hl => (ix w hw hl).2.1) (fun w hw hl => (iy w hw hl).2.1) w hw hl
    refine ⟨fun q hq => ?_, ?_, by rw [hex, g1]; rfl⟩
    · obtain ⟨⟨p1, p2⟩, p3, p4⟩ := pairs_of (P := fun c => c.isFin = true ∧ ∃ n : Int, c.val = (n : Rat))
        (Q := fun c => c.isFin = true ∧ ∃ n : Int, c.val = (n : Rat))
        (fun w hw hl => let ⟨i1, i2, n, i3⟩ := ix w hw hl; ⟨i1, n, i2.trans i3⟩)
        (fun w hw hl => let ⟨i1, i2, n, i3⟩ := iy w hw hl; ⟨i1, n, i2.trans i3⟩) w hw hl q hq
      exact ⟨p1, p3, p2, p4⟩
    · rw [hmg]
      refine g2.trans ?_
      have := hr.1 w hw hl
      rwa [show magOf (.mul a b) w = conv (magOf a) (magOf b) w from inflate_zero_mul _ _ w] at this

theorem mem_comm (P : Fl → Prop) (hP : ∀ x, P x → P (Fl.neg x)) (x y : Dense Fl) (D : Nat)
    (hx : ∀ w, ValidWord N w → w.length ≤ D → P (coef (floatCoeff F) N x w)) (hy : ∀ w, ValidWord N w → w.length ≤ D → P (coef (floatCoeff F) N y w))
    (w : List Nat) (hw : ValidWord N w) (hl : w.length ≤ D) (q : Fl × Fl)
    (hq : q ∈ storedPairs (stored N x) (stored N y) w ++ negPairs (storedPairs (stored N y) (stored N x) w)) : P q.1 ∧ P q.2 := by
  rcases List.mem_append.1 hq with h | h
  · exact pairs_of hx hy w hw hl q h
  · obtain ⟨q', h', rfl⟩ := List.mem_map.1 h
    obtain ⟨p1, p2⟩ := pairs_of hy hx w hw hl q' h'
    exact ⟨hP _ p1, p2⟩

theorem eval_comm (hF : F = .f32 ∨ F = .f64) (h2 : 2 ≤ N) (D : Nat) (hD : 1 ≤ D) (hp : N ^ (D + 1) < 2 ^ 64) (a b : TExpr Fl)
    (hw : (TExpr.comm a b).Words N D) (hc : 1 ≤ a.deg D + b.deg D) (ha : ∃ r, Evaluated F p N D a r) (hb : ∃ r, Evaluated F p N D b r) :
    ∃ r, Evaluated F p N D (.comm a b) r := by
  obtain ⟨x, hx⟩ := ha
  obtain ⟨y, hy⟩ := hb
  have hM : 1 ≤ min D (a.deg D + b.deg D) := le_min hD hc
  have hpm : N ^ (min D (a.deg D + b.deg D) + 1) < 2 ^ 64 := pow_lt64_mono h2 (by omega) hp
  have fx := hx.near.full
  have fy := hy.near.full
  obtain ⟨r, r1, r2, r3⟩ := comm_coef F p N h2 x y _ _ D fx fy hM hpm hx.near.valid hy.near.valid
  have hmz : ∀ w, magOf (.comm a b) w = conv (magOf a) (magOf b) w + conv (magOf b) (magOf a) w := fun w => inflate_zero_comm _ _ w
  refine ⟨r, eval_sums hF D (.comm a b) hw (by omega) r ?_ r2
    (fun w => storedPairs (stored N x) (stored N y) w ++ negPairs (storedPairs (stored N y) (stored N x) w)) (fun w => 2 * (w.length + 1))
    (fun w => conv (inflOf F a) (inflOf F b) w + conv (inflOf F b) (inflOf F a) w) r3 ?_ ?_ ?_ ?_ ?_⟩
  · show (runExpr (floatCoeff F) p N D a >>= fun x => runExpr (floatCoeff F) p N D b >>= fun y =>
      (DenseAlg.ops (floatCoeff F) p N).commutator (floatCoeff F) x y (some D)) = _
    rw [hx.run, Res.bind_ok, hy.run, Res.bind_ok, r1]
  · exact fun w => comm_length N x y w
  · exact fun w => rfl
  · intro w hw hl hf
    rw [comm_exact F, comm_mag F, hmz]
    obtain ⟨p1, p2⟩ := hx.near.conv hy.near w hw hl fun q hq => hf q (List.mem_append_left _ hq)
    obtain ⟨q1, q2⟩ := hy.near.conv hx.near w hw hl fun q hq => by
      have := hf (Fl.neg q.1, q.2) (List.mem_append_right _ (List.mem_map.2 ⟨q, hq, rfl⟩))
      rwa [neg_isFin] at this
    refine ⟨?_, by linarith⟩
    show |_ - (conv (exactOf a) (exactOf b) w - conv (exactOf b) (exactOf a) w)| ≤ _
    rw [show exactCoef F N x y w - exactCoef F N y x w - (conv (exactOf a) (exactOf b) w - conv (exactOf b) (exactOf a) w) =
      (exactCoef F N x y w - conv (exactOf a) (exactOf b) w) - (exactCoef F N y x w - conv (exactOf b) (exactOf a) w) by ring]
    exact (abs_sub _ _).trans (by linarith)
  · intro hs hr w hw hl
    exact ⟨hr.1 w hw hl, mem_comm (fun c => c.isFin = true) (fun c h => by rw [neg_isFin]; exact h) x y D (hx.fin hs.1 hr.2.1) (hy.fin hs.2 hr.2.2) w hw hl⟩
  · intro hs hr w hw hl
    have ix := hx.int hs.1 hr.2.1
    have iy := hy.int hs.2 hr.2.2
    obtain ⟨g1, g2⟩ := magCoef_le (fun w hw hl => (ix w hw hl).2.1) (fun w hw hl => (iy w hw hl).2.1) w hw hl
    obtain ⟨g3, g4⟩ := magCoef_le (fun w hw hl => (iy w hw hl).2.1) (fun w hw hl => (ix w hw hl).2.1) w hw hl
    refine ⟨fun q hq => ?_, ?_, by rw [comm_exact F, g1, g3]; rfl⟩
    · obtain ⟨⟨p1, p2⟩, p3, p4⟩ := mem_comm (fun c => c.isFin = true ∧ ∃ n : Int, c.val = (n : Rat))
        (fun c ⟨h1, n, h3⟩ => ⟨by rw [neg_isFin]; exact h1, -n, by rw [neg_val, h3]; push_cast; rfl⟩) x y D
        (fun w hw hl => let ⟨i1, i2, n, i3⟩ := ix w hw hl; ⟨i1, n, i2.trans i3⟩)
        (fun w hw hl => let ⟨i1, i2, n, i3⟩ := iy w hw hl; ⟨i1, n, i2.trans i3⟩) w hw hl q hq
      exact ⟨p1, p3, p2, p4⟩
    · rw [comm_mag F]
      have := hr.1 w hw hl
      rw [hmz] at this
      linarith

theorem fl_eval (hF : F = .f32 ∨ F = .f64) (h2 : 2 ≤ N) (hN : N < 2 ^ 32) (D : Nat) (hD : 1 ≤ D) (hm : D ≤ maxDepth N) (hp : N ^ (D + 1) < 2 ^ 64)
    (e : TExpr Fl) (hw : e.Words N D) (hc : e.NoConstProduct D) (hv : e.Scalars fun s => s.Valid F) : ∃ r, Evaluated F p N D e r := by
  induction e with
  | term w s => exact eval_term h2 hN D hm hp w s hw hv
  | add a b iha ihb => exact eval_add hF D a b hw (iha hw.1 hc.1 hv.1) (ihb hw.2 hc.2 hv.2)
  | sub a b iha ihb => exact eval_sub hF D a b hw (iha hw.1 hc.1 hv.1) (ihb hw.2 hc.2 hv.2)
  | neg a ih => exact eval_neg D a hw (ih hw hc hv)
  | smul s a ih => exact eval_smul hF D s a hw (ih hw hc hv.2)
  | mul a b iha ihb => exact eval_mul hF h2 D hD hp a b hw hc.2.2 (iha hw.1 hc.1 hv.1) (ihb hw.2 hc.2.1 hv.2)
  | comm a b iha ihb => exact eval_comm hF h2 D hD hp a b hw hc.2.2 (iha hw.1 hc.1 hv.1) (ihb hw.2 hc.2.1 hv.2)

theorem scalars_mono {S : Type} {P Q : S → Prop} (h : ∀ s, P s → Q s) (e : TExpr S) (he : e.Scalars P) : e.Scalars Q := by
  induction e with
  | term w s => exact h s he
  | add a b iha ihb | sub a b iha ihb | mul a b iha ihb | comm a b iha ihb => exact ⟨iha he.1, ihb he.2⟩
  | neg a ih => exact ih he
  | smul s a ih => exact ⟨h s he.1, ih he.2⟩

/-! ## The theorems -/

variable (F : FloatFmt) (p : Profile) (N : Nat)

/-- C80.  Every expression of words, sums, differences, negations, scalar multiples, products and commutators over `f32` or `f64` scalars, none of whose
products has two constant factors, is evaluated without panic or undefined behaviour; every finite coefficient of the result differs from the exact
coefficient by at most the amount by which the roundings enlarge the magnitude of the expression; words longer than the depth have coefficient zero. -/
theorem C80_accuracy (hF : F = .f32 ∨ F = .f64) (h2 : 2 ≤ N) (hN : N < 2 ^ 32) (D : Nat) (hD : 1 ≤ D) (hm : D ≤ maxDepth N)
    (hp : N ^ (D + 1) < 2 ^ 64) (e : TExpr Fl) (hw : e.Words N D) (hc : e.NoConstProduct D) (hv : e.Scalars fun s => s.Valid F) :
    ∃ r, runExpr (floatCoeff F) p N D e = .ok r ∧ FullTo N r (e.deg D) ∧ (∀ x ∈ r.data, x.Valid F) ∧
      (∀ w, ValidWord N w → w.length ≤ D → (coef (floatCoeff F) N r w).isFin = true →
        |(coef (floatCoeff F) N r w).val - (e.map Fl.val).value w| ≤
          (e.map Fl.val).inflate (relErr F) (absErr F) w - (e.map Fl.val).inflate 0 0 w) ∧
      ∀ w, ValidWord N w → D < w.length → coef (floatCoeff F) N r w = .zero false := by
  obtain ⟨r, h⟩ := fl_eval (p := p) hF h2 hN D hD hm hp e hw hc hv
  exact ⟨r, h.run, h.near.full, h.near.valid, h.near.err, fun w hw' hl => coef_beyond h.near.full w hw' (by have := exprDeg_le e hw; omega)⟩

/-- C80, in closed form: the error is at most `(1 + u)^k - 1` times the magnitude of the expression, where `k` counts the roundings one after the other, plus
what underflow may add. -/
theorem C80_relative (hF : F = .f32 ∨ F = .f64) (h2 : 2 ≤ N) (hN : N < 2 ^ 32) (D : Nat) (hD : 1 ≤ D) (hm : D ≤ maxDepth N)
    (hp : N ^ (D + 1) < 2 ^ 64) (e : TExpr Fl) (hw : e.Words N D) (hc : e.NoConstProduct D) (hv : e.Scalars fun s => s.Valid F) :
    ∃ r, runExpr (floatCoeff F) p N D e = .ok r ∧ ∀ w, ValidWord N w → w.length ≤ D → (coef (floatCoeff F) N r w).isFin = true →
      |(coef (floatCoeff F) N r w).val - (e.map Fl.val).value w| ≤
        ((1 + relErr F) ^ e.roundings w.length - 1) * (e.map Fl.val).inflate 0 0 w +
          ((e.map Fl.val).inflate (relErr F) (absErr F) w - (e.map Fl.val).inflate (relErr F) 0 w) := by
  obtain ⟨r, h⟩ := fl_eval (p := p) hF h2 hN D hD hm hp e hw hc hv
  refine ⟨r, h.run, fun w hw hl hf => ?_⟩
  have h1 := h.near.err w hw hl hf
  have h2 := inflate_le_pow (relErr F) (relErr_pos F).le (e.map Fl.val) w.length w le_rfl
  have h3 : (e.map Fl.val).roundings w.length = e.roundings w.length := by
    clear * -
    induction e with
    | term w s => rfl
    | add a b iha ihb | sub a b iha ihb | mul a b iha ihb | comm a b iha ihb => simp only [TExpr.map, TExpr.roundings, iha, ihb]
    | neg a ih | smul s a ih => simp only [TExpr.map, TExpr.roundings, ih]
  rw [h3] at h2
  unfold inflOf magOf at h1
  linarith

/-- C80.  If all scalars are finite and no enlarged magnitude of a subexpression exceeds the largest finite number, no coefficient is infinite or not a
number, and the bound holds for all of them. -/
theorem C80_no_overflow (hF : F = .f32 ∨ F = .f64) (h2 : 2 ≤ N) (hN : N < 2 ^ 32) (D : Nat) (hD : 1 ≤ D) (hm : D ≤ maxDepth N)
    (hp : N ^ (D + 1) < 2 ^ 64) (e : TExpr Fl) (hw : e.Words N D) (hc : e.NoConstProduct D) (hv : e.Scalars fun s => s.Valid F ∧ s.isFin = true)
    (hr : e.Everywhere fun a => ∀ w, ValidWord N w → w.length ≤ D → (a.map Fl.val).inflate (relErr F) (absErr F) w ≤ maxNum F) :
    ∃ r, runExpr (floatCoeff F) p N D e = .ok r ∧ ∀ w, ValidWord N w → w.length ≤ D → (coef (floatCoeff F) N r w).isFin = true ∧
      |(coef (floatCoeff F) N r w).val - (e.map Fl.val).value w| ≤
        (e.map Fl.val).inflate (relErr F) (absErr F) w - (e.map Fl.val).inflate 0 0 w := by
  obtain ⟨r, h⟩ := fl_eval (p := p) hF h2 hN D hD hm hp e hw hc (scalars_mono (fun _ h => h.1) e hv)
  refine ⟨r, h.run, fun w hw hl => ?_⟩
  have h1 := h.fin (scalars_mono (fun _ h => h.2) e hv) hr w hw hl
  exact ⟨h1, h.near.err w hw hl h1⟩

/-- C80.  If all scalars are integers and no magnitude of a subexpression exceeds `2^prec`, the result is exact: every coefficient is the integer coefficient
of the expression. -/
theorem C80_integers_exact (hF : F = .f32 ∨ F = .f64) (h2 : 2 ≤ N) (hN : N < 2 ^ 32) (D : Nat) (hD : 1 ≤ D) (hm : D ≤ maxDepth N)
    (hp : N ^ (D + 1) < 2 ^ 64) (e : TExpr Fl) (hw : e.Words N D) (hc : e.NoConstProduct D)
    (hv : e.Scalars fun s => s.Valid F ∧ s.isFin = true ∧ ∃ n : Int, s.val = (n : Rat))
    (hr : e.Everywhere fun a => ∀ w, ValidWord N w → w.length ≤ D → (a.map Fl.val).inflate 0 0 w ≤ 2 ^ F.prec) :
    ∃ r, runExpr (floatCoeff F) p N D e = .ok r ∧ ∀ w, ValidWord N w → w.length ≤ D → (coef (floatCoeff F) N r w).isFin = true ∧
      (coef (floatCoeff F) N r w).val = (e.map Fl.val).value w ∧ ∃ n : Int, (e.map Fl.val).value w = n := by
  obtain ⟨r, h⟩ := fl_eval (p := p) hF h2 hN D hD hm hp e hw hc (scalars_mono (fun _ h => h.1) e hv)
  exact ⟨r, h.run, h.int (scalars_mono (fun _ h => h.2) e hv) hr⟩

/-! ## Non-vacuity -/

/-- `(1/2 [1] + 3 [2]) [1] - [[1], [2]]`. -/
def exExpr : TExpr Fl :=
  .sub (.mul (.add (.smul (.fin (1 / 2)) (.term [1] (.fin 1))) (.term [2] (.fin 3))) (.term [1] (.fin 1)))
    (.comm (.term [1] (.fin 1)) (.term [2] (.fin 1)))

theorem words_two (w : List Nat) (hw : ValidWord 2 w) (hl : w.length ≤ 2) :
    w ∈ [[], [1], [2], [1, 1], [1, 2], [2, 1], [2, 2]] := by
  have hc : ∀ x ∈ w, x = 1 ∨ x = 2 := fun x hx => by have := hw x hx; omega
  match w, hl with
  | [], _ => simp
  | [x], _ => rcases hc x (by simp) with rfl | rfl <;> simp
  | [x, y], _ => rcases hc x (by simp) with rfl | rfl <;> rcases hc y (by simp) with rfl | rfl <;> simp

theorem exExpr_valid : exExpr.Scalars fun s => s.Valid .f32 ∧ s.isFin = true := by
  have h : ∀ n : Int, n ≠ 0 → |n| < 2 ^ 24 → (Fl.fin n).Valid .f32 := fun n h0 h => int_valid n h0 h _ (.inl rfl)
  have h1 : (Fl.fin 1).Valid .f32 := by exact_mod_cast h 1 (by decide) (by decide)
  have h3 : (Fl.fin 3).Valid .f32 := by exact_mod_cast h 3 (by decide) (by decide)
  have hh : (Fl.fin (1 / 2)).Valid .f32 := ⟨by norm_num, 1, -1, by decide, by decide, by decide, by norm_num⟩
  exact ⟨⟨⟨⟨⟨hh, rfl⟩, h1, rfl⟩, h3, rfl⟩, h1, rfl⟩, ⟨h1, rfl⟩, h1, rfl⟩

theorem max_f32 : (1000 : Rat) ≤ maxNum .f32 := by
  norm_num [maxNum, FloatFmt.f32]

/-- The hypotheses of C80 hold for `(1/2 [1] + 3 [2]) [1] - [[1], [2]]`; the exact coefficients of `12` and `21` are `-1` and `4`. -/
theorem exExpr_ok : exExpr.Words 2 2 ∧ exExpr.NoConstProduct 2 ∧ (exExpr.map Fl.val).value [1, 1] = 1 / 2 ∧ (exExpr.map Fl.val).value [1, 2] = -1 ∧
    (exExpr.map Fl.val).value [2, 1] = 4 ∧ exExpr.roundings 2 = 8 ∧ 2 ≤ maxDepth 2 ∧ exExpr.Everywhere (fun a => ∀ w, ValidWord 2 w → w.length ≤ 2 →
      (a.map Fl.val).inflate (relErr .f32) (absErr .f32) w ≤ maxNum .f32) := by
  refine ⟨by simp [exExpr, TExpr.Words, ValidWord], by simp [exExpr, TExpr.NoConstProduct, TExpr.deg],
    by norm_num [exExpr, TExpr.map, TExpr.value, conv, Fl.val], by norm_num [exExpr, TExpr.map, TExpr.value, conv, Fl.val],
    by norm_num [exExpr, TExpr.map, TExpr.value, conv, Fl.val], by decide, by decide +kernel, ?_⟩
  have hu : relErr .f32 = 1 / 16777216 := by norm_num [relErr, FloatFmt.f32]
  have hη : absErr .f32 = 1 / 2 ^ 150 := by norm_num [absErr, FloatFmt.f32]
  have hm := max_f32
  rw [hu, hη]
  refine ⟨?_, ⟨?_, ⟨?_, ⟨?_, ?_⟩, ?_⟩, ?_⟩, ?_, ?_, ?_⟩ <;>
  · intro w hw hl
    refine le_trans ?_ hm
    have := words_two w hw hl
    simp only [List.mem_cons, List.not_mem_nil, or_false] at this
    rcases this with rfl | rfl | rfl | rfl | rfl | rfl | rfl <;> norm_num [exExpr, TExpr.map, TExpr.inflate, conv, Fl.val, abs_of_nonneg]

/-- All coefficients of `(1/2 [1] + 3 [2]) [1] - [[1], [2]]` are finite in `f32`. -/
example : ∃ r, runExpr (floatCoeff .f32) p 2 2 exExpr = .ok r ∧ (coef (floatCoeff .f32) 2 r [2, 1]).isFin = true ∧
    |(coef (floatCoeff .f32) 2 r [2, 1]).val - 4| ≤
      (exExpr.map Fl.val).inflate (relErr .f32) (absErr .f32) [2, 1] - (exExpr.map Fl.val).inflate 0 0 [2, 1] := by
  obtain ⟨h1, h2, _, _, h5, _, h7, h8⟩ := exExpr_ok
  obtain ⟨r, q1, q2⟩ := C80_no_overflow .f32 p 2 (.inl rfl) le_rfl (by norm_num) 2 (by norm_num) h7 (by norm_num) exExpr h1 h2 exExpr_valid h8
  have := q2 [2, 1] (by simp [ValidWord]) (by simp)
  rw [h5] at this
  exact ⟨r, q1, this⟩

/-- `(2 [1] + 3 [2]) (5 [1])` is exact. -/
example : ∃ r, runExpr (floatCoeff .f32) p 2 2
    (.mul (.add (.term [1] (.fin 2)) (.term [2] (.fin 3))) (.term [1] (.fin 5))) = .ok r ∧ (coef (floatCoeff .f32) 2 r [2, 1]).val = 15 := by
  have h : ∀ n : Int, n ≠ 0 → |n| < 2 ^ 24 → (Fl.fin n).Valid .f32 := fun n h0 h => int_valid n h0 h _ (.inl rfl)
  have v2 : (Fl.fin 2).Valid .f32 := by exact_mod_cast h 2 (by decide) (by decide)
  have v3 : (Fl.fin 3).Valid .f32 := by exact_mod_cast h 3 (by decide) (by decide)
  have v5 : (Fl.fin 5).Valid .f32 := by exact_mod_cast h 5 (by decide) (by decide)
  obtain ⟨r, q1, q2⟩ := C80_integers_exact .f32 p 2 (.inl rfl) le_rfl (by norm_num) 2 (by norm_num) (by decide +kernel) (by norm_num)
    (.mul (.add (.term [1] (.fin 2)) (.term [2] (.fin 3))) (.term [1] (.fin 5))) (by simp [TExpr.Words, ValidWord])
    (by simp [TExpr.NoConstProduct, TExpr.deg])
    ⟨⟨⟨v2, rfl, 2, by norm_num [Fl.val]⟩, v3, rfl, 3, by norm_num [Fl.val]⟩, v5, rfl, 5, by norm_num [Fl.val]⟩ (by
      refine ⟨?_, ⟨?_, ?_, ?_⟩, ?_⟩ <;>
      · intro w hw hl
        have := words_two w hw hl
        simp only [List.mem_cons, List.not_mem_nil, or_false] at this
        rcases this with rfl | rfl | rfl | rfl | rfl | rfl | rfl <;> norm_num [TExpr.map, TExpr.inflate, conv, Fl.val, abs_of_nonneg, FloatFmt.f32])
  refine ⟨r, q1, ?_⟩
  rw [(q2 [2, 1] (by simp [ValidWord]) (by simp)).2.1]
  norm_num [TExpr.map, TExpr.value, conv, Fl.val]

end

end RA
