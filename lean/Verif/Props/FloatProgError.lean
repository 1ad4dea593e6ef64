import Verif.SpecErrorProg
import Verif.Props.FloatExpr
import Verif.Props.ProgramAll

/-!
# Rounding errors of programs over floating-point numbers (C110)
-/

namespace RA
open Spec TensorKey TensorBasis DenseAlg Fl

/-! ## What is known about a computed number -/

/-- A number together with what is claimed about it: its exact value, its magnitude, its enlarged magnitudes with and without underflow, the number of roundings, and its
magnitude unless that became too large. -/
structure Track where
  exact : Rat
  size : Rat
  grown : Rat
  scaled : Rat
  count : Option Nat
  cap : Option Rat

/-- Arithmetic with such records. -/
def trackCoeff (F : FloatFmt) : Coeff Track Rat where
  zero := ⟨0, 0, 0, 0, none, some 0⟩
  one := ⟨1, 1, 1, 1, some 0, some 1⟩
  mone := ⟨-1, 1, 1, 1, some 0, some 1⟩
  uminus a := { a with exact := -a.exact }
  inv r := ⟨1 / r, 0, 0, 0, none, none⟩
  add a b := ⟨a.exact + b.exact, (sizes 0 0).add a.size b.size, (sizes (relErr F) (absErr F)).add a.grown b.grown, (sizes (relErr F) 0).add a.scaled b.scaled,
    roundCounts.add a.count b.count, (cappedSizes (relErr F) (absErr F) (maxNum F)).add a.cap b.cap⟩
  sub a b := ⟨a.exact - b.exact, (sizes 0 0).add a.size b.size, (sizes (relErr F) (absErr F)).add a.grown b.grown, (sizes (relErr F) 0).add a.scaled b.scaled,
    roundCounts.add a.count b.count, (cappedSizes (relErr F) (absErr F) (maxNum F)).add a.cap b.cap⟩
  mul a b := ⟨a.exact * b.exact, (sizes 0 0).mul a.size b.size, (sizes (relErr F) (absErr F)).mul a.grown b.grown, (sizes (relErr F) 0).mul a.scaled b.scaled,
    roundCounts.mul a.count b.count, (cappedSizes (relErr F) (absErr F) (maxNum F)).mul a.cap b.cap⟩
  div a r := ⟨a.exact / r, (sizes 0 0).div a.size r, (sizes (relErr F) (absErr F)).div a.grown r, (sizes (relErr F) 0).div a.scaled r,
    roundCounts.div a.count r, (cappedSizes (relErr F) (absErr F) (maxNum F)).div a.cap r⟩
  fromDegree n := ⟨n, n, n, n, some 1, some n⟩
  ratFromDegree n := n
  eq a b := decide (a.exact = b.exact)

/-- The magnitude allows for the number of roundings. -/
def CountBounds (u scaled size : Rat) : Option Nat → Prop
  | none => scaled = 0
  | some k => scaled ≤ (1 + u) ^ k * size

/-- What is claimed is true of the number. -/
structure Tracks (F : FloatFmt) (x : Fl) (t : Track) : Prop where
  valid : x.Valid F
  exact_le : |t.exact| ≤ t.size
  size_le : t.size ≤ t.grown
  err : x.isFin = true → |x.val - t.exact| ≤ t.grown - t.size
  scaled_nonneg : 0 ≤ t.scaled
  count : CountBounds (relErr F) t.scaled t.size t.count
  cap : ∀ c, t.cap = some c → x.isFin = true ∧ c = t.grown

/-- The record of a scalar. -/
def trackOf (x : Fl) : Track :=
  ⟨x.val, |x.val|, |x.val|, |x.val|, if x.val = 0 then none else some 0, if x.isFin then some |x.val| else none⟩

section
variable {F : FloatFmt}

theorem tracks_scalar (x : Fl) (hx : x.Valid F) : Tracks F x (trackOf x) := by
  refine ⟨hx, le_refl _, le_refl _, fun _ => by simp [trackOf], abs_nonneg _, ?_, fun c hc => ?_⟩
  · show CountBounds _ |x.val| |x.val| (if x.val = 0 then none else some 0)
    split_ifs with h
    · simp [CountBounds, h]
    · simp [CountBounds]
  · have hc' : (if x.isFin = true then some |x.val| else none) = some c := hc
    split_ifs at hc' with h
    exact ⟨h, (Option.some.inj hc').symm⟩

theorem Tracks.size_nonneg {x : Fl} {t : Track} (h : Tracks F x t) : 0 ≤ t.size := (abs_nonneg _).trans h.exact_le

theorem Tracks.grown_nonneg {x : Fl} {t : Track} (h : Tracks F x t) : 0 ≤ t.grown := h.size_nonneg.trans h.size_le

/-- A finite number is at most its enlarged magnitude. -/
theorem Tracks.val_le {x : Fl} {t : Track} (h : Tracks F x t) (hx : x.isFin = true) : |x.val| ≤ t.grown := by
  have h1 := abs_add_le (x.val - t.exact) t.exact
  rw [sub_add_cancel] at h1
  linarith [h.err hx, h.exact_le]

theorem Tracks.zero_of {x : Fl} {t : Track} (h : Tracks F x t) (h0 : t.grown = 0) : t.size = 0 ∧ t.exact = 0 ∧ (x.isFin = true → x.val = 0) := by
  have h1 : t.size = 0 := le_antisymm (h0 ▸ h.size_le) h.size_nonneg
  refine ⟨h1, abs_eq_zero.1 (le_antisymm (h1 ▸ h.exact_le) (abs_nonneg _)), fun hx => abs_eq_zero.1 (le_antisymm (h0 ▸ h.val_le hx) (abs_nonneg _))⟩

theorem sizeAdd_zero (a b : Rat) : sizeAdd 0 a b = a + b := by
  unfold sizeAdd
  split_ifs with h1 h2
  · rw [h1, zero_add]
  · rw [h2, add_zero]
  · ring

theorem sizeRound_zero (x : Rat) : sizeRound 0 0 x = x := by
  unfold sizeRound
  split_ifs with h
  · exact h.symm
  · ring

theorem sizeAdd_ge {u a b : Rat} (hu : 0 ≤ u) (ha : 0 ≤ a) (hb : 0 ≤ b) : a + b ≤ sizeAdd u a b := by
  unfold sizeAdd
  split_ifs with h1 h2
  · rw [h1, zero_add]
  · rw [h2, add_zero]
  · have := mul_nonneg hu (add_nonneg ha hb)
    linarith

theorem sizeRound_ge {u η x : Rat} (hu : 0 ≤ u) (hη : 0 ≤ η) (hx : 0 ≤ x) : x ≤ sizeRound u η x := by
  unfold sizeRound
  split_ifs with h
  · exact h.le
  · have := mul_nonneg hu hx
    linarith

theorem upTo_some {B x c : Rat} (h : upTo B x = some c) : x ≤ B ∧ c = x := by
  unfold upTo at h
  split_ifs at h with hx
  exact ⟨hx, (Option.some.inj h).symm⟩

theorem valid_num (x : Fl) (hx : x.Valid F) (hF : Fl.Ok F) : NumOf F x.val := by
  cases x with
  | fin q => exact hx.2
  | _ => exact numOf_zero F hF

/-- Adding zero is exact. -/
theorem add_left_zero_val (hF : Fl.Ok F) (x y : Fl) (hy : y.Valid F) (h : (Fl.add F x y).isFin = true) (hx : x.val = 0) : (Fl.add F x y).val = y.val := by
  obtain ⟨h1, h2⟩ := add_fin_inv F x y h
  obtain ⟨s, hs⟩ := add_round F x y h1 h2
  rw [hs, hx, zero_add]
  exact (round_val_num F hF s _ (valid_num y hy hF)).2

theorem add_right_zero_val (hF : Fl.Ok F) (x y : Fl) (hx : x.Valid F) (h : (Fl.add F x y).isFin = true) (hy : y.val = 0) : (Fl.add F x y).val = x.val := by
  obtain ⟨h1, h2⟩ := add_fin_inv F x y h
  obtain ⟨s, hs⟩ := add_round F x y h1 h2
  rw [hs, hy, add_zero]
  exact (round_val_num F hF s _ (valid_num x hx hF)).2

theorem round_zero_val (s : Bool) : (Fl.round F s 0).val = 0 := by simp [Fl.round, Fl.val]

theorem count_add {u a b m n : Rat} {k l : Option Nat} (hu : 0 ≤ u) (ha : 0 ≤ a) (hb : 0 ≤ b) (hm : 0 ≤ m) (hn : 0 ≤ n) (h1 : CountBounds u a m k) (h2 : CountBounds u b n l) :
    CountBounds u (sizeAdd u a b) (m + n) (roundCounts.add k l) := by
  have hpow : ∀ i j : Nat, i ≤ j → (1 + u) ^ i ≤ (1 + u) ^ j := fun i j h => pow_le_pow_right₀ (by linarith) h
  cases k with
  | none =>
    have h1 : a = 0 := h1
    have e : sizeAdd u a b = b := by simp [sizeAdd, h1]
    rw [e]
    show CountBounds u b (m + n) (match l with | k => k)
    cases l with
    | none => exact h2
    | some l =>
      have h2 : b ≤ (1 + u) ^ l * n := h2
      have := mul_nonneg (show 0 ≤ (1 + u) ^ l by positivity) hm
      show b ≤ (1 + u) ^ l * (m + n)
      linarith
  | some k =>
    have h1 : a ≤ (1 + u) ^ k * m := h1
    cases l with
    | none =>
      have h2 : b = 0 := h2
      have e : sizeAdd u a b = a := by
        unfold sizeAdd
        split_ifs with c
        · rw [h2, c]
        · rfl
      rw [e]
      have := mul_nonneg (show 0 ≤ (1 + u) ^ k by positivity) hn
      show a ≤ (1 + u) ^ k * (m + n)
      linarith
    | some l =>
      have h2 : b ≤ (1 + u) ^ l * n := h2
      have e1 := mul_le_mul_of_nonneg_right (hpow _ _ (le_max_left k l)) hm
      have e2 := mul_le_mul_of_nonneg_right (hpow _ _ (le_max_right k l)) hn
      have e3 : a + b ≤ (1 + u) ^ max k l * (m + n) := by linarith
      have e4 : sizeAdd u a b ≤ (1 + u) * (a + b) := by
        have := mul_nonneg hu (add_nonneg ha hb)
        unfold sizeAdd
        split_ifs with c c
        · rw [c] at this ⊢; linarith
        · rw [c] at this ⊢; linarith
        · exact le_refl _
      show sizeAdd u a b ≤ (1 + u) ^ (max k l + 1) * (m + n)
      have := mul_le_mul_of_nonneg_left e3 (show 0 ≤ 1 + u by linarith)
      rw [pow_succ']
      linarith

theorem sizeRound_le {u x y : Rat} (hu : 0 ≤ u) (hx : 0 ≤ x) (h : x ≤ y) : sizeRound u 0 x ≤ (1 + u) * y := by
  have h1 := mul_le_mul_of_nonneg_left h (show 0 ≤ 1 + u by linarith)
  have h2 := mul_nonneg (show 0 ≤ 1 + u by linarith) (hx.trans h)
  unfold sizeRound
  split_ifs
  · exact h2
  · linarith

theorem count_mul {u a b m n : Rat} {k l : Option Nat} (hu : 0 ≤ u) (ha : 0 ≤ a) (hb : 0 ≤ b) (hm : 0 ≤ m) (_hn : 0 ≤ n) (h1 : CountBounds u a m k) (h2 : CountBounds u b n l) :
    CountBounds u (sizeRound u 0 (a * b)) (m * n) (roundCounts.mul k l) := by
  cases k with
  | none =>
    have h1 : a = 0 := h1
    show sizeRound u 0 (a * b) = 0
    simp [sizeRound, h1]
  | some k =>
    cases l with
    | none =>
      have h2 : b = 0 := h2
      show sizeRound u 0 (a * b) = 0
      simp [sizeRound, h2]
    | some l =>
      have h1 : a ≤ (1 + u) ^ k * m := h1
      have h2 : b ≤ (1 + u) ^ l * n := h2
      show sizeRound u 0 (a * b) ≤ (1 + u) ^ (k + l + 1) * (m * n)
      refine (sizeRound_le hu (mul_nonneg ha hb) (mul_le_mul h1 h2 hb (by positivity))).trans (le_of_eq ?_)
      ring

theorem count_div {u a m : Rat} {k : Option Nat} (r : Rat) (hu : 0 ≤ u) (ha : 0 ≤ a) (h : CountBounds u a m k) :
    CountBounds u (sizeRound u 0 (a / |r|)) (m / |r|) (roundCounts.div k r) := by
  cases k with
  | none =>
    have h : a = 0 := h
    show sizeRound u 0 (a / |r|) = 0
    simp [sizeRound, h]
  | some k =>
    have h : a ≤ (1 + u) ^ k * m := h
    show sizeRound u 0 (a / |r|) ≤ (1 + u) ^ (k + 1) * (m / |r|)
    refine (sizeRound_le hu (div_nonneg ha (abs_nonneg r)) (div_le_div_of_nonneg_right h (abs_nonneg r))).trans (le_of_eq ?_)
    ring

theorem tracks_neg {x : Fl} {t : Track} (h : Tracks F x t) : Tracks F (Fl.neg x) ((trackCoeff F).uminus t) := by
  refine ⟨neg_valid F x h.valid, ?_, h.size_le, fun hx => ?_, h.scaled_nonneg, h.count, fun c hc => ?_⟩
  · show |-t.exact| ≤ t.size
    rw [abs_neg]
    exact h.exact_le
  · rw [neg_isFin] at hx
    show |(Fl.neg x).val - -t.exact| ≤ t.grown - t.size
    rw [neg_val, ← abs_neg]
    convert h.err hx using 2
    ring
  · rw [neg_isFin]
    exact h.cap c hc

theorem tracks_add (hF : Fl.Ok F) {x y : Fl} {s t : Track} (hx : Tracks F x s) (hy : Tracks F y t) : Tracks F (Fl.add F x y) ((trackCoeff F).add s t) := by
  have hu := relErr_pos F
  have e0 : ((trackCoeff F).add s t).size = s.size + t.size := sizeAdd_zero _ _
  have e1 : s.grown + t.grown ≤ ((trackCoeff F).add s t).grown := sizeAdd_ge hu.le hx.grown_nonneg hy.grown_nonneg
  refine ⟨add_valid F hF _ _ hx.valid hy.valid, ?_, ?_, fun hf => ?_, ?_, ?_, fun c hc => ?_⟩
  · rw [e0]
    exact (abs_add_le _ _).trans (add_le_add hx.exact_le hy.exact_le)
  · rw [e0]
    exact (add_le_add hx.size_le hy.size_le).trans e1
  · rw [e0]
    obtain ⟨f1, f2⟩ := add_fin_inv F x y hf
    show |(Fl.add F x y).val - (s.exact + t.exact)| ≤ sizeAdd (relErr F) s.grown t.grown - (s.size + t.size)
    unfold sizeAdd
    split_ifs with c1 c2
    · obtain ⟨z1, z2, z3⟩ := hx.zero_of c1
      rw [add_left_zero_val hF x y hy.valid hf (z3 f1), z1, z2, zero_add, zero_add]
      exact hy.err f2
    · obtain ⟨z1, z2, z3⟩ := hy.zero_of c2
      rw [add_right_zero_val hF x y hx.valid hf (z3 f2), z1, z2, add_zero, add_zero]
      exact hx.err f1
    · have a1 := add_err F x y hx.valid hy.valid hf
      have a2 : |x.val + y.val| ≤ s.grown + t.grown := (abs_add_le _ _).trans (add_le_add (hx.val_le f1) (hy.val_le f2))
      have a3 := mul_le_mul_of_nonneg_left a2 hu.le
      have a4 := abs_add_le (x.val - s.exact) (y.val - t.exact)
      have a5 := abs_add_le ((Fl.add F x y).val - (x.val + y.val)) ((x.val - s.exact) + (y.val - t.exact))
      rw [show (Fl.add F x y).val - (x.val + y.val) + ((x.val - s.exact) + (y.val - t.exact)) = (Fl.add F x y).val - (s.exact + t.exact) by ring] at a5
      have a6 := hx.err f1
      have a7 := hy.err f2
      linarith
  · exact (add_nonneg hx.scaled_nonneg hy.scaled_nonneg).trans (sizeAdd_ge hu.le hx.scaled_nonneg hy.scaled_nonneg)
  · rw [e0]
    exact count_add hu.le hx.scaled_nonneg hy.scaled_nonneg hx.size_nonneg hy.size_nonneg hx.count hy.count
  · have hc' : (cappedSizes (relErr F) (absErr F) (maxNum F)).add s.cap t.cap = some c := hc
    cases hs : s.cap with
    | none => rw [hs] at hc'; cases hc'
    | some a =>
      cases ht : t.cap with
      | none => rw [hs, ht] at hc'; cases hc'
      | some b =>
        rw [hs, ht] at hc'
        obtain ⟨f1, rfl⟩ := hx.cap a hs
        obtain ⟨f2, rfl⟩ := hy.cap b ht
        obtain ⟨g1, rfl⟩ := upTo_some hc'
        exact ⟨add_fin_of F hF x y f1 f2 (((abs_add_le _ _).trans (add_le_add (hx.val_le f1) (hy.val_le f2))).trans (e1.trans g1)), rfl⟩

theorem tracks_sub (hF : Fl.Ok F) {x y : Fl} {s t : Track} (hx : Tracks F x s) (hy : Tracks F y t) : Tracks F (Fl.sub F x y) ((trackCoeff F).sub s t) := by
  have h := tracks_add hF hx (tracks_neg hy)
  have e : (trackCoeff F).add s ((trackCoeff F).uminus t) = (trackCoeff F).sub s t := by
    show Track.mk (s.exact + -t.exact) _ _ _ _ _ = Track.mk (s.exact - t.exact) _ _ _ _ _
    rw [sub_eq_add_neg]
    rfl
  rw [e] at h
  exact h

theorem tracks_mul (hF : Fl.Ok F) {x y : Fl} {s t : Track} (hx : Tracks F x s) (hy : Tracks F y t) : Tracks F (Fl.mul F x y) ((trackCoeff F).mul s t) := by
  have hu := relErr_pos F
  have hη := absErr_pos F
  have e0 : ((trackCoeff F).mul s t).size = s.size * t.size := sizeRound_zero _
  have hp : 0 ≤ s.grown * t.grown := mul_nonneg hx.grown_nonneg hy.grown_nonneg
  have e1 : s.grown * t.grown ≤ ((trackCoeff F).mul s t).grown := sizeRound_ge hu.le hη.le hp
  have e2 : x.isFin = true → y.isFin = true → |x.val * y.val| ≤ s.grown * t.grown := fun f1 f2 => by
    rw [abs_mul]
    exact mul_le_mul (hx.val_le f1) (hy.val_le f2) (abs_nonneg _) hx.grown_nonneg
  refine ⟨mul_valid F hF _ _, ?_, ?_, fun hf => ?_, ?_, ?_, fun c hc => ?_⟩
  · rw [e0]
    show |s.exact * t.exact| ≤ _
    rw [abs_mul]
    exact mul_le_mul hx.exact_le hy.exact_le (abs_nonneg _) hx.size_nonneg
  · rw [e0]
    exact (mul_le_mul hx.size_le hy.size_le hy.size_nonneg hx.grown_nonneg).trans e1
  · rw [e0]
    obtain ⟨f1, f2⟩ := mul_fin_inv F x y hf
    have b1 : |x.val * y.val - s.exact * t.exact| ≤ s.grown * t.grown - s.size * t.size := by
      have a1 := abs_add_le ((x.val - s.exact) * y.val) (s.exact * (y.val - t.exact))
      rw [show (x.val - s.exact) * y.val + s.exact * (y.val - t.exact) = x.val * y.val - s.exact * t.exact by ring, abs_mul, abs_mul] at a1
      have a2 := mul_le_mul (hx.err f1) (hy.val_le f2) (abs_nonneg _) (sub_nonneg.2 hx.size_le)
      have a3 := mul_le_mul hx.exact_le (hy.err f2) (abs_nonneg _) hx.size_nonneg
      linarith
    show |(Fl.mul F x y).val - s.exact * t.exact| ≤ sizeRound (relErr F) (absErr F) (s.grown * t.grown) - s.size * t.size
    unfold sizeRound
    split_ifs with c
    · have hz : x.val * y.val = 0 := abs_eq_zero.1 (le_antisymm (c ▸ e2 f1 f2) (abs_nonneg _))
      rw [c, hz] at b1
      rw [mul_round F x y f1 f2, hz, round_zero_val]
      exact b1
    · have a1 := mul_err F x y hf
      have a3 := mul_le_mul_of_nonneg_left (e2 f1 f2) hu.le
      have a5 := abs_add_le ((Fl.mul F x y).val - x.val * y.val) (x.val * y.val - s.exact * t.exact)
      rw [sub_add_sub_cancel] at a5
      linarith
  · have := mul_nonneg hx.scaled_nonneg hy.scaled_nonneg
    exact this.trans (sizeRound_ge hu.le (le_refl _) this)
  · rw [e0]
    exact count_mul hu.le hx.scaled_nonneg hy.scaled_nonneg hx.size_nonneg hy.size_nonneg hx.count hy.count
  · have hc' : (cappedSizes (relErr F) (absErr F) (maxNum F)).mul s.cap t.cap = some c := hc
    cases hs : s.cap with
    | none => rw [hs] at hc'; cases hc'
    | some a =>
      cases ht : t.cap with
      | none => rw [hs, ht] at hc'; cases hc'
      | some b =>
        rw [hs, ht] at hc'
        obtain ⟨f1, rfl⟩ := hx.cap a hs
        obtain ⟨f2, rfl⟩ := hy.cap b ht
        obtain ⟨g1, rfl⟩ := upTo_some hc'
        exact ⟨mul_fin_of F hF x y f1 f2 ((e2 f1 f2).trans (e1.trans g1)), rfl⟩

/-- A finite quotient comes from a finite dividend, and from an infinite divisor or one other than zero. -/
theorem div_fin_inv (x y : Fl) (h : (Fl.div F x y).isFin = true) :
    x.isFin = true ∧ ((y.val = 0 ∧ (Fl.div F x y).val = 0) ∨ y.val ≠ 0 ∧ y.isFin = true ∨ ∃ q, y = .fin q ∧ q = 0 ) := by
  cases x <;> cases y <;> first | (cases h; done) | exact ⟨rfl, .inl ⟨rfl, rfl⟩⟩ | skip
  all_goals
    rename_i q
    refine ⟨rfl, ?_⟩
    by_cases hq : q = 0
    · exact .inr (.inr ⟨q, rfl, hq⟩)
    · exact .inr (.inl ⟨hq, rfl⟩)

theorem div_round (x y : Fl) (hx : x.isFin = true) (hy : y.isFin = true) (h0 : y.val ≠ 0) : Fl.div F x y = Fl.round F (xor x.sign y.sign) (x.val / y.val) := by
  cases y <;> first | (cases hy; done) | exact absurd rfl h0 | skip
  cases x <;> first | rfl | cases hx

theorem div_valid (hF : Fl.Ok F) (x y : Fl) : (Fl.div F x y).Valid F := by
  cases x <;> cases y <;> first | trivial | exact round_valid F hF _ _

theorem tracks_div (hF : Fl.Ok F) {x r : Fl} {s : Track} (hx : Tracks F x s) (hr : r.Valid F) : Tracks F (Fl.div F x r) ((trackCoeff F).div s r.val) := by
  have hu := relErr_pos F
  have hη := absErr_pos F
  have hr0 := abs_nonneg r.val
  have e0 : ((trackCoeff F).div s r.val).size = s.size / |r.val| := sizeRound_zero _
  have hp : 0 ≤ s.grown / |r.val| := div_nonneg hx.grown_nonneg hr0
  have e1 : s.grown / |r.val| ≤ ((trackCoeff F).div s r.val).grown := sizeRound_ge hu.le hη.le hp
  have e2 : x.isFin = true → |x.val / r.val| ≤ s.grown / |r.val| := fun f1 => by
    rw [abs_div]
    exact div_le_div_of_nonneg_right (hx.val_le f1) hr0
  have hfin : ∀ q, r ≠ .fin q ∨ q ≠ 0 := fun q => by
    by_cases c : r = .fin q
    · rw [c] at hr
      exact .inr hr.1
    · exact .inl c
  refine ⟨div_valid hF _ _, ?_, ?_, fun hf => ?_, ?_, ?_, fun c hc => ?_⟩
  · rw [e0]
    show |s.exact / r.val| ≤ _
    rw [abs_div]
    exact div_le_div_of_nonneg_right hx.exact_le hr0
  · rw [e0]
    exact (div_le_div_of_nonneg_right hx.size_le hr0).trans e1
  · rw [e0]
    show |(Fl.div F x r).val - s.exact / r.val| ≤ sizeRound (relErr F) (absErr F) (s.grown / |r.val|) - s.size / |r.val|
    obtain ⟨f1, ⟨h1, h2⟩ | ⟨h1, h2⟩ | ⟨q, h1, h2⟩⟩ := div_fin_inv x r hf
    · rw [h1, h2]
      simp [sizeRound]
    · have b1 : |x.val / r.val - s.exact / r.val| ≤ s.grown / |r.val| - s.size / |r.val| := by
        rw [← sub_div, ← sub_div, abs_div]
        exact div_le_div_of_nonneg_right (hx.err f1) hr0
      have hround := div_round (F := F) x r f1 h2 h1
      unfold sizeRound
      split_ifs with c
      · have hz : x.val / r.val = 0 := abs_eq_zero.1 (le_antisymm (c ▸ e2 f1) (abs_nonneg _))
        rw [c, hz] at b1
        rw [hround, hz, round_zero_val]
        exact b1
      · have a1 : |(Fl.div F x r).val - x.val / r.val| ≤ relErr F * |x.val / r.val| + absErr F := by
          rw [hround] at hf ⊢
          exact round_err F _ _ hf
        have a3 := mul_le_mul_of_nonneg_left (e2 f1) hu.le
        have a5 := abs_add_le ((Fl.div F x r).val - x.val / r.val) (x.val / r.val - s.exact / r.val)
        rw [sub_add_sub_cancel] at a5
        linarith
    · rcases hfin q with h | h
      · exact absurd h1 h
      · exact absurd h2 h
  · have := div_nonneg hx.scaled_nonneg hr0
    exact this.trans (sizeRound_ge hu.le (le_refl _) this)
  · rw [e0]
    exact count_div r.val hu.le hx.scaled_nonneg hx.count
  · have hc' : (cappedSizes (relErr F) (absErr F) (maxNum F)).div s.cap r.val = some c := hc
    cases hs : s.cap with
    | none => rw [hs] at hc'; cases hc'
    | some a =>
      rw [hs] at hc'
      obtain ⟨f1, rfl⟩ := hx.cap a hs
      have hc2 : (if r.val = 0 then none else upTo (maxNum F) (sizeRound (relErr F) (absErr F) (s.grown / |r.val|))) = some c := hc'
      split_ifs at hc2 with h0
      obtain ⟨g1, rfl⟩ := upTo_some hc2
      have fr : r.isFin = true := by
        cases r <;> first | rfl | exact absurd rfl h0
      refine ⟨?_, rfl⟩
      rw [div_round x r f1 fr h0]
      exact (round_correct F hF _ _ ((e2 f1).trans (e1.trans g1))).1

theorem track_rel (hF : Fl.Ok F) (h1 : Fl.Valid F .one) (h2 : Fl.Valid F (.fin (-1))) :
    CoeffRel (Tracks F) (fun r r' => r' = r.val ∧ r.Valid F) (floatCoeff F) (trackCoeff F) where
  zero := tracks_scalar (.zero false) trivial
  one := by
    have h := tracks_scalar (F := F) .one h1
    have e : trackOf .one = (trackCoeff F).one := by simp [trackOf, trackCoeff, Fl.val, Fl.one, Fl.isFin]
    rw [e] at h
    exact h
  mone := by
    have h := tracks_scalar (F := F) (.fin (-1)) h2
    have e : trackOf (.fin (-1)) = (trackCoeff F).mone := by simp [trackOf, trackCoeff, Fl.val, Fl.isFin]
    rw [e] at h
    exact h
  uminus := fun _ _ h => tracks_neg h
  add := fun _ _ _ _ h h' => tracks_add hF h h'
  sub := fun _ _ _ _ h h' => tracks_sub hF h h'
  mul := fun _ _ _ _ h h' => tracks_mul hF h h'
  div := fun _ _ _ _ h h' => by
    obtain ⟨rfl, h'⟩ := h'
    exact tracks_div hF h h'

end

/-! ## Programs -/

section
variable {S R S' R' : Type}

theorem map_rel {Q : S → S' → Prop} {P : R → R' → Prop} {f : S → S'} {g : R → R'} {st : PStmt S R} (hm : st.NoModify) (h : CoeffsIn (fun s => Q s (f s)) (fun r => P r (g r)) st) :
    StmtRel Q P st (st.map f g) := by
  cases st with
  | modify => exact hm.elim
  | word i w s => exact .word _ _ _ _ h
  | scale i s => exact .scale _ _ _ h
  | div i r => exact .div _ _ _ h
  | terms i items =>
    refine .terms _ _ _ ?_
    have h : ∀ e ∈ items, Q e.2 (f e.2) := h
    rename_i h0
    clear hm h0
    induction items with
    | nil => exact .nil
    | cons e items ih => exact .cons ⟨rfl, h e (List.mem_cons_self ..)⟩ (ih fun e he => h e (List.mem_cons_of_mem _ he))
  | zero | copy | swap | clear | erase | neg | add | sub | mul | comm | addMul | subMul => constructor

theorem map_rel_prog {Q : S → S' → Prop} {P : R → R' → Prop} {f : S → S'} {g : R → R'} {prog : List (PStmt S R)}
    (h : ∀ st ∈ prog, st.NoModify ∧ CoeffsIn (fun s => Q s (f s)) (fun r => P r (g r)) st) : List.Forall₂ (StmtRel Q P) prog (prog.map (PStmt.map f g)) := by
  induction prog with
  | nil => exact .nil
  | cons st prog ih => exact .cons (map_rel (h st (List.mem_cons_self ..)).1 (h st (List.mem_cons_self ..)).2) (ih fun s hs => h s (List.mem_cons_of_mem _ hs))

theorem coeffsIn_all {I : S → Prop} {J : R → Prop} (hI : ∀ s, I s) (hJ : ∀ r, J r) (st : PStmt S R) : CoeffsIn I J st := by
  cases st <;> first | trivial | exact hI _ | exact hJ _ | exact fun _ _ => hI _

theorem map_noModify {f : S → S'} {g : R → R'} {st : PStmt S R} (h : st.NoModify) : (st.map f g).NoModify := by
  cases st <;> exact h

theorem map_within {f : S → S'} {g : R → R'} {N D : Nat} {st : PStmt S R} (h : st.Within N D) : (st.map f g).Within N D := by
  cases st <;> first | exact h | skip
  intro e he
  obtain ⟨e0, he0, rfl⟩ := List.mem_map.1 he
  exact h e0 he0

theorem map_levels (f : S → S') (g : R → R') (st : PStmt S R) (l : Nat → Nat) : (st.map f g).levels l = st.levels l := by
  cases st <;> first | rfl | skip
  rename_i i items
  show setReg l i (itemLevels (items.map fun e => (e.1, f e.2))) = setReg l i (itemLevels items)
  congr 1
  unfold itemLevels
  rw [List.foldr_map]

theorem map_allowed (f : S → S') (g : R → R') (prog : List (PStmt S R)) (l : Nat → Nat) : allowedProg l (prog.map (PStmt.map f g)) = allowedProg l prog := by
  induction prog generalizing l with
  | nil => rfl
  | cons st prog ih =>
    show ((st.map f g).allowed l && allowedProg ((st.map f g).levels l) (prog.map (PStmt.map f g))) = _
    rw [map_levels, ih]
    have : (st.map f g).allowed l = st.allowed l := by cases st <;> rfl
    rw [this]
    rfl

theorem map_map {S'' R'' : Type} (f : S → S') (g : R → R') (f' : S' → S'') (g' : R' → R'') (st : PStmt S R) (hm : st.NoModify) :
    (st.map f g).map f' g' = st.map (fun s => f' (f s)) (fun r => g' (g r)) := by
  cases st <;> first | rfl | exact hm.elim | skip
  simp [PStmt.map]

end

section
variable {F : FloatFmt} (p : Profile) (N : Nat)

/-- Each column of the records is computed by the program itself, run on other scalars. -/
theorem track_column {S' : Type} {C : Coeff S' Rat} {φ : Track → S'} (hφ : CoeffMap φ Eq (trackCoeff F) C) (h2 : 2 ≤ N) (hN : N < 2 ^ 32) (D : Nat) (hm : D ≤ maxDepth N)
    (hp : N ^ (D + 1) < 2 ^ 64) (prog : List (PStmt Fl Fl)) (hs : ∀ s ∈ prog, s.Within N D ∧ s.NoModify) (ha : allowedProg (fun _ => 0) prog = true)
    (τ : Nat → Dense Track) (hτ : runProg (trackCoeff F) p N (prog.map (PStmt.map trackOf Fl.val)) = .ok τ) (i : Nat) (w : List Nat) (hw : ValidWord N w)
    (hl : w.length ≤ maxDepth N) : φ (coef (trackCoeff F) N (τ i) w) = progCoef C (fun x => φ (trackOf x)) Fl.val prog i w := by
  have hc := C82_change_of_coefficients p N φ hφ (prog.map (PStmt.map trackOf Fl.val)) ((prog.map (PStmt.map trackOf Fl.val)).map (PStmt.map φ id)) (map_rel_prog fun st hst => by
    obtain ⟨s0, h0, rfl⟩ := List.mem_map.1 hst
    exact ⟨map_noModify (hs s0 h0).2, coeffsIn_all (fun _ => rfl) (fun _ => rfl) _⟩)
  have he : (prog.map (PStmt.map trackOf Fl.val)).map (PStmt.map φ id) = prog.map (PStmt.map (fun x => φ (trackOf x)) Fl.val) := by
    rw [List.map_map]
    exact List.map_congr_left fun s h => map_map _ _ _ _ s (hs s h).2
  rw [he, hτ] at hc
  obtain ⟨σ, h1, h3⟩ := C65_programs_partial C p N h2 hN D hm hp (prog.map (PStmt.map (fun x => φ (trackOf x)) Fl.val)) (fun st hst => by
    obtain ⟨s0, h0, rfl⟩ := List.mem_map.1 hst
    exact map_within (hs s0 h0).1) (by rw [map_allowed]; exact ha)
  cases h1.symm.trans hc
  have h4 := (h3 i).2 w _ hw hl (fromLetters_ok p N (by omega) hN w hw hl)
  rw [C33_get C p N (by omega) hN _ w hw hl _ (fromLetters_ok p N (by omega) hN w hw hl)] at h4
  unfold progCoef
  show _ = ((evalProg C emptyRegs _ i).coef w).getD C.zero
  rw [← Res.ok.inj h4]
  unfold coef stored Dense.map
  rw [List.getElem?_map]
  cases (τ i).data[wordIndex N w]? with
  | none => exact hφ.zero
  | some x => rfl

theorem track_exact : CoeffMap Track.exact Eq (trackCoeff F) (fieldCoeff Rat) where
  zero := rfl
  one := rfl
  mone := rfl
  uminus _ := rfl
  add _ _ := rfl
  sub _ _ := rfl
  mul _ _ := rfl
  div _ _ _ h := by cases h; rfl

theorem track_size : CoeffMap Track.size Eq (trackCoeff F) (sizes 0 0) where
  zero := rfl
  one := rfl
  mone := rfl
  uminus _ := rfl
  add _ _ := rfl
  sub _ _ := rfl
  mul _ _ := rfl
  div _ _ _ h := by cases h; rfl

theorem track_grown : CoeffMap Track.grown Eq (trackCoeff F) (sizes (relErr F) (absErr F)) where
  zero := rfl
  one := rfl
  mone := rfl
  uminus _ := rfl
  add _ _ := rfl
  sub _ _ := rfl
  mul _ _ := rfl
  div _ _ _ h := by cases h; rfl

theorem track_scaled : CoeffMap Track.scaled Eq (trackCoeff F) (sizes (relErr F) 0) where
  zero := rfl
  one := rfl
  mone := rfl
  uminus _ := rfl
  add _ _ := rfl
  sub _ _ := rfl
  mul _ _ := rfl
  div _ _ _ h := by cases h; rfl

theorem track_count : CoeffMap Track.count Eq (trackCoeff F) roundCounts where
  zero := rfl
  one := rfl
  mone := rfl
  uminus _ := rfl
  add _ _ := rfl
  sub _ _ := rfl
  mul _ _ := rfl
  div _ _ _ h := by cases h; rfl

theorem track_cap : CoeffMap Track.cap Eq (trackCoeff F) (cappedSizes (relErr F) (absErr F) (maxNum F)) where
  zero := rfl
  one := rfl
  mone := rfl
  uminus _ := rfl
  add _ _ := rfl
  sub _ _ := rfl
  mul _ _ := rfl
  div _ _ _ h := by cases h; rfl

/-- The exact values in the records are the values of the program over the rationals. -/
theorem track_value (h2 : 2 ≤ N) (hN : N < 2 ^ 32) (D : Nat) (hm : D ≤ maxDepth N)
    (hp : N ^ (D + 1) < 2 ^ 64) (prog : List (PStmt Fl Fl)) (hs : ∀ s ∈ prog, s.Within N D ∧ s.NoModify) (ha : allowedProg (fun _ => 0) prog = true)
    (i : Nat) (w : List Nat) (hw : ValidWord N w) (hl : w.length ≤ maxDepth N) :
    progCoef (fieldCoeff Rat) Fl.val Fl.val prog i w = fullProg (· / ·) (fun _ => 0) (fun _ _ => 0) (prog.map (PStmt.map Fl.val Fl.val)) i w := by
  have hs' : ∀ s ∈ prog.map (PStmt.map Fl.val Fl.val), s.Within N D := fun st hst => by
    obtain ⟨s0, h0, rfl⟩ := List.mem_map.1 hst
    exact map_within (hs s0 h0).1
  have ha' : allowedProg (fun _ => 0) (prog.map (PStmt.map Fl.val Fl.val)) = true := by rw [map_allowed]; exact ha
  obtain ⟨σ, h1, h3⟩ := C65_programs_partial (fieldCoeff Rat) Profile.debug N h2 hN D hm hp _ hs' ha'
  obtain ⟨σ', h1', h3'⟩ := C66_all_statements (fieldCoeff Rat) (q := (· / ·)) Profile.debug N (fieldCoeff_isField Rat).toIsRing (fun _ _ => rfl) zero_div h2 hN D hm hp _ hs' ha'
  cases h1.symm.trans h1'
  have hk := fromLetters_ok Profile.debug N (by omega) hN w hw hl
  obtain ⟨x, x1, x2⟩ := h3' i w _ hw hl hk
  cases x1.symm.trans ((h3 i).2 w _ hw hl hk)
  exact x2

/-- Every coefficient that an allowed program computes fulfils what its record claims. -/
theorem float_tracks (hF : F = .f32 ∨ F = .f64) (h2 : 2 ≤ N) (hN : N < 2 ^ 32) (D : Nat) (hm : D ≤ maxDepth N) (hp : N ^ (D + 1) < 2 ^ 64) (prog : List (PStmt Fl Fl))
    (hs : ∀ s ∈ prog, s.Within N D ∧ s.NoModify ∧ CoeffsIn (Fl.Valid F) (Fl.Valid F) s) (ha : allowedProg (fun _ => 0) prog = true) :
    ∃ σ, runProg (floatCoeff F) p N prog = .ok σ ∧ ∀ i w, ValidWord N w → w.length ≤ maxDepth N →
      Tracks F (coef (floatCoeff F) N (σ i) w) ⟨fullProg (· / ·) (fun _ => 0) (fun _ _ => 0) (prog.map (PStmt.map Fl.val Fl.val)) i w,
        progCoef (sizes 0 0) (fun x => |x.val|) Fl.val prog i w, progCoef (sizes (relErr F) (absErr F)) (fun x => |x.val|) Fl.val prog i w,
        progCoef (sizes (relErr F) 0) (fun x => |x.val|) Fl.val prog i w, progCoef roundCounts (fun x => if x.val = 0 then none else some 0) Fl.val prog i w,
        progCoef (cappedSizes (relErr F) (absErr F) (maxNum F)) (fun x => if x.isFin then some |x.val| else none) Fl.val prog i w⟩ := by
  have hok : Fl.Ok F := by rcases hF with rfl | rfl; exacts [f32_ok, f64_ok]
  have hone := C50_closed F hF .nan .nan trivial trivial 0
  obtain ⟨σ, h1, -⟩ := C65_programs_partial (floatCoeff F) p N h2 hN D hm hp prog (fun s h => (hs s h).1) ha
  have hrel := runProg_rel p N (track_rel hok hone.2.2.2.2.2.2.2.1 hone.2.2.2.2.2.2.2.2.1) (map_rel_prog (f := trackOf) (g := Fl.val) (prog := prog) fun st hst => by
    refine ⟨(hs st hst).2.1, ?_⟩
    have h := (hs st hst).2.2
    have hn := (hs st hst).2.1
    cases st <;> first | exact hn.elim | trivial | exact tracks_scalar _ h | exact ⟨rfl, h⟩ | exact fun e he => tracks_scalar _ (h e he))
  rw [h1] at hrel
  cases hτ : runProg (trackCoeff F) p N (prog.map (PStmt.map trackOf Fl.val)) with
  | ok τ =>
    rw [hτ] at hrel
    refine ⟨σ, h1, fun i w hw hl => ?_⟩
    have hs' : ∀ s ∈ prog, s.Within N D ∧ s.NoModify := fun s h => ⟨(hs s h).1, (hs s h).2.1⟩
    have hT : Tracks F (coef (floatCoeff F) N (σ i) w) (coef (trackCoeff F) N (τ i) w) := by
      unfold coef stored
      rcases forall₂_getElem? (hrel i).data (wordIndex N w) with ⟨d1, d2⟩ | ⟨x, t, d1, d2, d3⟩
      · rw [d1, d2]
        have h := tracks_scalar (F := F) (.zero false) trivial
        have e : trackOf (.zero false) = (trackCoeff F).zero := by simp [trackOf, trackCoeff, Fl.val, Fl.isFin]
        rw [e] at h
        exact h
      · rw [d1, d2]
        exact d3
    have e1 := track_column p N track_exact h2 hN D hm hp prog hs' ha τ hτ i w hw hl
    rw [show (fun x => (trackOf x).exact) = Fl.val from rfl, track_value N h2 hN D hm hp prog hs' ha i w hw hl] at e1
    have e2 := track_column p N track_size h2 hN D hm hp prog hs' ha τ hτ i w hw hl
    have e3 := track_column p N track_grown h2 hN D hm hp prog hs' ha τ hτ i w hw hl
    have e4 := track_column p N track_scaled h2 hN D hm hp prog hs' ha τ hτ i w hw hl
    have e5 := track_column p N track_count h2 hN D hm hp prog hs' ha τ hτ i w hw hl
    have e6 := track_column p N track_cap h2 hN D hm hp prog hs' ha τ hτ i w hw hl
    have e : coef (trackCoeff F) N (τ i) w = Track.mk (coef (trackCoeff F) N (τ i) w).exact (coef (trackCoeff F) N (τ i) w).size (coef (trackCoeff F) N (τ i) w).grown
      (coef (trackCoeff F) N (τ i) w).scaled (coef (trackCoeff F) N (τ i) w).count (coef (trackCoeff F) N (τ i) w).cap := rfl
    rw [e1, e2, e3, e4, e5, e6] at e
    rw [e] at hT
    exact hT
  | _ => rw [hτ] at hrel; exact hrel.elim

/-- C110: an allowed program over `f32` or `f64` (without `modify`) returns, and every finite coefficient differs from the exact one, computed over the rationals, by at most
the amount by which the roundings enlarge its magnitude. -/
theorem C110_accuracy (hF : F = .f32 ∨ F = .f64) (h2 : 2 ≤ N) (hN : N < 2 ^ 32) (D : Nat) (hm : D ≤ maxDepth N) (hp : N ^ (D + 1) < 2 ^ 64) (prog : List (PStmt Fl Fl))
    (hs : ∀ s ∈ prog, s.Within N D ∧ s.NoModify ∧ CoeffsIn (Fl.Valid F) (Fl.Valid F) s) (ha : allowedProg (fun _ => 0) prog = true) :
    ∃ σ, runProg (floatCoeff F) p N prog = .ok σ ∧ ∀ i w k, ValidWord N w → w.length ≤ maxDepth N → fromLetters p N w = .ok k →
      ∃ x, (DenseAlg.ops (floatCoeff F) p N).get (σ i) k = .ok x ∧ ((x.getD (.zero false)).isFin = true →
        |(x.getD (.zero false)).val - fullProg (· / ·) (fun _ => 0) (fun _ _ => 0) (prog.map (PStmt.map Fl.val Fl.val)) i w| ≤
          progCoef (sizes (relErr F) (absErr F)) (fun x => |x.val|) Fl.val prog i w - progCoef (sizes 0 0) (fun x => |x.val|) Fl.val prog i w) := by
  obtain ⟨σ, h1, h3⟩ := float_tracks p N hF h2 hN D hm hp prog hs ha
  exact ⟨σ, h1, fun i w k hw hl hk => ⟨_, C33_get (floatCoeff F) p N (by omega) hN _ w hw hl k hk, (h3 i w hw hl).err⟩⟩

/-- C110: the same in closed form, `k` being the number of roundings one after the other; a coefficient without any (`none`) is known to be zero. -/
theorem C110_relative (hF : F = .f32 ∨ F = .f64) (h2 : 2 ≤ N) (hN : N < 2 ^ 32) (D : Nat) (hm : D ≤ maxDepth N) (hp : N ^ (D + 1) < 2 ^ 64) (prog : List (PStmt Fl Fl))
    (hs : ∀ s ∈ prog, s.Within N D ∧ s.NoModify ∧ CoeffsIn (Fl.Valid F) (Fl.Valid F) s) (ha : allowedProg (fun _ => 0) prog = true) :
    ∃ σ, runProg (floatCoeff F) p N prog = .ok σ ∧ ∀ i w k, ValidWord N w → w.length ≤ maxDepth N → fromLetters p N w = .ok k →
      ∃ x, (DenseAlg.ops (floatCoeff F) p N).get (σ i) k = .ok x ∧ ((x.getD (.zero false)).isFin = true →
        |(x.getD (.zero false)).val - fullProg (· / ·) (fun _ => 0) (fun _ _ => 0) (prog.map (PStmt.map Fl.val Fl.val)) i w| ≤
          ((1 + relErr F) ^ (progCoef roundCounts (fun x => if x.val = 0 then none else some 0) Fl.val prog i w).getD 0 - 1) *
              progCoef (sizes 0 0) (fun x => |x.val|) Fl.val prog i w +
            (progCoef (sizes (relErr F) (absErr F)) (fun x => |x.val|) Fl.val prog i w - progCoef (sizes (relErr F) 0) (fun x => |x.val|) Fl.val prog i w)) := by
  obtain ⟨σ, h1, h3⟩ := float_tracks p N hF h2 hN D hm hp prog hs ha
  refine ⟨σ, h1, fun i w k hw hl hk => ⟨_, C33_get (floatCoeff F) p N (by omega) hN _ w hw hl k hk, fun hf => ?_⟩⟩
  have hT := h3 i w hw hl
  refine (hT.err hf).trans ?_
  have hc := hT.count
  have hn := hT.size_nonneg
  dsimp only at hc hn ⊢
  cases hk : progCoef roundCounts (fun x => if x.val = 0 then none else some 0) Fl.val prog i w with
  | none =>
    rw [hk] at hc
    have hc : _ = (0 : Rat) := hc
    rw [hc]
    simp [hn]
  | some n =>
    rw [hk] at hc
    have hc : _ ≤ (1 + relErr F) ^ n * _ := hc
    rw [Option.getD_some]
    linarith

/-- C110: where the magnitudes, enlarged by the roundings, never exceed the largest finite number, and nothing is divided by zero, the coefficient is finite and close to
the exact one.  This is about the numbers that go into this coefficient only. -/
theorem C110_no_overflow (hF : F = .f32 ∨ F = .f64) (h2 : 2 ≤ N) (hN : N < 2 ^ 32) (D : Nat) (hm : D ≤ maxDepth N) (hp : N ^ (D + 1) < 2 ^ 64) (prog : List (PStmt Fl Fl))
    (hs : ∀ s ∈ prog, s.Within N D ∧ s.NoModify ∧ CoeffsIn (Fl.Valid F) (Fl.Valid F) s) (ha : allowedProg (fun _ => 0) prog = true) :
    ∃ σ, runProg (floatCoeff F) p N prog = .ok σ ∧ ∀ i w k t, ValidWord N w → w.length ≤ maxDepth N → fromLetters p N w = .ok k →
      progCoef (cappedSizes (relErr F) (absErr F) (maxNum F)) (fun x => if x.isFin then some |x.val| else none) Fl.val prog i w = some t →
      ∃ x, (DenseAlg.ops (floatCoeff F) p N).get (σ i) k = .ok x ∧ (x.getD (.zero false)).isFin = true ∧
        |(x.getD (.zero false)).val - fullProg (· / ·) (fun _ => 0) (fun _ _ => 0) (prog.map (PStmt.map Fl.val Fl.val)) i w| ≤
          t - progCoef (sizes 0 0) (fun x => |x.val|) Fl.val prog i w := by
  obtain ⟨σ, h1, h3⟩ := float_tracks p N hF h2 hN D hm hp prog hs ha
  refine ⟨σ, h1, fun i w k t hw hl hk ht => ⟨_, C33_get (floatCoeff F) p N (by omega) hN _ w hw hl k hk, ?_⟩⟩
  have hT := h3 i w hw hl
  obtain ⟨f1, rfl⟩ := hT.cap t ht
  exact ⟨f1, hT.err f1⟩

end

/-! ## A case that meets the hypotheses -/

/-- `x0 = a / 3 + b; x1 = x0 x0`. -/
def roundProg : List (PStmt Fl Fl) := [.word 0 [1] .one, .div 0 (.fin 3), .word 2 [2] .one, .add 0 2, .mul 1 0 0 2]

theorem roundProg_ok : (∀ s ∈ roundProg, s.Within 2 2 ∧ s.NoModify ∧ CoeffsIn (Fl.Valid .f64) (Fl.Valid .f64) s) ∧ allowedProg (fun _ => 0) roundProg = true := by
  have h1 : Fl.Valid .f64 .one := (C50_closed .f64 (.inr rfl) .nan .nan trivial trivial 0).2.2.2.2.2.2.2.1
  have h3 : Fl.Valid .f64 (.fin 3) := ⟨by decide, 3, 0, by decide, by decide, by decide, by simp⟩
  refine ⟨fun s hs => ?_, by decide +kernel⟩
  simp only [roundProg, List.mem_cons, List.not_mem_nil, or_false] at hs
  rcases hs with rfl | rfl | rfl | rfl | rfl
  · exact ⟨⟨by simp [ValidWord], by decide⟩, trivial, h1⟩
  · exact ⟨trivial, trivial, h3⟩
  · exact ⟨⟨by simp [ValidWord], by decide⟩, trivial, h1⟩
  · exact ⟨trivial, trivial, trivial⟩
  · exact ⟨show (2 : Nat) ≤ 2 by decide, trivial, trivial⟩

/-- The square of the rounded third: three roundings, two of them of the thirds. -/
example : (fullProg (· / ·) (fun _ => 0) (fun _ _ => 0) (roundProg.map (PStmt.map Fl.val Fl.val)) 1 [1, 1],
    progCoef (sizes 0 0) (fun x => |x.val|) Fl.val roundProg 1 [1, 1],
    progCoef roundCounts (fun x => if x.val = 0 then none else some 0) Fl.val roundProg 1 [1, 1],
    progCoef roundCounts (fun x => if x.val = 0 then none else some 0) Fl.val roundProg 1 [2, 2],
    progCoef roundCounts (fun x => if x.val = 0 then none else some 0) Fl.val roundProg 1 [2]) = (1 / 9, 1 / 9, some 3, some 1, none) := by decide +kernel

example (p : Profile) := C110_accuracy p 2 (.inr rfl) (by decide) (by decide) 2 (by decide +kernel) (by decide) roundProg roundProg_ok.1 roundProg_ok.2
example (p : Profile) := C110_relative p 2 (.inr rfl) (by decide) (by decide) 2 (by decide +kernel) (by decide) roundProg roundProg_ok.1 roundProg_ok.2

/-- The coefficient of `a a` is finite, and within `10^-16` of 1/9. -/
example (p : Profile) : ∃ σ, runProg (floatCoeff .f64) p 2 roundProg = .ok σ ∧ ∀ k, fromLetters p 2 [1, 1] = .ok k →
    ∃ x, (DenseAlg.ops (floatCoeff .f64) p 2).get (σ 1) k = .ok x ∧ (x.getD (.zero false)).isFin = true ∧ |(x.getD (.zero false)).val - 1 / 9| ≤ 1 / 10 ^ 16 := by
  obtain ⟨σ, h1, h3⟩ := C110_no_overflow p 2 (.inr rfl) (by decide) (by decide) 2 (by decide +kernel) (by decide) roundProg roundProg_ok.1 roundProg_ok.2
  refine ⟨σ, h1, fun k hk => ?_⟩
  have e : (progCoef (cappedSizes (relErr .f64) (absErr .f64) (maxNum .f64)) (fun x => if x.isFin then some |x.val| else none) Fl.val roundProg 1 [1, 1]).any
      (fun t => decide (t - progCoef (sizes 0 0) (fun x => |x.val|) Fl.val roundProg 1 [1, 1] ≤ 1 / 10 ^ 16)) = true := by decide +kernel
  cases t1 : progCoef (cappedSizes (relErr .f64) (absErr .f64) (maxNum .f64)) (fun x => if x.isFin then some |x.val| else none) Fl.val roundProg 1 [1, 1] with
  | none => rw [t1] at e; cases e
  | some t =>
  rw [t1] at e
  have t2 := of_decide_eq_true (show decide _ = true from e)
  obtain ⟨x, x1, x2, x3⟩ := h3 1 [1, 1] k t (by simp [ValidWord]) (by decide +kernel) hk t1
  refine ⟨x, x1, x2, ?_⟩
  have e : fullProg (· / ·) (fun _ => 0) (fun _ _ => 0) (roundProg.map (PStmt.map Fl.val Fl.val)) 1 [1, 1] = (1 / 9 : Rat) := by decide +kernel
  rw [e] at x3
  exact x3.trans t2

end RA
