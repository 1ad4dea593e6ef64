import Verif.SpecTensor
import Mathlib.Algebra.BigOperators.Group.List.Basic
import Mathlib.Algebra.BigOperators.Ring.List

/-!
# Lemmas about the concatenation product of coefficient functions
-/

namespace RA
open Spec

section
variable {S : Type} [CommRing S]

theorem conv_congr {f f' g g' : List Nat → S} (w : List Nat) (hf : ∀ u, u.length ≤ w.length → f u = f' u)
    (hg : ∀ u, u.length ≤ w.length → g u = g' u) : conv f g w = conv f' g' w := by
  induction w generalizing f f' with
  | nil => simp [conv, hf, hg]
  | cons l w ih =>
    rw [conv, conv, hf [] (by simp), hg (l :: w) (by simp), ih (fun u hu => hf _ (by simpa using hu)) (fun u hu => hg _ (by simp; omega))]

theorem conv_add_left (f f' g : List Nat → S) (w : List Nat) : conv (fun u => f u + f' u) g w = conv f g w + conv f' g w := by
  induction w generalizing f f' with
  | nil => simp only [conv]; ring
  | cons l w ih => rw [conv, conv, conv, ih]; ring

theorem conv_add_right (f g g' : List Nat → S) (w : List Nat) : conv f (fun u => g u + g' u) w = conv f g w + conv f g' w := by
  induction w generalizing f with
  | nil => simp only [conv]; ring
  | cons l w ih => rw [conv, conv, conv, ih]; ring

theorem conv_smul_left (c : S) (f g : List Nat → S) (w : List Nat) : conv (fun u => c * f u) g w = c * conv f g w := by
  induction w generalizing f with
  | nil => simp only [conv]; ring
  | cons l w ih => rw [conv, conv, ih]; ring

theorem conv_smul_right (c : S) (f g : List Nat → S) (w : List Nat) : conv f (fun u => c * g u) w = c * conv f g w := by
  induction w generalizing f with
  | nil => simp only [conv]; ring
  | cons l w ih => rw [conv, conv, ih]; ring

theorem conv_neg_right (f g : List Nat → S) (w : List Nat) : conv f (fun u => - g u) w = - conv f g w := by
  have := conv_smul_right (-1) f g w
  simpa using this

theorem conv_neg_left (f g : List Nat → S) (w : List Nat) : conv (fun u => - f u) g w = - conv f g w := by
  have := conv_smul_left (-1) f g w
  simpa using this

theorem conv_sub_right (f g g' : List Nat → S) (w : List Nat) : conv f (fun u => g u - g' u) w = conv f g w - conv f g' w := by
  have := conv_add_right f g (fun u => - g' u) w
  rw [conv_neg_right] at this
  simpa [sub_eq_add_neg] using this

theorem conv_sub_left (f f' g : List Nat → S) (w : List Nat) : conv (fun u => f u - f' u) g w = conv f g w - conv f' g w := by
  have := conv_add_left f (fun u => - f' u) g w
  rw [conv_neg_left] at this
  simpa [sub_eq_add_neg] using this

theorem conv_zero_left (g : List Nat → S) (w : List Nat) : conv (fun _ => 0) g w = 0 := by
  have := conv_smul_left 0 (fun _ => (0 : S)) g w
  simpa using this

theorem conv_assoc (f g h : List Nat → S) (w : List Nat) : conv (conv f g) h w = conv f (conv g h) w := by
  induction w generalizing f g with
  | nil => simp only [conv]; ring
  | cons l w ih =>
    rw [conv, conv]
    have e : (fun u => conv f g (l :: u)) = fun u => f [] * g (l :: u) + conv (fun u => f (l :: u)) g u := rfl
    rw [e, conv_add_left, conv_smul_left, ih, conv]
    simp only [conv]
    ring

theorem conv_unit_left (g : List Nat → S) (w : List Nat) : conv unitFn g w = g w := by
  cases w with
  | nil => simp [conv, unitFn]
  | cons l w =>
    have : (fun u : List Nat => (unitFn (l :: u) : S)) = fun _ => 0 := by funext u; simp [unitFn]
    rw [conv, this, conv_zero_left]
    simp [unitFn]

theorem conv_unit_right (f : List Nat → S) (w : List Nat) : conv f unitFn w = f w := by
  induction w generalizing f with
  | nil => simp [conv, unitFn]
  | cons l w ih =>
    rw [conv, ih]
    simp [unitFn]

theorem conv_eq_sum (f g : List Nat → S) (w : List Nat) :
    conv f g w = ((List.range (w.length + 1)).map fun k => f (w.take k) * g (w.drop k)).sum := by
  induction w generalizing f with
  | nil => simp [conv]
  | cons l w ih =>
    rw [conv, ih, List.length_cons, List.range_succ_eq_map (n := w.length + 1), List.map_cons, List.sum_cons, List.map_map]
    rfl

theorem splits_spec (w u v : List Nat) : (u, v) ∈ splits w ↔ u ++ v = w := by
  unfold splits
  simp only [List.mem_map, List.mem_reverse, List.mem_range, Prod.mk.injEq]
  constructor
  · rintro ⟨k, _, rfl, rfl⟩
    exact List.take_append_drop k w
  · rintro rfl
    exact ⟨u.length, by simp; omega, by simp, by simp⟩

theorem foldl_add_sum (l : List S) (z : S) : l.foldl (· + ·) z = z + l.sum := by
  induction l generalizing z with
  | nil => simp
  | cons x l ih => rw [List.foldl_cons, ih, List.sum_cons]; ring

/-- The stored products, summed in any order, give the concatenation product of the coefficient functions extended by zero. -/
theorem splitProducts_sum (a b : List Nat → Option S) (w : List Nat) :
    (splitProducts (· * ·) a b w).sum = conv (fun u => (a u).getD 0) (fun u => (b u).getD 0) w := by
  rw [conv_eq_sum]
  unfold splitProducts splits
  rw [List.filterMap_map]
  have key : ∀ L : List Nat, (L.filterMap ((fun uv : List Nat × List Nat => match a uv.1, b uv.2 with
      | some x, some y => some (x * y)
      | _, _ => none) ∘ fun k => (w.take k, w.drop k))).sum =
      (L.map fun k => (a (w.take k)).getD 0 * (b (w.drop k)).getD 0).sum := by
    intro L
    induction L with
    | nil => rfl
    | cons k L ih =>
      rw [List.map_cons, List.sum_cons, ← ih]
      simp only [List.filterMap_cons, Function.comp]
      cases a (w.take k) <;> cases b (w.drop k) <;> simp
  refine (key _).trans ?_
  rw [List.map_reverse, List.sum_reverse]

end
end RA
