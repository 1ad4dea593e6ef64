import Verif.SpecAlg
import Mathlib.Algebra.BigOperators.Ring.List
import Mathlib.Data.List.Lex
import Mathlib.Data.List.Rotate
import Mathlib.Algebra.Module.Pi
import Mathlib.Algebra.Module.Submodule.Basic

/-!
# Specification: Lyndon words and the space of Lie elements

Nothing in this file mentions the model.
-/

namespace RA.Spec

/-- Lyndon words: non-empty words that come strictly before all their proper rotations in the dictionary. -/
def Lyndon (w : List Nat) : Prop := w ≠ [] ∧ ∀ k, 0 < k → k < w.length → w < w.rotate k

instance (w : List Nat) : Decidable (Lyndon w) :=
  decidable_of_iff (w ≠ [] ∧ ∀ k < w.length, 0 < k → w < w.rotate k) ⟨fun h => ⟨h.1, fun k a b => h.2 k b a⟩, fun h => ⟨h.1, fun k a b => h.2 k b a⟩⟩

/-- The Lyndon words of length `n` over the letters `1..N`. -/
def lyndonWords (N n : Nat) : List (List Nat) := (allWords N n).filter fun w => decide (Lyndon w)

/-- The Lie elements whose degrees satisfy `P`: coefficient functions on the words over `1..N` whose lengths satisfy `P`, without constant term, such that the sum
over the shuffles of two non-empty words is always zero (Ree's criterion). -/
def lieSpace (S : Type) [CommRing S] (N : Nat) (P : Nat → Prop) : Submodule S (List Nat → S) where
  carrier := {f | (∀ w, ¬ (ValidWord N w ∧ P w.length) → f w = 0) ∧ f [] = 0 ∧ ∀ u v, u ≠ [] → v ≠ [] → ((shuffles u v).map f).sum = 0}
  zero_mem' := ⟨fun _ _ => rfl, rfl, fun u v _ _ => by
    have : (shuffles u v).map (0 : List Nat → S) = (shuffles u v).map (fun _ => (0 : S)) := rfl
    rw [this]
    simp⟩
  add_mem' := by
    rintro f g ⟨f1, f2, f3⟩ ⟨g1, g2, g3⟩
    refine ⟨fun w hw => by simp [f1 w hw, g1 w hw], by simp [f2, g2], fun u v hu hv => ?_⟩
    have : (shuffles u v).map (f + g) = (shuffles u v).map (fun w => f w + g w) := rfl
    rw [this, List.sum_map_add, f3 u v hu hv, g3 u v hu hv, add_zero]
  smul_mem' := by
    rintro c f ⟨f1, f2, f3⟩
    refine ⟨fun w hw => by simp [f1 w hw], by simp [f2], fun u v hu hv => ?_⟩
    have : (shuffles u v).map (c • f) = (shuffles u v).map (fun w => c * f w) := rfl
    rw [this, List.sum_map_mul_left, f3 u v hu hv, mul_zero]

end RA.Spec
