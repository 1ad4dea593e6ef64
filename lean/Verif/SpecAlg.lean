import Verif.SpecTensor
import Mathlib.Algebra.Algebra.Defs
import Mathlib.Algebra.BigOperators.Group.List.Basic

/-!
# Specification: words in an algebra, shuffles, Lie expressions

Nothing in this file mentions the model.
-/

namespace RA.Spec

/-- All words of length `n` over the letters `1..N`. -/
def allWords (N : Nat) : Nat → List (List Nat)
  | 0 => [[]]
  | n + 1 => (List.range' 1 N).flatMap fun l => (allWords N n).map (l :: ·)

/-- The part of degree `n` of a coefficient function, evaluated in an algebra by putting `z l` for the letter `l`. -/
def evalDeg {S A : Type} [CommRing S] [Ring A] [Algebra S A] (N : Nat) (z : Nat → A) (f : List Nat → S) (n : Nat) : A :=
  ((allWords N n).map fun w => f w • (w.map z).prod).sum

/-- The shuffles of two words: all words in which both occur as complementary subsequences, with multiplicity. -/
def shuffles : List Nat → List Nat → List (List Nat)
  | [], v => [v]
  | a :: u, [] => [a :: u]
  | a :: u, b :: v => (shuffles u (b :: v)).map (a :: ·) ++ (shuffles (a :: u) v).map (b :: ·)
termination_by u v => u.length + v.length

/-- Lie expressions: combinations of letters with brackets. -/
def TExpr.IsLie {S : Type} : TExpr S → Prop
  | .term w _ => w.length = 1
  | .add a b | .sub a b | .comm a b => a.IsLie ∧ b.IsLie
  | .neg a | .smul _ a => a.IsLie
  | .mul _ _ => False

end RA.Spec
