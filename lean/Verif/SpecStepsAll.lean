import Verif.SpecSteps
import Verif.SpecProgAll

/-!
# Specification of the numbers that programs go through, with division and changes of single entries

Nothing in this file mentions the model.
-/

namespace RA.Spec
variable {S R : Type} [CommRing S] (ok : S → Prop) (can : S → R → Prop) (q : S → R → S)

/-- The numbers that a statement computes at the word `w` are in order; `can` says which divisions are possible.  A division concerns the words for which the register has
room, also those of coefficient zero; `l` gives the levels. -/
def PStmt.FullNumbersIn (l : Nat → Nat) (ρ : Nat → List Nat → S) (w : List Nat) : PStmt S R → Prop
  | .div i r => w.length < l i → can (ρ i w) r
  | .modify _ _ _ => True
  | s => s.NumbersIn ok ρ w

/-- All numbers that a program computes, at words over `N` letters of length at most `D`, are in order. -/
def FullNumbersIn (N D : Nat) (l : Nat → Nat) (ρ : Nat → List Nat → S) : List (PStmt S R) → Prop
  | [] => True
  | s :: prog => (∀ w, ValidWord N w → w.length ≤ D → s.FullNumbersIn ok can l ρ w) ∧ FullNumbersIn N D (s.levels l) (s.fullValue q l ρ) prog

/-- The scalars written in a statement are in order, and functions that change single entries keep numbers in order. -/
def PStmt.FullScalars : PStmt S R → Prop
  | .modify _ _ f => ∀ x, ok x → ok (f x)
  | s => s.Scalars ok

/-- Division of checked integers: the divisor is not zero, and the quotient lies in the range. -/
def CanDivide (lo hi x r : Int) : Prop := r ≠ 0 ∧ Between lo hi (x.tdiv r)

end RA.Spec
