import Verif.SpecProg

/-!
# Specification of programs that divide and that change single entries

Nothing in this file mentions the model.
-/

namespace RA.Spec
variable {S R : Type} [CommRing S] (q : S → R → S)

/-- Effect of any statement on coefficient functions; `q` divides coefficients.  A change of one entry takes place if the register has the level of its word; `l` gives the
levels. -/
def PStmt.fullValue (l : Nat → Nat) (ρ : Nat → List Nat → S) : PStmt S R → Nat → List Nat → S
  | .div i r => setReg ρ i fun u => q (ρ i u) r
  | .modify i w f => setReg ρ i fun u => if u = w ∧ w.length < l i then f (ρ i u) else ρ i u
  | s => s.value ρ

/-- Effect of a program on levels and coefficient functions. -/
def fullProg (l : Nat → Nat) (ρ : Nat → List Nat → S) : List (PStmt S R) → Nat → List Nat → S
  | [] => ρ
  | s :: prog => fullProg (s.levels l) (s.fullValue q l ρ) prog

end RA.Spec
