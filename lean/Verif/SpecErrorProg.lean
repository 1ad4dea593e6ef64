import Verif.SpecProgAll
import Mathlib.Algebra.Order.Field.Rat
import Mathlib.Algebra.Order.Group.Abs

/-!
# Specification of rounding errors of programs

A program is run three more times, each time with other numbers in place of its coefficients: with magnitudes, with numbers of roundings, and with magnitudes that give up
when they become too large.  Nothing in this file mentions the model.
-/

namespace RA.Spec

/-- The statement with every scalar replaced.  (`modify` is not covered.) -/
def PStmt.map {S R S' R' : Type} (f : S → S') (g : R → R') : PStmt S R → PStmt S' R'
  | .zero i => .zero i
  | .word i w s => .word i w (f s)
  | .terms i items => .terms i (items.map fun e => (e.1, f e.2))
  | .copy i j => .copy i j
  | .swap i j => .swap i j
  | .clear i => .clear i
  | .modify i w _ => .modify i w id
  | .erase i w => .erase i w
  | .neg i => .neg i
  | .add i j => .add i j
  | .sub i j => .sub i j
  | .scale i s => .scale i (f s)
  | .div i r => .div i (g r)
  | .mul i j k D => .mul i j k D
  | .comm i j k D => .comm i j k D
  | .addMul i j k D => .addMul i j k D
  | .subMul i j k D => .subMul i j k D

/-- The statement does not apply a function to an entry. -/
def PStmt.NoModify {S R : Type} : PStmt S R → Prop
  | .modify _ _ _ => False
  | _ => True

/-- Sum of two magnitudes; sums with a term known to be zero are not rounded. -/
def sizeAdd (u a b : Rat) : Rat := if a = 0 then b else if b = 0 then a else (1 + u) * (a + b)

/-- A rounded product or quotient of magnitude `x`; zero is not rounded. -/
def sizeRound (u η x : Rat) : Rat := if x = 0 then 0 else (1 + u) * x + η

/-- Arithmetic with magnitudes: no cancellation, and each operation enlarges its result by a factor `1 + u`, and each product or quotient by `η` as well.  With `u = η = 0`
these are sums of the absolute values of all terms. -/
def sizes (u η : Rat) : Coeff Rat Rat where
  zero := 0
  one := 1
  mone := 1
  uminus a := a
  inv r := sizeRound u η |1 / r|
  add a b := sizeAdd u a b
  sub a b := sizeAdd u a b
  mul a b := sizeRound u η (a * b)
  div a r := sizeRound u η (a / |r|)
  fromDegree n := n
  ratFromDegree n := n
  eq a b := decide (a = b)

/-- Counting roundings; `none` stands for a number known to be zero. -/
def roundCounts : Coeff (Option Nat) Rat where
  zero := none
  one := some 0
  mone := some 0
  uminus k := k
  inv _ := some 1
  add | none, k => k | k, none => k | some k, some l => some (max k l + 1)
  sub | none, k => k | k, none => k | some k, some l => some (max k l + 1)
  mul | some k, some l => some (k + l + 1) | _, _ => none
  div k _ := k.map (· + 1)
  fromDegree _ := some 1
  ratFromDegree n := n
  eq k l := decide (k = l)

/-- The number, if it is at most `B`. -/
def upTo (B x : Rat) : Option Rat := if x ≤ B then some x else none

/-- Arithmetic with magnitudes that gives up (`none`) at magnitudes above `B` and at divisions by zero. -/
def cappedSizes (u η B : Rat) : Coeff (Option Rat) Rat where
  zero := some 0
  one := some 1
  mone := some 1
  uminus a := a
  inv r := if r = 0 then none else upTo B (sizeRound u η |1 / r|)
  add | some a, some b => upTo B (sizeAdd u a b) | _, _ => none
  sub | some a, some b => upTo B (sizeAdd u a b) | _, _ => none
  mul | some a, some b => upTo B (sizeRound u η (a * b)) | _, _ => none
  div | some a, r => if r = 0 then none else upTo B (sizeRound u η (a / |r|)) | none, _ => none
  fromDegree n := some n
  ratFromDegree n := n
  eq a b := decide (a = b)

/-- What the program leaves in register `i` at the word `w`, run on other scalars. -/
def progCoef {S R S' R' : Type} (C : Coeff S' R') (f : S → S') (g : R → R') (prog : List (PStmt S R)) (i : Nat) (w : List Nat) : S' :=
  ((evalProg C (fun _ => TReg.empty) (prog.map (PStmt.map f g)) i).coef w).getD C.zero

end RA.Spec
