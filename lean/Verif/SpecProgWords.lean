import Verif.SpecProg

/-!
# Changing the truncation degrees and the letters of a program

Nothing in this file mentions the model.
-/

namespace RA.Spec
variable {S R : Type}

/-- The statement with its product truncated at `d`, if it went further. -/
def PStmt.cut (d : Nat) : PStmt S R → PStmt S R
  | .mul i j k D => .mul i j k (min d D)
  | .comm i j k D => .comm i j k (min d D)
  | .addMul i j k D => .addMul i j k (min d D)
  | .subMul i j k D => .subMul i j k (min d D)
  | s => s

/-- The statement with its letters replaced. -/
def PStmt.rename (f : Nat → Nat) : PStmt S R → PStmt S R
  | .word i w s => .word i (w.map f) s
  | .terms i items => .terms i (items.map fun e => (e.1.map f, e.2))
  | .modify i w g => .modify i (w.map f) g
  | .erase i w => .erase i (w.map f)
  | s => s

/-- The statement with its words read backwards and the factors of its product exchanged. -/
def PStmt.backwards : PStmt S R → PStmt S R
  | .word i w s => .word i w.reverse s
  | .terms i items => .terms i (items.map fun e => (e.1.reverse, e.2))
  | .modify i w g => .modify i w.reverse g
  | .erase i w => .erase i w.reverse
  | .mul i j k D => .mul i k j D
  | .comm i j k D => .comm i k j D
  | .addMul i j k D => .addMul i k j D
  | .subMul i j k D => .subMul i k j D
  | s => s

end RA.Spec
