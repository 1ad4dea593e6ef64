import Verif.SpecMass
import Verif.SpecProg

/-!
# Specification of the magnitudes a program goes through

Nothing in this file mentions the model.
-/

namespace RA.Spec

section
variable {S R : Type}

/-- Effect of a statement on absolute values, with no cancellation: for each register and word, the sum of the sizes of all terms.  (`modify` and `div` are not covered.) -/
def PStmt.mass (size : S → Nat) (ρ : Nat → List Nat → Int) : PStmt S R → Nat → List Nat → Int
  | .zero i | .clear i => setReg ρ i fun _ => 0
  | .word i w s => setReg ρ i fun u => if u = w then (size s : Int) else 0
  | .terms i items => setReg ρ i fun u => ((itemValues items u).map fun s => (size s : Int)).sum
  | .copy i j => setReg ρ i (ρ j)
  | .swap i j => setReg (setReg ρ i (ρ j)) j (ρ i)
  | .erase i w => setReg ρ i fun u => if u = w then 0 else ρ i u
  | .neg _ => ρ
  | .add i j | .sub i j => setReg ρ i fun u => ρ i u + ρ j u
  | .scale i s => setReg ρ i fun u => ρ i u * size s
  | .mul i j k D => setReg ρ i (cutProd D (ρ j) (ρ k))
  | .comm i j k D => setReg ρ i fun u => cutProd D (ρ j) (ρ k) u + cutProd D (ρ k) (ρ j) u
  | .addMul i j k D | .subMul i j k D => setReg ρ i fun u => ρ i u + cutProd D (ρ j) (ρ k) u
  | .modify _ _ _ | .div _ _ => ρ

/-- After every statement, the magnitude of every word over `N` letters of length at most `D` is at most `B`, in every register. -/
def MassBelow (size : S → Nat) (N D : Nat) (B : Nat) (ρ : Nat → List Nat → Int) : List (PStmt S R) → Prop
  | [] => True
  | s :: prog => (∀ i w, ValidWord N w → w.length ≤ D → s.mass size ρ i w ≤ B) ∧ MassBelow size N D B (s.mass size ρ) prog

/-- Effect of a statement on the sums of the sizes of all terms, for all words together; erasing a term is not taken into account. -/
def PStmt.total (size : S → Nat) (t : Nat → Nat) : PStmt S R → Nat → Nat
  | .zero i | .clear i => setReg t i 0
  | .word i _ s => setReg t i (size s)
  | .terms i items => setReg t i (items.map fun e => size e.2).sum
  | .copy i j => setReg t i (t j)
  | .swap i j => setReg (setReg t i (t j)) j (t i)
  | .add i j | .sub i j => setReg t i (t i + t j)
  | .scale i s => setReg t i (t i * size s)
  | .mul i j k _ => setReg t i (t j * t k)
  | .comm i j k _ => setReg t i (2 * (t j * t k))
  | .addMul i j k _ | .subMul i j k _ => setReg t i (t i + t j * t k)
  | .erase _ _ | .neg _ | .modify _ _ _ | .div _ _ => t

/-- After every statement these sums are at most `B`. -/
def TotalBelow (size : S → Nat) (B : Nat) (t : Nat → Nat) : List (PStmt S R) → Prop
  | [] => True
  | s :: prog => (∀ i, s.total size t i ≤ B) ∧ TotalBelow size B (s.total size t) prog

/-- After every statement, every register has its coefficients at words over `N` letters of length at most `D` between `lo` and `hi`. -/
def ValuesIn (N D : Nat) (lo hi : Int) (ρ : Nat → List Nat → Int) : List (PStmt Int R) → Prop
  | [] => True
  | s :: prog => (∀ i w, ValidWord N w → w.length ≤ D → lo ≤ s.value ρ i w ∧ s.value ρ i w ≤ hi) ∧ ValuesIn N D lo hi (s.value ρ) prog

/-- The scalars that the statement mentions. -/
def PStmt.Scalars (P : S → Prop) : PStmt S R → Prop
  | .word _ _ s | .scale _ s => P s
  | .terms _ items => ∀ e ∈ items, P e.2
  | _ => True

/-- Only sums, products and multiples. -/
def PStmt.Positive : PStmt S R → Prop
  | .sub _ _ | .neg _ | .comm _ _ _ _ | .subMul _ _ _ _ | .modify _ _ _ | .div _ _ => False
  | _ => True

end
end RA.Spec
