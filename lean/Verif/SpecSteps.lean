import Verif.SpecMassProg

/-!
# Specification of the numbers a program goes through

Which numbers are in order is a parameter `ok`: those within a range, or those that a number format can represent.  Nothing in this file mentions the model.
-/

namespace RA.Spec

/-- `x` lies in the range. -/
def Between (lo hi x : Int) : Prop := lo ≤ x ∧ x ≤ hi

section
variable {S R : Type} [CommRing S] (ok : S → Prop)

/-- The terms are added to `x` one after the other: every partial sum is in order. -/
def SumsIn : S → List S → Prop
  | _, [] => True
  | x, t :: l => ok (x + t) ∧ SumsIn (x + t) l

/-- The terms of the coefficient of `w` in the product, longest left factor first. -/
def prodTerms (f g : List Nat → S) (w : List Nat) : List S := (splits w).map fun uv => f uv.1 * g uv.2

/-- `ε` times the product is added to `x` at the word `w`, term by term: every term, `ε` times every term and every partial sum are in order. -/
def ProdIn (ε x : S) (f g : List Nat → S) (w : List Nat) : Prop :=
  (∀ t ∈ prodTerms f g w, ok t ∧ ok (ε * t)) ∧ SumsIn ok x ((prodTerms f g w).map (ε * ·))

/-- The numbers that a statement computes at the word `w` are in order. -/
def PStmt.NumbersIn (ρ : Nat → List Nat → S) (w : List Nat) : PStmt S R → Prop
  | .terms _ items => SumsIn ok 0 (itemValues items w)
  | .neg i => ok (-ρ i w)
  | .add i j => ok (ρ i w + ρ j w)
  | .sub i j => ok (ρ i w - ρ j w)
  | .scale i s => ok (ρ i w * s)
  | .mul _ j k D => w.length ≤ D → ProdIn ok 1 0 (ρ j) (ρ k) w
  | .comm _ j k D => w.length ≤ D → ProdIn ok 1 0 (ρ j) (ρ k) w ∧ ProdIn ok (-1) (conv (ρ j) (ρ k) w) (ρ k) (ρ j) w
  | .addMul i j k D => w.length ≤ D → ProdIn ok 1 (ρ i w) (ρ j) (ρ k) w
  | .subMul i j k D => w.length ≤ D → ProdIn ok (-1) (ρ i w) (ρ j) (ρ k) w
  | _ => True

/-- All numbers that a program computes, at words over `N` letters of length at most `D`, are in order. -/
def NumbersIn (N D : Nat) (ρ : Nat → List Nat → S) : List (PStmt S R) → Prop
  | [] => True
  | s :: prog => (∀ w, ValidWord N w → w.length ≤ D → s.NumbersIn ok ρ w) ∧ NumbersIn N D (s.value ρ) prog

/-- The numbers that the last operation of an expression computes at the word `w` are in order. -/
def TExpr.StepIn (w : List Nat) : TExpr S → Prop
  | .term _ _ => True
  | .add a b => ok (a.value w + b.value w)
  | .sub a b => ok (a.value w - b.value w)
  | .neg a => ok (-a.value w)
  | .smul s a => ok (a.value w * s)
  | .mul a b => ProdIn ok 1 0 a.value b.value w
  | .comm a b => ProdIn ok 1 0 a.value b.value w ∧ ProdIn ok (-1) (conv a.value b.value w) b.value a.value w

/-- All numbers that the evaluation of an expression computes, at words over `N` letters of length at most `D`, are in order. -/
def TExpr.NumbersIn (N D : Nat) (e : TExpr S) : Prop := e.Everywhere fun a => ∀ w, ValidWord N w → w.length ≤ D → a.StepIn ok w

end

section
variable {R : Type}

/-- No products, and no sums of more than two terms. -/
def PStmt.Linear : PStmt Int R → Prop
  | .terms _ _ | .mul _ _ _ _ | .comm _ _ _ _ | .addMul _ _ _ _ | .subMul _ _ _ _ | .modify _ _ _ | .div _ _ => False
  | _ => True

end
end RA.Spec
