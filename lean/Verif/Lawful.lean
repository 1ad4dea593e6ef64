import Verif.Model.Coeff
import Mathlib.Algebra.Field.Rat
import Mathlib.Tactic.Ring

/-!
# Exact coefficients

The predicates under which algebraic statements are made: the operations of a coefficient record are those of a commutative ring, or of a field.
They do not hold for `f32`/`f64`; structural statements do not use them.
-/

namespace RA

/-- The operations (apart from division) are those of a commutative ring. -/
structure Coeff.IsRing {S R : Type} (C : Coeff S R) [CommRing S] : Prop where
  zero : C.zero = 0
  one : C.one = 1
  mone : C.mone = -1
  uminus : ∀ a, C.uminus a = -a
  add : ∀ a b, C.add a b = a + b
  sub : ∀ a b, C.sub a b = a - b
  mul : ∀ a b, C.mul a b = a * b

/-- The operations are those of a field and `RationalType` is the field itself. -/
structure Coeff.IsField {S : Type} (C : Coeff S S) [Field S] : Prop extends C.IsRing where
  div : ∀ a b, C.div a b = a / b
  inv : ∀ a, C.inv a = a⁻¹
  fromDegree : ∀ n, C.fromDegree n = (n : S)
  ratFromDegree : ∀ n, C.ratFromDegree n = (n : S)

/-- `==` is equality. -/
def Coeff.EqLawful {S R : Type} (C : Coeff S R) : Prop := ∀ a b, C.eq a b = true ↔ a = b

/-- A field as a coefficient record. -/
def fieldCoeff (S : Type) [Field S] [DecidableEq S] : Coeff S S :=
  { zero := 0, one := 1, mone := -1, uminus := fun a => -a, inv := fun a => a⁻¹, add := (· + ·), sub := (· - ·), mul := (· * ·),
    div := (· / ·), fromDegree := fun n => (n : S), ratFromDegree := fun n => (n : S), eq := fun a b => decide (a = b) }

theorem fieldCoeff_isField (S : Type) [Field S] [DecidableEq S] : (fieldCoeff S).IsField :=
  { zero := rfl, one := rfl, mone := rfl, uminus := fun _ => rfl, add := fun _ _ => rfl, sub := fun _ _ => rfl, mul := fun _ _ => rfl,
    div := fun _ _ => rfl, inv := fun _ => rfl, fromDegree := fun _ => rfl, ratFromDegree := fun _ => rfl }

theorem fieldCoeff_eqLawful (S : Type) [Field S] [DecidableEq S] : (fieldCoeff S).EqLawful := by
  intro a b; simp [fieldCoeff]

/-- Integers (division truncates and is not lawful), for examples that compute. -/
def intCoeff : Coeff Int Int :=
  { zero := 0, one := 1, mone := -1, uminus := fun a => -a, inv := fun a => 1 / a, add := (· + ·), sub := (· - ·), mul := (· * ·),
    div := fun a b => a / b, fromDegree := fun n => (n : Int), ratFromDegree := fun n => (n : Int), eq := fun a b => decide (a = b) }

theorem intCoeff_isRing : intCoeff.IsRing :=
  { zero := rfl, one := rfl, mone := rfl, uminus := fun _ => rfl, add := fun _ _ => rfl, sub := fun _ _ => rfl, mul := fun _ _ => rfl }

theorem intCoeff_eqLawful : intCoeff.EqLawful := by intro a b; simp [intCoeff]

end RA
