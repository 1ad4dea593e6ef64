import Verif.SpecTensor
import Mathlib.Algebra.Order.Field.Rat
import Mathlib.Algebra.Order.Group.Abs

/-!
# Specification of rounding errors of expressions

Nothing in this file mentions the model.
-/

namespace RA.Spec

/-- The expression with every scalar replaced. -/
def TExpr.map {S T : Type} (f : S → T) : TExpr S → TExpr T
  | .term w s => .term w (f s)
  | .add a b => .add (a.map f) (b.map f)
  | .sub a b => .sub (a.map f) (b.map f)
  | .neg a => .neg (a.map f)
  | .smul s a => .smul (f s) (a.map f)
  | .mul a b => .mul (a.map f) (b.map f)
  | .comm a b => .comm (a.map f) (b.map f)

/-- `P` holds of every scalar of the expression. -/
def TExpr.Scalars {S : Type} (P : S → Prop) : TExpr S → Prop
  | .term _ s => P s
  | .add a b | .sub a b | .mul a b | .comm a b => a.Scalars P ∧ b.Scalars P
  | .neg a => a.Scalars P
  | .smul s a => P s ∧ a.Scalars P

/-- `P` holds of the expression and all its subexpressions. -/
def TExpr.Everywhere {S : Type} (P : TExpr S → Prop) : TExpr S → Prop
  | .term w s => P (.term w s)
  | .add a b => P (.add a b) ∧ a.Everywhere P ∧ b.Everywhere P
  | .sub a b => P (.sub a b) ∧ a.Everywhere P ∧ b.Everywhere P
  | .neg a => P (.neg a) ∧ a.Everywhere P
  | .smul s a => P (.smul s a) ∧ a.Everywhere P
  | .mul a b => P (.mul a b) ∧ a.Everywhere P ∧ b.Everywhere P
  | .comm a b => P (.comm a b) ∧ a.Everywhere P ∧ b.Everywhere P

/-- The expression evaluated with absolute values and no cancellation, where each operation enlarges its result by a factor `1 + u` per rounding and by `η`
per product of scalars.  With `u = η = 0` this is the magnitude of the expression: the sum of the absolute values of all terms of its expansion. -/
def TExpr.inflate (u η : Rat) : TExpr Rat → List Nat → Rat
  | .term w s => fun v => if v = w then |s| else 0
  | .add a b => fun w => (1 + u) * (a.inflate u η w + b.inflate u η w)
  | .sub a b => fun w => (1 + u) * (a.inflate u η w + b.inflate u η w)
  | .neg a => fun w => a.inflate u η w
  | .smul s a => fun w => (1 + u) * (|s| * a.inflate u η w) + η
  | .mul a b => fun w =>
    (1 + u) ^ (w.length + 1 + 1) * conv (a.inflate u η) (b.inflate u η) w + (w.length + 1 : Nat) * (1 + u) ^ (w.length + 1) * η
  | .comm a b => fun w =>
    (1 + u) ^ (2 * (w.length + 1) + 1) * (conv (a.inflate u η) (b.inflate u η) w + conv (b.inflate u η) (a.inflate u η) w) +
      (2 * (w.length + 1) : Nat) * (1 + u) ^ (2 * (w.length + 1)) * η

/-- The number of roundings, one after the other, in the coefficients of words of length at most `n`. -/
def TExpr.roundings {S : Type} (n : Nat) : TExpr S → Nat
  | .term _ _ => 0
  | .add a b | .sub a b => max (a.roundings n) (b.roundings n) + 1
  | .neg a => a.roundings n
  | .smul _ a => a.roundings n + 1
  | .mul a b => a.roundings n + b.roundings n + (n + 2)
  | .comm a b => a.roundings n + b.roundings n + (2 * n + 3)

end RA.Spec
