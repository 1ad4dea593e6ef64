import Verif.SpecError

/-!
# Specification of the magnitude of an expression

Nothing in this file mentions the model.
-/

namespace RA.Spec

/-- The expression evaluated with absolute values and no cancellation: the sum of the sizes of all terms of its expansion, per word. -/
def TExpr.mass {S : Type} (size : S → Nat) : TExpr S → List Nat → Int
  | .term w s => fun u => if u = w then (size s : Int) else 0
  | .add a b => fun u => a.mass size u + b.mass size u
  | .sub a b => fun u => a.mass size u + b.mass size u
  | .neg a => fun u => a.mass size u
  | .smul s a => fun u => (size s : Int) * a.mass size u
  | .mul a b => conv (a.mass size) (b.mass size)
  | .comm a b => fun u => conv (a.mass size) (b.mass size) u + conv (b.mass size) (a.mass size) u

/-- The sum of the sizes of all terms of the expansion of the expression, for all words together. -/
def TExpr.total {S : Type} (size : S → Nat) : TExpr S → Nat
  | .term _ s => size s
  | .add a b | .sub a b => a.total size + b.total size
  | .neg a => a.total size
  | .smul s a => size s * a.total size
  | .mul a b => a.total size * b.total size
  | .comm a b => 2 * (a.total size * b.total size)

/-- Only sums, products and multiples. -/
def TExpr.Positive {S : Type} : TExpr S → Prop
  | .term _ _ => True
  | .add a b | .mul a b => a.Positive ∧ b.Positive
  | .smul _ a => a.Positive
  | .sub _ _ | .neg _ | .comm _ _ => False

end RA.Spec
