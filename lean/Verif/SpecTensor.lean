import Verif.Spec
import Mathlib.Algebra.Ring.Defs
import Mathlib.Tactic.Ring

/-!
# Specification of the tensor product

Nothing in this file mentions the model.  A tensor is its coefficient function on words.
-/

namespace RA.Spec

/-- The splittings `w = u ++ v`, longest `u` first. -/
def splits (w : List Nat) : List (List Nat × List Nat) :=
  (List.range (w.length + 1)).reverse.map fun k => (w.take k, w.drop k)

/-- The products `a_u * b_v` over the splittings of `w` for which both coefficients are stored. -/
def splitProducts {S : Type} (mul : S → S → S) (a b : List Nat → Option S) (w : List Nat) : List S :=
  (splits w).filterMap fun uv => match a uv.1, b uv.2 with
    | some x, some y => some (mul x y)
    | _, _ => none

/-- Concatenation product of two coefficient functions: the sum of `f u * g v` over all splittings `w = u ++ v`, by recursion on `w`. -/
def conv {S : Type} [CommRing S] (f g : List Nat → S) : List Nat → S
  | [] => f [] * g []
  | l :: w => f [] * g (l :: w) + conv (fun u => f (l :: u)) g w

/-- The coefficient function of the unit. -/
def unitFn {S : Type} [CommRing S] (w : List Nat) : S := if w = [] then 1 else 0

/-- Expressions over the words of an alphabet: `term w s` is `s` times the word `w`. -/
inductive TExpr (S : Type) where
  | term (w : List Nat) (s : S)
  | add (a b : TExpr S)
  | sub (a b : TExpr S)
  | neg (a : TExpr S)
  | smul (s : S) (a : TExpr S)
  | mul (a b : TExpr S)
  | comm (a b : TExpr S)

/-- The coefficient function of an expression in the free associative algebra (no truncation). -/
def TExpr.value {S : Type} [CommRing S] : TExpr S → List Nat → S
  | .term w s => fun u => if u = w then s else 0
  | .add a b => fun u => a.value u + b.value u
  | .sub a b => fun u => a.value u - b.value u
  | .neg a => fun u => - a.value u
  | .smul s a => fun u => s * a.value u
  | .mul a b => conv a.value b.value
  | .comm a b => fun u => conv a.value b.value u - conv b.value a.value u

/-- All words of the expression are words over `N` letters, of length at most `D`. -/
def TExpr.Words {S : Type} (N D : Nat) : TExpr S → Prop
  | .term w _ => ValidWord N w ∧ w.length ≤ D
  | .add a b | .sub a b | .mul a b | .comm a b => a.Words N D ∧ b.Words N D
  | .neg a | .smul _ a => a.Words N D

/-- The degree of an expression, truncated at `D`: the length of the longest word that occurs when it is expanded without cancelling. -/
def TExpr.deg {S : Type} (D : Nat) : TExpr S → Nat
  | .term w _ => w.length
  | .add a b | .sub a b => max (a.deg D) (b.deg D)
  | .neg a | .smul _ a => a.deg D
  | .mul a b | .comm a b => min D (a.deg D + b.deg D)

/-- No product of two constants occurs in the expression. -/
def TExpr.NoConstProduct {S : Type} (D : Nat) : TExpr S → Prop
  | .term _ _ => True
  | .add a b | .sub a b => a.NoConstProduct D ∧ b.NoConstProduct D
  | .neg a | .smul _ a => a.NoConstProduct D
  | .mul a b | .comm a b => a.NoConstProduct D ∧ b.NoConstProduct D ∧ 1 ≤ a.deg D + b.deg D

end RA.Spec
