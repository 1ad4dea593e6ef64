import Verif.Spec
import Verif.Model.Closure

/-!
# The calls a product makes, stated without the model
-/

namespace RA.Spec

/-- The pairs of words of lengths `k` and `m`: for each left word, in lexicographic order, all right words in lexicographic order. -/
def wordPairs (N k m : Nat) : List (List Nat × List Nat) := (wordsOfLength N k).flatMap fun u => (wordsOfLength N m).map fun v => (u, v)

/-- The pairs of words of lengths at most `da` and `db` and of total length at most `M`: greater total length first, then longer left words first, then
lexicographic order. -/
def callOrder (N M da db : Nat) : List (List Nat × List Nat) :=
  (List.range (M + 1)).reverse.flatMap fun o => (List.range' (o - db) (min o da + 1 - (o - db))).reverse.flatMap fun k => wordPairs N k (o - k)

/-- The words of length `m` to 1, longer words first, then in lexicographic order. -/
def scaleOrder (N : Nat) : Nat → List (List Nat)
  | 0 => []
  | m + 1 => wordsOfLength N (m + 1) ++ scaleOrder N m

/-- Call the closure on every element, in order, handing on its state; stop when it does not return. -/
def callAll {S T : Type} (func : DenseAlg.Closure S T) : T → List S → Res (List S × T)
  | s, [] => .ok ([], s)
  | s, x :: xs => do
    let (y, s) ← func s x
    let (ys, s) ← callAll func s xs
    return (y :: ys, s)

end RA.Spec
