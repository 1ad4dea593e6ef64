/-!
# Independent specification vocabulary

Nothing in this file mentions the model.
-/

namespace RA.Spec

/-- A word over the alphabet `1..N`. -/
def ValidWord (N : Nat) (w : List Nat) : Prop := ∀ l ∈ w, 1 ≤ l ∧ l ≤ N

instance (N : Nat) (w : List Nat) : Decidable (ValidWord N w) := by unfold ValidWord; infer_instance

/-- The words of length `n` over `1..N`, in lexicographic order from the first letter. -/
def wordsOfLength (N : Nat) : Nat → List (List Nat)
  | 0 => [[]]
  | n + 1 => (List.range' 1 N).flatMap fun l => (wordsOfLength N n).map (l :: ·)

/-- Number of words of length `< d` over an alphabet of `N` letters: `1 + N + ... + N^(d-1)`. -/
def geomSum (N : Nat) : Nat → Nat
  | 0 => 0
  | d + 1 => geomSum N d + N ^ d

/-- Position of a word in the graded-lexicographic enumeration of all words over `1..N` (the empty word is number 0):
the bijective base-`N` numeral with the letters as digits, first letter most significant. -/
def wordIndex (N : Nat) (w : List Nat) : Nat := w.foldl (fun acc l => acc * N + l) 0

/-- Graded lexicographic order: shorter words first, words of one length in lexicographic order. -/
def GradedLex (u v : List Nat) : Prop := u.length < v.length ∨ (u.length = v.length ∧ u < v)

end RA.Spec
