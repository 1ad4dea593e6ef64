import Verif.Props.DenseState

/-!
# Zero tensors of a given degree (C78)
-/

namespace RA
open Spec TensorKey TensorBasis

/-- C78, the property one expects: `from_degree(d)` stores a zero coefficient for every word of degree up to `d`. -/
def C78_from_degree_full : Prop :=
  ∀ {S R : Type} (C : Coeff S R) (p : Profile) (N d : Nat), 2 ≤ N → N < 2 ^ 32 → d ≤ maxDepth N → N ^ (d + 1) < 2 ^ 64 →
    ∃ v : Dense S, Dense.fromDegree C (tensorBasis p N) d = .ok v ∧
      ∀ w k, ValidWord N w → w.length ≤ d → fromLetters p N w = .ok k → (Dense.ops C (tensorBasis p N)).get v k = .ok (some C.zero)

/-- C78.  What it does: a zero is stored for the words of degree less than `d` and for no others, so words of degree `d` have no coefficient,
and the degree of the result is `d - 1`. -/
theorem C78_from_degree_partial {S R : Type} (C : Coeff S R) (p : Profile) (N d : Nat) (h2 : 2 ≤ N) (hN : N < 2 ^ 32) (hp : N ^ d < 2 ^ 64) :
    ∃ v : Dense S, Dense.fromDegree C (tensorBasis p N) d = .ok v ∧ v.size = geomSum N d ∧ v.mode = .owned ∧
      v.degree (tensorBasis p N) = .ok (d - 1) ∧
      ∀ w k, ValidWord N w → w.length ≤ maxDepth N → fromLetters p N w = .ok k →
        (Dense.ops C (tensorBasis p N)).get v k = .ok (if w.length < d then some C.zero else none) := by
  have hz : (Dense.fromDimension C (geomSum N d)).size = geomSum N d := by
    simp [Dense.fromDimension, Dense.ofVec, Dense.size]
  refine ⟨Dense.fromDimension C (geomSum N d), ?_, hz, rfl, ?_, ?_⟩
  · unfold Dense.fromDegree
    rw [show (tensorBasis p N).startOfDegree d = .ok (geomSum N d) from startOfDegree_ok p N h2 d hp]
    rfl
  · cases d with
    | zero => exact C24_degree_empty _ _ hz
    | succ d => exact C24_degree_full_vector p N h2 _ d hz hp
  · intro w k hw hl hk
    rw [fromLetters_ok p N (by omega) hN w hw hl] at hk
    cases hk
    show Dense.get _ _ _ = _
    unfold Dense.get
    rw [show (tensorBasis p N).keyToIndex (keyOf N w) = .ok (wordIndex N w) from keyToIndex_keyOf p N (by omega) hN w hw hl]
    have hb := wordIndex_bounds hw
    show Res.ok (List.replicate (geomSum N d) C.zero)[wordIndex N w]? = _
    by_cases h : w.length < d
    · have := geomSum_mono (N := N) (show w.length + 1 ≤ d by omega)
      rw [if_pos h, List.getElem?_replicate, if_pos (by omega)]
    · have := geomSum_mono (N := N) (show d ≤ w.length by omega)
      rw [if_neg h, List.getElem?_replicate, if_neg (by omega)]

example := C78_from_degree_partial intCoeff .release 3 4 (by omega) (by omega) (by omega)

/-- C78 is false of the code: `from_degree(1)` over two letters has no place for a letter. -/
theorem C78_from_degree_refuted : ¬ C78_from_degree_full := by
  intro h
  obtain ⟨v, hv, hg⟩ := h intCoeff .debug 2 1 (by omega) (by omega) (by decide +kernel) (by omega)
  obtain ⟨v', hv', -, -, -, hg'⟩ := C78_from_degree_partial intCoeff .debug 2 1 (by omega) (by omega) (by omega)
  rw [hv] at hv'
  cases hv'
  have hk := fromLetters_ok .debug 2 (by omega) (by omega) [1] (by decide) (by decide +kernel)
  have e1 := hg [1] _ (by decide) (by simp) hk
  have e2 := hg' [1] _ (by decide) (by decide +kernel) hk
  rw [e1] at e2
  simp at e2

end RA
