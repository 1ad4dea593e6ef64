import Verif.Props.Hall
import Verif.Props.DenseState

/-!
# Exactly when inserting into dense vectors (C23) and the parents of Hall keys (C48) are right
-/

namespace RA
open Spec Hall

/-- C23, exactly when inserting into a dense vector is right: when the value is already stored. -/
theorem C23_dense_insert_right_iff_partial {K S R : Type} (C : Coeff S R) (B : Basis K) (d : Dense S) (k : K) (v : S) :
    (∃ r, (Dense.ops C B).insertSingle d k v = .ok r ∧ (Dense.ops C B).get r k = .ok (some v) ∧
      ∀ k', k' ≠ k → (Dense.ops C B).get r k' = (Dense.ops C B).get d k') ↔ (Dense.ops C B).get d k = .ok (some v) := by
  refine ⟨?_, C23_dense_insert_partial C B d k v⟩
  rintro ⟨r, h1, h2, _⟩
  cases hk : B.keyToIndex k with
  | ok i =>
    rw [C23_dense_insert_noop C B d k v i hk] at h1
    cases h1
    exact h2
  | _ =>
    have h3 : Dense.get B r k = .ok (some v) := h2
    unfold Dense.get at h3
    rw [hk] at h3
    cases h3

example : ¬ ∃ r, (Dense.ops intCoeff (tensorBasis .debug 3)).insertSingle (.ofVec [1, 2]) ⟨1, 0⟩ 9 = .ok r ∧
    (Dense.ops intCoeff (tensorBasis .debug 3)).get r ⟨1, 0⟩ = .ok (some 9) ∧
    ∀ k', k' ≠ ⟨1, 0⟩ → (Dense.ops intCoeff (tensorBasis .debug 3)).get r k' = (Dense.ops intCoeff (tensorBasis .debug 3)).get (.ofVec [1, 2]) k' := by
  rw [C23_dense_insert_right_iff_partial]
  decide +kernel

/-- C48, exactly when `lparent()` and `parent()` are right in a set that has the entries of the key, of its right parent `r = (r1, r2)` and of `r2`: both
return the key of `r2`, so `lparent()` is right when the left parent is `r2`, and `parent()` when `r2` is `r` itself, that is, for a letter. -/
theorem C48_parents_right_iff_partial (p : Profile) (s : Inner) (k key l r sz r1 r2 q1 q2 d : Nat) (hk : Key.makeKeyData p key l r sz = .ok k)
    (he : HasEntry s key l r sz) (hr : s.set[r]? = some (r1, r2)) (hq : HasEntry s r2 q1 q2 d) :
    ((∃ k', Key.lparentWith p ⟨s, false⟩ k = .ok k' ∧ Key.getKey p k' = .ok l) ↔ l = r2) ∧
      ((∃ k', Key.parentWith p ⟨s, false⟩ k = .ok k' ∧ Key.getKey p k' = .ok r) ↔ r = r2) := by
  obtain ⟨k', h1, h2⟩ := C48_parent_actual p s k key l r sz r1 r2 q1 q2 d hk he hr hq
  have key : ∀ x, (∃ k'', Key.parentWith p ⟨s, false⟩ k = .ok k'' ∧ Key.getKey p k'' = .ok x) ↔ x = r2 := by
    intro x
    constructor
    · rintro ⟨k'', h3, h4⟩
      cases h1.symm.trans h3
      exact Res.ok.inj (h4.symm.trans h2)
    · rintro rfl
      exact ⟨k', h1, h2⟩
  rw [C48_lparent_is_parent]
  exact ⟨key l, key r⟩

/-- `[2, [1, 2]]`: `lparent()` is right, `parent()` is not. -/
example (p : Profile) : ∃ k, Key.makeKeyData p 5 2 3 4 = .ok k ∧ (∃ k', Key.lparentWith p ⟨twoLetters, false⟩ k = .ok k' ∧ Key.getKey p k' = .ok 2) ∧
    ¬ ∃ k', Key.parentWith p ⟨twoLetters, false⟩ k = .ok k' ∧ Key.getKey p k' = .ok 3 := by
  obtain ⟨k, hk, _⟩ := C45_pack_unpack p 5 2 3 4 (by norm_num) (by norm_num) (by norm_num) (by norm_num)
  have h := C48_parents_right_iff_partial p twoLetters k 5 2 3 4 1 2 0 2 2 hk (by unfold HasEntry; decide) rfl (by unfold HasEntry; decide)
  exact ⟨k, hk, h.1.2 rfl, fun h' => absurd (h.2.1 h') (by omega)⟩

end RA
