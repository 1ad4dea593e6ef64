import Verif.Proofs.Chow

/-!
# Every tensor with the shuffle identities is the signature of a path (C97)
-/

namespace RA
open Spec TensorKey TensorBasis DenseAlg Series WordFn

section
variable {S : Type} (C : Coeff S S) (p : Profile) (N : Nat)

/-- The increments of a path along the axes: for every pair `(l, c)` the vector `c l`, made with `fromKeyScalar`. -/
def axisPath (path : List (Nat × S)) : Res (List (Dense S)) := path.mapM fun e => do
  let k ← fromLetters p N [e.1]
  (DenseAlg.ops C p N).fromKeyScalar k e.2

variable [Field S]

variable {C N} in
theorem axisPath_value (hC : C.IsField) (h2 : 2 ≤ N) (hN : N < 2 ^ 32) (hp : N ^ 2 < 2 ^ 64) (path : List (Nat × S)) (h : ∀ e ∈ path, ValidWord N [e.1]) :
    ∃ xs, axisPath C p N path = .ok xs ∧ (∀ x ∈ xs, FullTo N x 1 ∧ coef C N x [] = 0) ∧ xs.map (tval C N) = path.map fun e => wordVal (.term [e.1] e.2) := by
  have h1 : 1 ≤ maxDepth N := (two_le_maxDepth N (by omega) hN).trans' (by omega)
  induction path with
  | nil => exact ⟨[], rfl, by simp, rfl⟩
  | cons e path ih =>
    obtain ⟨xs, e1, e2, e3⟩ := ih fun e he => h e (by simp [he])
    obtain ⟨x, ex, hx, cx⟩ := fromKeyScalar_word C p N h2 (by omega) [e.1] (h e (by simp)) h1 hp e.2
    refine ⟨x :: xs, ?_, ?_, ?_⟩
    · unfold axisPath at e1 ⊢
      rw [List.mapM_cons, ex, Res.bind_ok, e1, Res.bind_ok]
      rfl
    · intro y hy
      rcases List.mem_cons.1 hy with rfl | hy
      · exact ⟨hx, by rw [cx [] valid_nil, if_neg (by simp), hC.zero]⟩
      · exact e2 y hy
    · rw [List.map_cons, List.map_cons, e3]
      congr 1
      refine tval_ext (fun w hw => ?_) fun w hw => ?_
      · rw [cx w hw, hC.zero]
        rfl
      · exact if_neg fun hc : w = [e.1] => hw (hc ▸ h e (by simp))

/-- C97, the theorem of Chow: a tensor satisfies the shuffle identities up to degree `D` exactly when it is, up to degree `D`, the signature of a path whose increments
are multiples of letters. -/
theorem C97_chow [CharZero S] (hC : C.IsField) (h2 : 2 ≤ N) (hN : N < 2 ^ 32) (D : Nat) (hD : 1 ≤ D) (hp : N ^ (D + 1) < 2 ^ 64) (g : Dense S) :
    IsGroupLike C N D g ↔ ∃ path : List (Nat × S), (∀ e ∈ path, ValidWord N [e.1]) ∧ ∃ xs s, axisPath C p N path = .ok xs ∧ signature C p N D xs = .ok s ∧
      ∀ w, ValidWord N w → w.length ≤ D → coef C N s w = coef C N g w := by
  have hp1 : N ^ 2 < 2 ^ 64 := lt_of_le_of_lt (Nat.pow_le_pow_right (by omega) (by omega)) hp
  have key : ∀ path : List (Nat × S), (∀ e ∈ path, ValidWord N [e.1]) → ∃ xs s, axisPath C p N path = .ok xs ∧ signature C p N D xs = .ok s ∧
      EqTo D (tval C N s) (axisSig D path) := by
    intro path h
    obtain ⟨xs, e1, e2, e3⟩ := axisPath_value (C := C) p hC h2 hN hp1 path h
    obtain ⟨s, es, _, cs⟩ := signature_value p hC h2 (by omega) D hD hp xs fun x hx => ⟨1, le_rfl, (e2 x hx).1⟩
    refine ⟨xs, s, e1, es, ?_⟩
    rw [show xs.map (fun x => expTo S D (tval C N x)) = (xs.map (tval C N)).map fun f => expTo S D f by rw [List.map_map]; rfl, e3, List.map_map] at cs
    exact cs
  constructor
  · intro hg
    obtain ⟨path, h1, h3⟩ := chow N (by omega) D (tval C N g) ((isGroupLike_iff D g).1 hg) (fun w hw => tval_not g w hw) D le_rfl
    obtain ⟨xs, s, e1, e2, e3⟩ := key path h1
    refine ⟨path, h1, xs, s, e1, e2, fun w hw hl => ?_⟩
    rw [← tval_word s w hw, ← tval_word g w hw, e3 w hl, h3 w hl]
  · rintro ⟨path, h1, xs, s, e1, e2, e3⟩
    obtain ⟨xs', s', f1, f2, f3⟩ := key path h1
    cases e1.symm.trans f1
    cases e2.symm.trans f2
    refine (isGroupLike_iff D g).2 (GroupLike.congr (fun w hl => ?_) (axisSig_groupLike D path))
    by_cases hw : ValidWord N w
    · rw [tval_word g w hw, ← e3 w hw hl, ← tval_word s w hw, f3 w hl]
    · rw [tval_not g w hw, ← tval_not s w hw, f3 w hl]

/-- C97.  The exponential of a Lie element is the signature of a path whose increments are multiples of letters. -/
theorem C97_exp [CharZero S] (hC : C.IsField) (h2 : 2 ≤ N) (hN : N < 2 ^ 32) (D : Nat) (hD : 1 ≤ D) (hp : N ^ (D + 1) < 2 ^ 64) (x : Dense S) (d : Nat) (hd : 1 ≤ d)
    (hx : FullTo N x d) (hl : IsLieVec C N D x) :
    ∃ g, tensorExp C p N D x = .ok g ∧ ∃ path : List (Nat × S), (∀ e ∈ path, ValidWord N [e.1]) ∧ ∃ xs s, axisPath C p N path = .ok xs ∧
      signature C p N D xs = .ok s ∧ ∀ w, ValidWord N w → w.length ≤ D → coef C N s w = coef C N g w := by
  obtain ⟨g, eg, hg⟩ := C88_exp C p N hC h2 (by omega) D hp x d hd hx hl
  exact ⟨g, eg, (C97_chow C p N hC h2 hN D hD hp g).1 hg⟩

end

/-! ## Examples -/

/-- The path along the four sides of the unit square has the signature `1 + [e_1, e_2]` up to degree two. -/
theorem square_signature (p : Profile) : (axisPath (fieldCoeff Rat) p 2 [(1, 1), (2, 1), (1, -1), (2, -1)] >>= signature (fieldCoeff Rat) p 2 2) =
    .ok (Dense.ofVec [1, 0, 0, 0, 1, -1, 0]) := by cases p <;> decide +kernel

example (p : Profile) := (C97_chow (fieldCoeff Rat) p 2 (fieldCoeff_isField Rat) (by omega) (by omega) 2 (by omega) (by decide)
  (Dense.ofVec [1, 1, 0, 1 / 2, 0, 0, 0])).1 exp_letter

/-- A diagonal is, up to degree three, a path along the axes. -/
example (p : Profile) := C97_exp (fieldCoeff Rat) p 2 (fieldCoeff_isField Rat) (by omega) (by omega) 3 (by omega) (by decide) (Dense.ofVec [0, 1, 1]) 1 le_rfl ⟨rfl, by decide⟩
  (lie_linear (fieldCoeff Rat) 2 (fieldCoeff_isField Rat).toIsRing (by omega) 3 _ ⟨rfl, by decide⟩ (by rfl))

/-- `1 + e_1` satisfies no shuffle identity at `1` and `1`, so no path has it as its signature. -/
example (p : Profile) : ¬ ∃ path : List (Nat × Rat), (∀ e ∈ path, ValidWord 2 [e.1]) ∧ ∃ xs s, axisPath (fieldCoeff Rat) p 2 path = .ok xs ∧
    signature (fieldCoeff Rat) p 2 2 xs = .ok s ∧ ∀ w, ValidWord 2 w → w.length ≤ 2 → coef (fieldCoeff Rat) 2 s w = coef (fieldCoeff Rat) 2 (Dense.ofVec [1, 1, 0]) w := by
  intro h
  have := ((C97_chow (fieldCoeff Rat) p 2 (fieldCoeff_isField Rat) (by omega) (by omega) 2 (by omega) (by decide) _).2 h).2 [1] [1] (by decide) (by decide) (by decide)
  revert this
  decide +kernel

end RA
