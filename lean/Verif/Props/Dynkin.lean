import Verif.Proofs.Dynkin
import Verif.Props.LieDim

/-!
# Dynkin's criterion for Lie elements (C96)

A program made of the operations of the crate: take a tensor apart into words, replace each word by the nested commutator of its letters, and add up.
-/

namespace RA
open Spec TensorKey TensorBasis DenseAlg

section
variable {S R : Type} (C : Coeff S R) (p : Profile) (N : Nat)

/-- The words of length 1 to `D`. -/
def wordsTo (N D : Nat) : List (List Nat) := (List.range' 1 D).flatMap (allWords N)

/-- The sum of `x_w [w1, [w2, ... [w(n-1), wn]]]` over the words of length 1 to `D`. -/
def dynkinExpr (D : Nat) (x : List Nat → S) [CommRing S] : TExpr S := (wordsTo N D).foldr (fun w e => .add (.smul (x w) (nested w)) e) (.term [1] 0)

theorem mem_wordsTo {N D : Nat} {w : List Nat} : w ∈ wordsTo N D ↔ ValidWord N w ∧ 1 ≤ w.length ∧ w.length ≤ D := by
  simp only [wordsTo, List.mem_flatMap, List.mem_range'_1, mem_allWords]
  constructor
  · rintro ⟨n, hn, hv, rfl⟩
    exact ⟨hv, by omega, by omega⟩
  · rintro ⟨hv, h1, h2⟩
    exact ⟨w.length, by omega, hv, rfl⟩

theorem dynkinExpr_isLie [CommRing S] (D : Nat) (x : List Nat → S) : (dynkinExpr N D x).IsLie := by
  unfold dynkinExpr
  induction wordsTo N D with
  | nil => rfl
  | cons w L ih => exact ⟨nested_isLie w, ih⟩

theorem dynkinExpr_words [CommRing S] (hN : 1 ≤ N) (D : Nat) (hD : 1 ≤ D) (x : List Nat → S) : (dynkinExpr N D x).Words N D := by
  have h : ∀ w ∈ wordsTo N D, ValidWord N w := fun w hw => (mem_wordsTo.1 hw).1
  unfold dynkinExpr
  revert h
  generalize wordsTo N D = L
  intro h
  induction L with
  | nil => exact ⟨fun m hm => by rw [List.mem_singleton] at hm; omega, hD⟩
  | cons w L ih => exact ⟨words_mono hD _ (nested_words hN w (h w (by simp))), ih fun w hw => h w (by simp [hw])⟩

theorem dynkinExpr_value [CommRing S] (D : Nat) (x : List Nat → S) (v : List Nat) :
    (dynkinExpr N D x).value v = ((wordsTo N D).map fun w => x w * (nested w : TExpr S).value v).sum := by
  unfold dynkinExpr
  induction wordsTo N D with
  | nil => simp [TExpr.value]
  | cons w L ih => rw [List.foldr_cons, List.map_cons, List.sum_cons, ← ih]; rfl

theorem sum_wordsTo [CommRing S] (D : Nat) (g : List Nat → S) (h0 : g [] = 0) :
    ((wordsTo N D).map g).sum = ∑ n ∈ Finset.range (D + 1), ((allWords N n).map g).sum := by
  induction D with
  | zero => simp [wordsTo, allWords, h0]
  | succ D ih =>
    rw [Finset.sum_range_succ, ← ih, wordsTo, List.range'_concat, List.flatMap_append, List.map_append, List.sum_append]
    simp [wordsTo, Nat.add_comm 1 D]

/-- C96, over any commutative ring: for the value `x` of a Lie expression (letters, commutators, sums, scalar multiples) the sum of the nested commutators of the
words, each with its coefficient in `x`, has at every word the coefficient of `x` times the length of the word. -/
theorem C96_expression [CommRing S] (hC : C.IsRing) (h2 : 2 ≤ N) (hN : N < 2 ^ 32) (D : Nat) (hD : 1 ≤ D) (hm : D ≤ maxDepth N) (hp : N ^ (D + 1) < 2 ^ 64)
    (e : TExpr S) (he : e.IsLie) (hw : e.Words N D) :
    ∃ x r, runExpr C p N D e = .ok x ∧ runExpr C p N D (dynkinExpr N D (coef C N x)) = .ok r ∧
      ∀ v, ValidWord N v → v.length ≤ D → coef C N r v = (v.length : S) * coef C N x v := by
  obtain ⟨x, ex, _, hx⟩ := C53_expressions_partial C p N hC h2 hN D hD hm hp e hw (noConst_of_nonempty hD e (lie_nonempty e he))
  obtain ⟨r, er, _, hr⟩ := C53_expressions_partial C p N hC h2 hN D hD hm hp _ (dynkinExpr_words N (by omega) D hD (coef C N x))
    (noConst_of_nonempty hD _ (lie_nonempty _ (dynkinExpr_isLie N D (coef C N x))))
  refine ⟨x, r, ex, er, fun v hv hl => ?_⟩
  obtain ⟨B, hB⟩ := dynkin N e he D hw
  have h0 : (nested [] : TExpr S).value v = 0 := by simp [nested, TExpr.value]
  rw [hr v hv, if_pos hl, dynkinExpr_value, hx v hv, if_pos hl, ← hB (max B D) (le_max_left _ _) v]
  have h3 : ((wordsTo N D).map fun w => coef C N x w * (nested w : TExpr S).value v) = (wordsTo N D).map fun w => e.value w * (nested w : TExpr S).value v := by
    refine List.map_congr_left fun w hw => ?_
    obtain ⟨h4, _, h5⟩ := mem_wordsTo.1 hw
    rw [hx w h4, if_pos h5]
  rw [h3, sum_wordsTo N D _ (by simp only [h0, mul_zero])]
  refine sum_extend (A := S) (fun n => ((allWords N n).map fun w => e.value w * (nested w : TExpr S).value v).sum) D (max B D) (fun n hn => ?_) (le_max_right _ _)
  apply List.sum_eq_zero
  intro y hy
  obtain ⟨w, hw, rfl⟩ := List.mem_map.1 hy
  rw [nested_homogeneous w v (by rw [((mem_allWords N n w).1 hw).2]; omega), mul_zero]

/-- C96, the theorem of Dynkin, Specht and Wever: a tensor `x` without constant term is a Lie element up to degree `D` (Ree's criterion) exactly when the sum of
the nested commutators of its words, computed with the operations of the crate, is `n` times `x` in each degree `n` up to `D`. -/
theorem C96_dynkin [Field S] [CharZero S] (hC : C.IsRing) (h2 : 2 ≤ N) (hN : N < 2 ^ 32) (D : Nat) (hD : 1 ≤ D) (hm : D ≤ maxDepth N)
    (hp : N ^ (D + 1) < 2 ^ 64) (x : Dense S) :
    ∃ r, runExpr C p N D (dynkinExpr N D (coef C N x)) = .ok r ∧
      (IsLieVec C N D x ↔ coef C N x [] = 0 ∧ ∀ v, ValidWord N v → v.length ≤ D → coef C N r v = (v.length : S) * coef C N x v) := by
  obtain ⟨r, er, h0, hs⟩ := C71_lie C p N hC h2 hN D hD hm hp _ (dynkinExpr_words N (by omega) D hD (coef C N x)) (dynkinExpr_isLie N D _)
  refine ⟨r, er, fun hx => ⟨hx.1, ?_⟩, fun ⟨x1, x2⟩ => ⟨x1, fun u v hu hv hu0 hv0 hl => ?_⟩⟩
  · obtain ⟨e, e1, e2, y, ey, hy⟩ := C93_ree C p N hC h2 hN D hD hm hp x hx
    obtain ⟨y', r', ey', er', h3⟩ := C96_expression C p N hC h2 hN D hD hm hp e e1 e2
    cases ey.symm.trans ey'
    have hE : dynkinExpr N D (coef C N y) = dynkinExpr N D (coef C N x) := by
      have : ∀ w ∈ wordsTo N D, coef C N y w = coef C N x w := fun w hw => hy w (mem_wordsTo.1 hw).1 (mem_wordsTo.1 hw).2.2
      unfold dynkinExpr
      revert this
      generalize wordsTo N D = L
      intro this
      induction L with
      | nil => rfl
      | cons w L ih => rw [List.foldr_cons, List.foldr_cons, this w (by simp), ih fun w hw => this w (by simp [hw])]
    rw [hE] at er'
    cases er.symm.trans er'
    intro v hv hl
    rw [h3 v hv hl, hy v hv hl]
  · have h3 := hs u v hu hv hu0 hv0
    have h4 : ((shuffles u v).map (coef C N r)) = (shuffles u v).map fun w => ((u.length + v.length : Nat) : S) * coef C N x w := by
      refine List.map_congr_left fun w hw => ?_
      rw [x2 w (fun l hl => (shuffles_mem u v w hw l hl).elim (hu l) (hv l)) (by rw [shuffles_length u v w hw]; exact hl), shuffles_length u v w hw]
    rw [h4, List.sum_map_mul_left] at h3
    refine (mul_eq_zero.1 h3).resolve_left ?_
    rw [← ne_eq, Nat.cast_ne_zero]
    have := List.length_pos_iff.2 hu0
    omega

end

/-! ## Examples -/

example : wordsTo 2 2 = [[1], [2], [1, 1], [1, 2], [2, 1], [2, 2]] := by decide +kernel

/-- `[1, [1, 2]]`: the sum of the nested commutators of `112 - 2 121 + 211` is three times it. -/
example := C96_expression intCoeff .debug 2 intCoeff_isRing (by omega) (by omega) 3 (by omega) (by decide +kernel) (by decide)
  (.comm (.term [1] 1) (.comm (.term [1] 1) (.term [2] 1))) ⟨rfl, rfl, rfl⟩
  ⟨⟨by decide, by decide⟩, ⟨by decide, by decide⟩, ⟨by decide, by decide⟩⟩

example : (dynkinExpr 2 2 fun w => if w = [1, 2] then (1 : Int) else 0).value [1, 2] = 1 := by decide +kernel

/-- The word `12` alone is no Lie element: its nested commutator `12 - 21` has a coefficient at `21`. -/
example : (dynkinExpr 2 2 fun w => if w = [1, 2] then (1 : Int) else 0).value [2, 1] = -1 := by decide +kernel

example (p : Profile) := C96_dynkin (fieldCoeff Rat) p 2 (fieldCoeff_isField Rat).toIsRing (by omega) (by omega) 4 (by omega) (by decide +kernel) (by decide)
  (Dense.ofVec [0, 2, 3])

end RA
