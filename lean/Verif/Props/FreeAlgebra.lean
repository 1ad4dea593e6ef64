import Verif.Props.Expr
import Verif.Proofs.ConvMore
import Mathlib.LinearAlgebra.Matrix.Notation
import Mathlib.Data.Matrix.Basic

/-!
# Dense tensors as a truncated free algebra: reversal (C68), nilpotency and inverses (C69), evaluation in algebras (C70), Lie elements (C71)
-/

namespace RA
open Spec TensorKey TensorBasis DenseAlg

section
variable {S R : Type} (C : Coeff S R) (p : Profile) (N : Nat)

theorem validWord_reverse {N : Nat} {w : List Nat} (h : ValidWord N w) : ValidWord N w.reverse := fun l hl => h l (List.mem_reverse.mp hl)

/-! ## C68: reversal -/

theorem words1 (w : List Nat) (hw : ValidWord 2 w) (hl : w.length ≤ 1) : w ∈ ([[], [1], [2]] : List (List Nat)) := by
  match w with
  | [] => simp
  | [x] =>
    have := hw x (by simp)
    simp
    omega
  | _ :: _ :: _ => simp at hl

theorem words2 (w : List Nat) (hw : ValidWord 2 w) (hl : w.length ≤ 2) :
    w ∈ ([[], [1], [2], [1, 1], [1, 2], [2, 1], [2, 2]] : List (List Nat)) := by
  match w with
  | [] => simp
  | [x] =>
    have := hw x (by simp)
    simp
    omega
  | [x, y] =>
    have := hw x (by simp)
    have := hw y (by simp)
    simp
    omega
  | _ :: _ :: _ :: _ => simp at hl

/-- C68.  Reading all words backwards turns `a b` into `b a`: if `a'`, `b'` have the coefficients of `a`, `b` at the reversed words, so has `b' a'` those
of `a b`. -/
theorem C68_reversal [CommRing S] (hC : C.IsRing) (h2 : 2 ≤ N) (a b a' b' : Dense S) (da db D : Nat) (ha : FullTo N a da) (hb : FullTo N b db)
    (ha' : FullTo N a' da) (hb' : FullTo N b' db) (hM : 1 ≤ min D (da + db)) (hp : N ^ (min D (da + db) + 1) < 2 ^ 64)
    (hra : ∀ w, ValidWord N w → coef C N a' w = coef C N a w.reverse) (hrb : ∀ w, ValidWord N w → coef C N b' w = coef C N b w.reverse) :
    ∃ r r', (DenseAlg.ops C p N).multiply a b (some D) = .ok r ∧ (DenseAlg.ops C p N).multiply b' a' (some D) = .ok r' ∧
      ∀ w, ValidWord N w → coef C N r' w = coef C N r w.reverse := by
  obtain ⟨r, e1, _, h1⟩ := C33_multiply_ring C p N hC h2 a b da db D ha hb hM hp
  obtain ⟨r', e2, _, h3⟩ := C33_multiply_ring C p N hC h2 b' a' db da D hb' ha' (by rwa [Nat.add_comm db]) (by rwa [Nat.add_comm db])
  refine ⟨r, r', e1, e2, fun w hw => ?_⟩
  rw [h3 w hw, h1 _ (validWord_reverse hw), List.length_reverse, conv_reverse, conv_congr_valid N w hw (fun u hu _ => hrb u hu) (fun u hu _ => hra u hu)]

/-- C68 on `2 + e_{12}` and `e_1 - e_2` over two letters. -/
example := C68_reversal intCoeff .release 2 intCoeff_isRing (by omega) (Dense.ofVec [2, 0, 0, 0, 1, 0, 0]) (Dense.ofVec [0, 1, -1])
  (Dense.ofVec [2, 0, 0, 0, 0, 1, 0]) (Dense.ofVec [0, 1, -1]) 2 1 3 ⟨rfl, by decide⟩ ⟨rfl, by decide⟩ ⟨rfl, by decide⟩ ⟨rfl, by decide⟩ (by decide)
  (by decide) (by
    intro w hw
    by_cases hl : w.length ≤ 2
    · have h := words2 w hw hl
      simp only [List.mem_cons, List.not_mem_nil, or_false] at h
      rcases h with rfl | rfl | rfl | rfl | rfl | rfl | rfl <;> decide
    · rw [coef_zero_of_length _ _ intCoeff_isRing (show HasDegree 2 _ 2 from ⟨by decide, by decide⟩) w hw (by omega),
        coef_zero_of_length _ _ intCoeff_isRing (show HasDegree 2 _ 2 from ⟨by decide, by decide⟩) w.reverse (validWord_reverse hw) (by rw [List.length_reverse]; omega)])
  (by
    intro w hw
    by_cases hl : w.length ≤ 1
    · have h := words1 w hw hl
      simp only [List.mem_cons, List.not_mem_nil, or_false] at h
      rcases h with rfl | rfl | rfl <;> decide
    · rw [coef_zero_of_length _ _ intCoeff_isRing (show HasDegree 2 _ 1 from ⟨by decide, by decide⟩) w hw (by omega),
        coef_zero_of_length _ _ intCoeff_isRing (show HasDegree 2 _ 1 from ⟨by decide, by decide⟩) w.reverse (validWord_reverse hw) (by rw [List.length_reverse]; omega)])

/-! ## C69: nilpotency and inverses -/

/-- The product of several tensors, from the left, every product truncated at `D`. -/
def multiplyAll (D : Nat) (x : Dense S) (xs : List (Dense S)) : Res (Dense S) :=
  xs.foldlM (fun acc y => (DenseAlg.ops C p N).multiply acc y (some D)) x

/-- C69.  A product of more than `D` tensors without constant term vanishes up to degree `D`. -/
theorem C69_nilpotent [CommRing S] (hC : C.IsRing) (h2 : 2 ≤ N) (D : Nat) (hD : 1 ≤ D) (hp : N ^ (D + 1) < 2 ^ 64) (x : Dense S) (xs : List (Dense S))
    (hlen : D ≤ xs.length) (hf : ∀ y ∈ x :: xs, ∃ d, 1 ≤ d ∧ FullTo N y d) (h0 : ∀ y ∈ x :: xs, coef C N y [] = 0) :
    ∃ r, multiplyAll C p N D x xs = .ok r ∧ ∀ w, ValidWord N w → w.length ≤ D → coef C N r w = 0 := by
  have key : ∀ (xs : List (Dense S)) (acc : Dense S) (k d : Nat), (∀ y ∈ xs, ∃ d, 1 ≤ d ∧ FullTo N y d) → (∀ y ∈ xs, coef C N y [] = 0) →
      1 ≤ d → FullTo N acc d → (∀ w, ValidWord N w → w.length < k → w.length ≤ D → coef C N acc w = 0) →
      ∃ r, multiplyAll C p N D acc xs = .ok r ∧ ∀ w, ValidWord N w → w.length < k + xs.length → w.length ≤ D → coef C N r w = 0 := by
    intro xs
    induction xs with
    | nil => exact fun acc k d _ _ _ _ h => ⟨acc, rfl, fun w hw hl => h w hw hl⟩
    | cons y ys ih =>
      intro acc k d hf h0 hd hacc hk
      obtain ⟨dy, hdy, hy⟩ := hf y (by simp)
      have hpm : N ^ (min D (d + dy) + 1) < 2 ^ 64 := pow_lt64_mono h2 (by omega) hp
      obtain ⟨r, e, hr, hc⟩ := C33_multiply_ring C p N hC h2 acc y d dy D hacc hy (by omega) hpm
      obtain ⟨r', e', h'⟩ := ih r (k + 1) (min D (d + dy)) (fun z hz => hf z (by simp [hz])) (fun z hz => h0 z (by simp [hz])) (by omega) hr (by
        intro w hw hl hlD
        rw [hc w hw, if_pos hlD, conv_eq_sum]
        apply List.sum_eq_zero
        intro t ht
        rw [List.mem_map] at ht
        obtain ⟨i, hi, rfl⟩ := ht
        rw [List.mem_range] at hi
        by_cases hik : i < k
        · rw [hk _ (fun l hl => hw l (List.mem_of_mem_take hl)) (by rw [List.length_take]; omega) (by rw [List.length_take]; omega), zero_mul]
        · rw [List.drop_of_length_le (by omega), h0 y (by simp), mul_zero])
      refine ⟨r', ?_, fun w hw hl hlD => h' w hw (by rw [List.length_cons] at hl; omega) hlD⟩
      unfold multiplyAll
      rw [List.foldlM_cons, e, Res.bind_ok]
      exact e'
  obtain ⟨d, hd, hx⟩ := hf x (by simp)
  obtain ⟨r, e, h⟩ := key xs x 1 d (fun y hy => hf y (by simp [hy])) (fun y hy => h0 y (by simp [hy])) hd hx (by
    intro w _ hl _
    rw [List.length_eq_zero_iff.mp (by omega : w.length = 0)]
    exact h0 x (by simp))
  exact ⟨r, e, fun w hw hl => h w hw (by omega) hl⟩

/-- C69 on the product of three tensors of degree one over two letters, truncated at degree two. -/
example := C69_nilpotent intCoeff .debug 2 intCoeff_isRing (by omega) 2 (by omega) (by decide) (Dense.ofVec [0, 1, -1]) [Dense.ofVec [0, 2, 3], Dense.ofVec [0, 5, 7]]
  (by decide) (by
    intro y hy
    simp only [List.mem_cons, List.not_mem_nil, or_false] at hy
    rcases hy with rfl | rfl | rfl <;> exact ⟨1, le_rfl, rfl, by decide⟩) (by
    intro y hy
    simp only [List.mem_cons, List.not_mem_nil, or_false] at hy
    rcases hy with rfl | rfl | rfl <;> decide)

/-- Horner's rule for `1 + x + ... + x^k`, with the operations of the crate. -/
def geometricSeries (D : Nat) (x : Dense S) : Nat → Res (Dense S)
  | 0 => (DenseAlg.ops C p N).fromKey TensorKey.new
  | k + 1 => do
    let y ← geometricSeries D x k
    let t ← (DenseAlg.ops C p N).multiply x y (some D)
    let u ← (DenseAlg.ops C p N).fromKey TensorKey.new
    (DenseAlg.ops C p N).add u t

/-- The unit as made by `from_key`. -/
theorem unit_fromKey [CommRing S] (hC : C.IsRing) (h2 : 2 ≤ N) (hN : N < 2 ^ 32) : ∃ u, (DenseAlg.ops C p N).fromKey TensorKey.new = .ok u ∧ FullTo N u 0 ∧
    ∀ w, ValidWord N w → coef C N u w = unitFn w := by
  obtain ⟨u, e, hu, hc⟩ := fromKeyScalar_word C p N h2 hN [] (by intro l hl; simp at hl) (by simp) (by simp; omega) C.one
  refine ⟨u, e, hu, fun w hw => ?_⟩
  rw [hc w hw]
  unfold unitFn
  rw [hC.one, hC.zero]

/-- C69.  A tensor `1 - x` with `x` without constant term has the two-sided inverse `1 + x + ... + x^D`, computed with the operations of the crate. -/
theorem C69_inverse [CommRing S] (hC : C.IsRing) (h2 : 2 ≤ N) (hN : N < 2 ^ 32) (D : Nat) (hD : 1 ≤ D) (hp : N ^ (D + 1) < 2 ^ 64) (x : Dense S) (d : Nat)
    (hd : 1 ≤ d) (hx : FullTo N x d) (h0 : coef C N x [] = 0) :
    ∃ y u m l r, geometricSeries C p N D x D = .ok y ∧ (DenseAlg.ops C p N).fromKey TensorKey.new = .ok u ∧ (DenseAlg.ops C p N).sub u x = .ok m ∧
      (DenseAlg.ops C p N).multiply m y (some D) = .ok l ∧ (DenseAlg.ops C p N).multiply y m (some D) = .ok r ∧
      ∀ w, ValidWord N w → coef C N l w = (if w = [] then 1 else 0) ∧ coef C N r w = (if w = [] then 1 else 0) := by
  obtain ⟨u, eu, hu, cu⟩ := unit_fromKey C p N hC h2 hN
  have key : ∀ k, ∃ y dy, geometricSeries C p N D x k = .ok y ∧ FullTo N y dy ∧ dy ≤ D ∧ ∀ w, ValidWord N w → w.length ≤ D → coef C N y w = hornerFn (coef C N x) k w := by
    intro k
    induction k with
    | zero => exact ⟨u, 0, eu, hu, by omega, fun w hw _ => cu w hw⟩
    | succ k ih =>
      obtain ⟨y, dy, ey, hy, hdy, cy⟩ := ih
      obtain ⟨t, et, ht, ct⟩ := C33_multiply_ring C p N hC h2 x y d dy D hx hy (by omega) (pow_lt64_mono h2 (by omega) hp)
      obtain ⟨s, es, hs, cs⟩ := coef_add C p (N := N) hC u t
      refine ⟨s, max 0 (min D (d + dy)), ?_, fullTo_max hu ht hs, by omega, fun w hw hl => ?_⟩
      · unfold geometricSeries
        rw [ey, Res.bind_ok, et, Res.bind_ok, eu, Res.bind_ok, es]
      · rw [cs, cu w hw, ct w hw, if_pos hl, hornerFn]
        congr 1
        exact conv_congr_valid N w hw (fun _ _ _ => rfl) (fun v hv hl' => cy v hv (by omega))
  obtain ⟨y, dy, ey, hy, hdy, cy⟩ := key D
  obtain ⟨m, em, hm, cm⟩ := coef_sub C p (N := N) hC u x
  have hm' := fullTo_max hu hx hm
  have hpm : N ^ (min D (max 0 d + dy) + 1) < 2 ^ 64 := pow_lt64_mono h2 (by omega) hp
  obtain ⟨l, el, _, cl⟩ := C33_multiply_ring C p N hC h2 m y (max 0 d) dy D hm' hy (by omega) hpm
  obtain ⟨r, er, _, cr⟩ := C33_multiply_ring C p N hC h2 y m dy (max 0 d) D hy hm' (by omega) (by rwa [Nat.add_comm dy])
  refine ⟨y, u, m, l, r, ey, eu, em, el, er, fun w hw => ?_⟩
  rw [cl w hw, cr w hw]
  have hcm : ∀ v, ValidWord N v → v.length ≤ w.length → coef C N m v = unitFn v - coef C N x v := fun v hv _ => by rw [cm, cu v hv]
  by_cases hl : w.length ≤ D
  · rw [if_pos hl, if_pos hl, conv_congr_valid N w hw hcm (fun v hv h => cy v hv (by omega)),
      conv_congr_valid N w hw (fun v hv h => cy v hv (by omega)) hcm]
    have hz : powFn (coef C N x) (D + 1) w = 0 := powFn_zero_of_length _ h0 _ _ (by omega)
    refine ⟨?_, ?_⟩
    · rw [horner_left, hz, sub_zero]
      rfl
    · rw [conv_sub_right, conv_unit_right, ← horner_comm]
      have := horner_left (coef C N x) D w
      rw [conv_sub_left, conv_unit_left, hz, sub_zero] at this
      exact this
  · rw [if_neg hl, if_neg hl, if_neg (by rintro rfl; simp at hl)]
    exact ⟨rfl, rfl⟩

/-- C69 on `1 - (2 e_1 + 3 e_2)` over two letters up to degree three. -/
example := C69_inverse intCoeff .debug 2 intCoeff_isRing (by omega) (by omega) 3 (by omega) (by decide) (Dense.ofVec [0, 2, 3]) 1 le_rfl ⟨rfl, by decide⟩ (by decide)

/-- C69, converse: a tensor with a one-sided inverse has an invertible constant term. -/
theorem C69_inverse_const [CommRing S] (hC : C.IsRing) (h2 : 2 ≤ N) (a b r : Dense S) (da db D : Nat) (ha : FullTo N a da) (hb : FullTo N b db)
    (hp : N ^ (min D (da + db) + 1) < 2 ^ 64) (hr : (DenseAlg.ops C p N).multiply a b (some D) = .ok r) (h1 : coef C N r [] = 1) :
    coef C N a [] * coef C N b [] = 1 := by
  obtain ⟨_, h⟩ := C33_multiply_returns_ring C p N hC h2 a b r da db D (ha.hasDegree h2) (hb.hasDegree h2) hp hr
  rw [h [] (by intro l hl; simp at hl), if_pos (by simp)] at h1
  exact h1

/-- C69, converse, on `(-1 + e_1)(-1 - e_1) = 1 - e_{11}`. -/
example := C69_inverse_const intCoeff .debug 2 intCoeff_isRing (by omega) (Dense.ofVec [-1, 1, 0]) (Dense.ofVec [-1, -1, 0]) (Dense.ofVec [1, 0, 0, -1, 0, 0, 0])
  1 1 2 ⟨rfl, by decide⟩ ⟨rfl, by decide⟩ (by decide) (by decide +kernel) (by decide)

/-! ## C70: evaluation in an algebra -/

/-- C70.  Putting elements of any associative algebra for the letters turns the product of tensors into the product of the algebra, degree by degree up to
the truncation. -/
theorem C70_evaluation [CommRing S] {A : Type} [Ring A] [Algebra S A] (hC : C.IsRing) (h2 : 2 ≤ N) (z : Nat → A) (a b : Dense S) (da db D : Nat)
    (ha : FullTo N a da) (hb : FullTo N b db) (hM : 1 ≤ min D (da + db)) (hp : N ^ (min D (da + db) + 1) < 2 ^ 64) :
    ∃ r, (DenseAlg.ops C p N).multiply a b (some D) = .ok r ∧ ∀ n ≤ D, evalDeg N z (coef C N r) n =
      ∑ i ∈ Finset.range (n + 1), evalDeg N z (coef C N a) i * evalDeg N z (coef C N b) (n - i) := by
  obtain ⟨r, e, _, h⟩ := C33_multiply_ring C p N hC h2 a b da db D ha hb hM hp
  refine ⟨r, e, fun n hn => ?_⟩
  rw [← evalDeg_conv]
  exact evalDeg_congr N z fun w hw hl => by rw [h w hw, if_pos (by omega)]

/-- C70 with two by two integer matrices for the letters. -/
example := C70_evaluation (A := Matrix (Fin 2) (Fin 2) Int) intCoeff .debug 2 intCoeff_isRing (by omega) (fun l => if l = 1 then !![0, 1; 0, 0] else !![0, 0; 1, 0])
  (Dense.ofVec [3, 2, 5]) (Dense.ofVec [0, 1, -1]) 1 1 2 ⟨rfl, by decide⟩ ⟨rfl, by decide⟩ (by decide) (by decide)

/-- The value of a tensor of degree `d` when `z l` is put for the letter `l`. -/
def evalTensor [CommRing S] {A : Type} [Ring A] [Algebra S A] (z : Nat → A) (v : Dense S) (d : Nat) : A :=
  ∑ n ∈ Finset.range (d + 1), evalDeg N z (coef C N v) n

/-- C70.  Without truncation evaluation is a homomorphism: sums go to sums, products to products, the unit to the unit. -/
theorem C70_homomorphism [CommRing S] {A : Type} [Ring A] [Algebra S A] (hC : C.IsRing) (h2 : 2 ≤ N) (hN : N < 2 ^ 32) (z : Nat → A) (a b : Dense S)
    (da db D : Nat) (ha : FullTo N a da) (hb : FullTo N b db) (hM : 1 ≤ da + db) (hD : da + db ≤ D) (hp : N ^ (da + db + 1) < 2 ^ 64) :
    ∃ r s u, (DenseAlg.ops C p N).multiply a b (some D) = .ok r ∧ (DenseAlg.ops C p N).add a b = .ok s ∧ (DenseAlg.ops C p N).fromKey TensorKey.new = .ok u ∧
      evalTensor C N z r (da + db) = evalTensor C N z a da * evalTensor C N z b db ∧
      evalTensor C N z s (max da db) = evalTensor C N z a da + evalTensor C N z b db ∧ evalTensor C N z u 0 = 1 := by
  obtain ⟨r, e, h⟩ := C70_evaluation C p N hC h2 z a b da db D ha hb (by omega) (by rwa [Nat.min_eq_right hD])
  obtain ⟨s, es, _, cs⟩ := coef_add C p (N := N) hC a b
  obtain ⟨u, eu, _, cu⟩ := unit_fromKey C p N hC h2 hN
  have zero : ∀ (v : Dense S) d, FullTo N v d → ∀ n, d < n → evalDeg N z (coef C N v) n = 0 := by
    intro v d hv n hn
    rw [evalDeg_congr N z (g := fun _ => 0 * 0) fun w hw hl => by
      rw [coef_zero_of_length C N hC (hv.hasDegree h2) w hw (by omega), mul_zero], evalDeg_smul, map_zero, zero_mul]
  have ext : ∀ (v : Dense S) d m, FullTo N v d → d ≤ m → evalTensor C N z v m = evalTensor C N z v d := by
    intro v d m hv hm
    symm
    apply Finset.sum_subset
    · intro i hi
      rw [Finset.mem_range] at hi ⊢
      omega
    · intro i _ hi
      rw [Finset.mem_range] at hi
      exact zero v d hv i (by omega)
  refine ⟨r, s, u, e, es, eu, ?_, ?_, ?_⟩
  · unfold evalTensor
    rw [← sum_antidiag _ _ da db (da + db) (le_refl _) (zero a da ha) (zero b db hb)]
    exact Finset.sum_congr rfl fun n hn => h n (by rw [Finset.mem_range] at hn; omega)
  · rw [← ext a da (max da db) ha (by omega), ← ext b db (max da db) hb (by omega)]
    unfold evalTensor
    rw [← Finset.sum_add_distrib]
    refine Finset.sum_congr rfl fun n _ => ?_
    rw [← evalDeg_add]
    exact evalDeg_congr N z fun w _ _ => cs w
  · unfold evalTensor
    rw [Finset.sum_range_one, evalDeg_zero, cu [] (by intro l hl; simp at hl)]
    simp [unitFn]

/-- C70 with two by two integer matrices for the letters. -/
example := C70_homomorphism (A := Matrix (Fin 2) (Fin 2) Int) intCoeff .debug 2 intCoeff_isRing (by omega) (by omega)
  (fun l => if l = 1 then !![0, 1; 0, 0] else !![0, 0; 1, 0])
  (Dense.ofVec [3, 2, 5]) (Dense.ofVec [0, 1, -1]) 1 1 2 ⟨rfl, by decide⟩ ⟨rfl, by decide⟩ (by decide) (by decide) (by decide)

/-- C70.  Evaluation of commutators; in a commutative algebra they vanish. -/
theorem C70_commutator [CommRing S] {A : Type} [Ring A] [Algebra S A] (hC : C.IsRing) (h2 : 2 ≤ N) (z : Nat → A) (a b : Dense S) (da db D : Nat)
    (ha : FullTo N a da) (hb : FullTo N b db) (hM : 1 ≤ min D (da + db)) (hp : N ^ (min D (da + db) + 1) < 2 ^ 64) :
    ∃ r, (DenseAlg.ops C p N).commutator C a b (some D) = .ok r ∧
      (∀ n ≤ D, evalDeg N z (coef C N r) n = ∑ i ∈ Finset.range (n + 1),
        (evalDeg N z (coef C N a) i * evalDeg N z (coef C N b) (n - i) - evalDeg N z (coef C N b) (n - i) * evalDeg N z (coef C N a) i)) ∧
      ((∀ x y : A, x * y = y * x) → ∀ n, evalDeg N z (coef C N r) n = 0) := by
  obtain ⟨r, e, hr, h⟩ := C36_commutator C p N hC h2 a b da db D ha hb hM hp
  have h1 : ∀ n ≤ D, evalDeg N z (coef C N r) n = ∑ i ∈ Finset.range (n + 1),
        (evalDeg N z (coef C N a) i * evalDeg N z (coef C N b) (n - i) - evalDeg N z (coef C N b) (n - i) * evalDeg N z (coef C N a) i) := by
    intro n hn
    rw [evalDeg_congr N z (g := fun w => conv (coef C N a) (coef C N b) w - conv (coef C N b) (coef C N a) w) fun w hw hl => by
      rw [h w hw, if_pos (by omega)], evalDeg_sub, evalDeg_conv, evalDeg_conv, Finset.sum_sub_distrib]
    congr 1
    rw [← Finset.sum_range_reflect]
    refine Finset.sum_congr rfl fun i hi => ?_
    rw [Finset.mem_range] at hi
    rw [show n + 1 - 1 - i = n - i by omega, show n - (n - i) = i by omega]
  refine ⟨r, e, h1, fun hc n => ?_⟩
  by_cases hn : n ≤ D
  · rw [h1 n hn]
    exact Finset.sum_eq_zero fun i _ => by rw [hc, sub_self]
  · rw [evalDeg_congr N z (g := fun _ => 0 * 0) fun w hw hl => by rw [h w hw, if_neg (by omega), mul_zero], evalDeg_smul, map_zero, zero_mul]

/-- C70 with polynomials, here integers, for the letters: the commutator vanishes. -/
example := C70_commutator (A := Int) intCoeff .debug 2 intCoeff_isRing (by omega) (fun l => 10 * l) (Dense.ofVec [3, 2, 5]) (Dense.ofVec [0, 1, -1]) 1 1 2
  ⟨rfl, by decide⟩ ⟨rfl, by decide⟩ (by decide) (by decide)

/-! ## C71: Lie elements -/

theorem lie_nonempty (e : TExpr S) (h : e.IsLie) : NonemptyWords e := by
  induction e with
  | term w s =>
    intro h0
    rw [h0] at h
    exact absurd h (by simp [TExpr.IsLie])
  | add a b ha hb | sub a b ha hb | comm a b ha hb => exact ⟨ha h.1, hb h.2⟩
  | neg a ha | smul s a ha => exact ha h
  | mul a b _ _ => exact absurd h id

theorem noConst_of_nonempty {D : Nat} (hD : 1 ≤ D) (e : TExpr S) (hn : NonemptyWords e) : e.NoConstProduct D := by
  have hd : e.NoConstProduct D ∧ 1 ≤ e.deg D := by
    induction e with
    | term w s => exact ⟨trivial, List.length_pos_iff.2 hn⟩
    | add a b iha ihb | sub a b iha ihb => exact ⟨⟨(iha hn.1).1, (ihb hn.2).1⟩, le_max_of_le_left (iha hn.1).2⟩
    | neg a ih | smul _ a ih => exact ih hn
    | mul a b iha ihb | comm a b iha ihb =>
      have h1 := (iha hn.1).2
      have h1' := (ihb hn.2).2
      exact ⟨⟨(iha hn.1).1, (ihb hn.2).1, by omega⟩, le_min hD (by omega)⟩
  exact hd.1

/-- C71.  Whatever is made from letters with commutators, sums and scalar multiples is a Lie element: its constant term is zero, and the sum of its
coefficients over the shuffles of any two non-empty words is zero. -/
theorem C71_lie [CommRing S] (hC : C.IsRing) (h2 : 2 ≤ N) (hN : N < 2 ^ 32) (D : Nat) (hD : 1 ≤ D) (hm : D ≤ maxDepth N)
    (hp : N ^ (D + 1) < 2 ^ 64) (e : TExpr S) (hw : e.Words N D) (hl : e.IsLie) :
    ∃ r, runExpr C p N D e = .ok r ∧ coef C N r [] = 0 ∧
      ∀ u v, ValidWord N u → ValidWord N v → u ≠ [] → v ≠ [] → ((shuffles u v).map (coef C N r)).sum = 0 := by
  obtain ⟨r, er, hr, hc⟩ := C53_expressions_partial C p N hC h2 hN D hD hm hp e hw (noConst_of_nonempty hD e (lie_nonempty e hl))
  obtain ⟨p1, p2⟩ := primitive_value e hl
  refine ⟨r, er, ?_, fun u v hu hv hu0 hv0 => ?_⟩
  · rw [hc [] (by intro l hl; simp at hl), if_pos (by simp), p1]
  · have hwv : ∀ w ∈ shuffles u v, ValidWord N w ∧ w.length = u.length + v.length := fun w hw =>
      ⟨fun l hl => (shuffles_mem u v w hw l hl).elim (hu l) (hv l), shuffles_length u v w hw⟩
    by_cases hlen : u.length + v.length ≤ D
    · rw [← p2 u v hu0 hv0]
      unfold sh
      congr 1
      apply List.map_congr_left
      intro w hw
      rw [hc w (hwv w hw).1, if_pos (by rw [(hwv w hw).2]; exact hlen)]
    · apply List.sum_eq_zero
      intro t ht
      rw [List.mem_map] at ht
      obtain ⟨w, hw, rfl⟩ := ht
      rw [hc w (hwv w hw).1, if_neg (by rw [(hwv w hw).2]; exact hlen)]

/-- C71 on `[e_1, [e_1, 3 e_2]] - e_2`. -/
example := C71_lie intCoeff .debug 2 intCoeff_isRing (by omega) (by omega) 4 (by omega) (by decide +kernel) (by decide)
  (.sub (.comm (.term [1] 1) (.comm (.term [1] 1) (.term [2] 3))) (.term [2] 1))
  ⟨⟨⟨by decide, by decide⟩, ⟨by decide, by decide⟩, by decide, by decide⟩, by decide, by decide⟩ (by simp [TExpr.IsLie])

/-- The relations of C71 are not met by every tensor: the product `e_1 e_2` fails them. -/
example : ∃ r, runExpr intCoeff .debug 2 4 (.mul (.term [1] 1) (.term [2] 1)) = .ok r ∧ ((shuffles [1] [2]).map (coef intCoeff 2 r)).sum ≠ 0 :=
  ⟨Dense.ofVec [0, 0, 0, 0, 1, 0, 0], by decide +kernel, by simp only [shuffles]; decide⟩

end
end RA
