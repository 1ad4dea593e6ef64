import Verif.Proofs.FreeAlgebraMathlib
import Verif.Props.Dynkin
import Mathlib.RingTheory.Ideal.Quotient.Defs
import Mathlib.RingTheory.Ideal.Quotient.Operations

/-!
# Dense tensors and the free algebra of Mathlib (C102)

The other properties of products are stated with coefficient functions.  Here the same is said with the free algebra and the free Lie algebra defined in Mathlib:
the dense tensors up to degree `D` are the quotient of the free algebra by the power `D + 1` of the ideal of the elements without constant term.
-/

namespace RA
open Spec TensorKey TensorBasis DenseAlg Hall

section
variable {S R : Type} [CommRing S] (C : Coeff S R) (p : Profile) (N : Nat)

/-- The letters `1..N` of a word of generators `0..N-1`. -/
def letters {N : Nat} (w : List (Fin N)) : List Nat := w.map fun i => i.val + 1

/-- The generator of Mathlib's free algebra for a letter. -/
def freeLetter (S : Type) [CommRing S] (N l : Nat) : FreeAlgebra S (Fin N) := if h : l - 1 < N then FreeAlgebra.ι S ⟨l - 1, h⟩ else 0

/-- The element of the free algebra belonging to the part of a tensor up to degree `D`: the sum of its words with their coefficients. -/
def tensorFree (D : Nat) (a : Dense S) : FreeAlgebra S (Fin N) := evalTensor C N (freeLetter S N) a D

/-- The class of a tensor in the free algebra truncated after degree `D`. -/
def tensorClass (D : Nat) (a : Dense S) : FreeAlgebra S (Fin N) ⧸ augmentation S (Fin N) ^ (D + 1) := Ideal.Quotient.mk _ (tensorFree C N D a)

variable {N}

theorem letters_valid (w : List (Fin N)) : ValidWord N (letters w) := by
  intro l hl
  obtain ⟨i, _, rfl⟩ := List.mem_map.1 hl
  exact ⟨by omega, i.isLt⟩

theorem letters_length (w : List (Fin N)) : (letters w).length = w.length := List.length_map _

theorem letters_inj {u w : List (Fin N)} (h : letters u = letters w) : u = w :=
  List.map_injective_iff.2 (fun i j hij => Fin.ext (by simpa using hij)) h

theorem letters_surj (W : List Nat) (hW : ValidWord N W) : ∃ w : List (Fin N), letters w = W := by
  induction W with
  | nil => exact ⟨[], rfl⟩
  | cons l W ih =>
    obtain ⟨w, rfl⟩ := ih fun m hm => hW m (by simp [hm])
    have := hW l (by simp)
    refine ⟨⟨l - 1, by omega⟩ :: w, ?_⟩
    simp only [letters, List.map_cons, List.cons.injEq, and_true]
    omega

theorem freeLetter_letters (w : List (Fin N)) : ((letters w).map (freeLetter S N)).prod = freeWord S w := by
  unfold letters freeWord
  rw [List.map_map]
  congr 1
  apply List.map_congr_left
  intro i _
  simp [freeLetter]

theorem freeCoeff_evalDeg (f : List Nat → S) (n : Nat) (w : List (Fin N)) :
    freeCoeff (evalDeg N (freeLetter S N) f n) w = if w.length = n then f (letters w) else 0 := by
  unfold evalDeg
  rw [freeCoeff_sum]
  have h : ∀ L : List (List Nat), (∀ W ∈ L, ValidWord N W) → L.Nodup →
      (L.map fun W => freeCoeff (f W • (W.map (freeLetter S N)).prod) w).sum = if letters w ∈ L then f (letters w) else 0 := by
    intro L hL hn
    induction L with
    | nil => simp
    | cons W L ih =>
      obtain ⟨u, hu⟩ := letters_surj W (hL W (by simp))
      rw [List.map_cons, List.sum_cons, ih (fun V hV => hL V (by simp [hV])) (List.nodup_cons.1 hn).2, ← hu, freeLetter_letters, freeCoeff_smul, freeCoeff_word]
      by_cases h : w = u
      · subst h
        have : letters w ∉ L := hu ▸ (List.nodup_cons.1 hn).1
        simp [this]
      · have : letters w ≠ letters u := fun h' => h (letters_inj h')
        simp [h, this]
  rw [h _ (fun W hW => ((mem_allWords N n W).1 hW).1) (nodup_allWords N n)]
  congr 1
  rw [mem_allWords, letters_length]
  exact propext ⟨fun h => h.2, fun h => ⟨letters_valid w, h⟩⟩

theorem freeCoeff_sum_evalDeg (f : List Nat → S) (D : Nat) (w : List (Fin N)) :
    freeCoeff (∑ n ∈ Finset.range (D + 1), evalDeg N (freeLetter S N) f n) w = if w.length ≤ D then f (letters w) else 0 := by
  induction D with
  | zero => rw [Finset.sum_range_one, freeCoeff_evalDeg]; simp
  | succ D ih =>
    rw [Finset.sum_range_succ, freeCoeff_add, ih, freeCoeff_evalDeg]
    by_cases h1 : w.length ≤ D
    · rw [if_pos h1, if_neg (by omega), if_pos (by omega), add_zero]
    · by_cases h2 : w.length = D + 1
      · rw [if_neg h1, if_pos h2, if_pos (by omega), zero_add]
      · rw [if_neg h1, if_neg h2, if_neg (by omega), zero_add]

variable (N)

/-- C102.  The element of Mathlib's free algebra belonging to a tensor has the coefficients stored in the tensor. -/
theorem C102_coefficients (D : Nat) (a : Dense S) (w : List (Fin N)) :
    freeCoeff (tensorFree C N D a) w = if w.length ≤ D then coef C N a (letters w) else 0 := freeCoeff_sum_evalDeg _ D w

variable {N} in
theorem tensorClass_eq (D : Nat) (a : Dense S) (x : FreeAlgebra S (Fin N)) :
    tensorClass C N D a = Ideal.Quotient.mk _ x ↔ ∀ w : List (Fin N), w.length ≤ D → coef C N a (letters w) = freeCoeff x w := by
  unfold tensorClass
  rw [Ideal.Quotient.eq, mem_augmentation_pow]
  refine forall_congr' fun w => ?_
  constructor
  · intro h hl
    have := h (by omega)
    rwa [freeCoeff_sub, C102_coefficients, if_pos hl, sub_eq_zero] at this
  · intro h hl
    rw [freeCoeff_sub, C102_coefficients, if_pos (by omega), h (by omega), sub_self]

/-- C102.  Two tensors have the same class exactly when their coefficients agree up to degree `D`. -/
theorem C102_injective (D : Nat) (a b : Dense S) :
    tensorClass C N D a = tensorClass C N D b ↔ ∀ w, ValidWord N w → w.length ≤ D → coef C N a w = coef C N b w := by
  rw [show tensorClass C N D b = Ideal.Quotient.mk _ (tensorFree C N D b) from rfl, tensorClass_eq]
  constructor
  · intro h W hW hl
    obtain ⟨w, rfl⟩ := letters_surj W hW
    rw [letters_length] at hl
    rw [h w hl, C102_coefficients, if_pos hl]
  · intro h w hl
    rw [h _ (letters_valid w) (by rwa [letters_length]), C102_coefficients, if_pos hl]

variable {N} in
theorem freeCoeff_mul_conv (x y : FreeAlgebra S (Fin N)) (f g : List Nat → S) (w : List (Fin N))
    (hf : ∀ u : List (Fin N), u.length ≤ w.length → f (letters u) = freeCoeff x u) (hg : ∀ u : List (Fin N), u.length ≤ w.length → g (letters u) = freeCoeff y u) :
    conv f g (letters w) = freeCoeff (x * y) w := by
  rw [freeCoeff_mul, conv_eq_sum, letters_length, Finset.sum_range]
  rw [← List.sum_ofFn, List.ofFn_eq_map, ← List.map_coe_finRange_eq_range, List.map_map]
  congr 1
  apply List.map_congr_left
  intro i _
  rw [Function.comp_apply, ← hf _ (by rw [List.length_take]; omega), ← hg _ (by rw [List.length_drop]; omega)]
  simp [letters]

/-- C102.  On classes, the operations of the crate are the operations of the free algebra: sums, differences, negatives, multiples, products and commutators. -/
theorem C102_operations (hC : C.IsRing) (h2 : 2 ≤ N) (a b : Dense S) (s : S) (da db D : Nat) (ha : FullTo N a da) (hb : FullTo N b db)
    (hM : 1 ≤ min D (da + db)) (hp : N ^ (min D (da + db) + 1) < 2 ^ 64) :
    ∃ m c t d n q, (DenseAlg.ops C p N).multiply a b (some D) = .ok m ∧ (DenseAlg.ops C p N).commutator C a b (some D) = .ok c ∧
      (DenseAlg.ops C p N).add a b = .ok t ∧ (DenseAlg.ops C p N).sub a b = .ok d ∧ (DenseAlg.ops C p N).uminus a = .ok n ∧
      (DenseAlg.ops C p N).scalarLmultiply a s = .ok q ∧
      tensorClass C N D m = tensorClass C N D a * tensorClass C N D b ∧
      tensorClass C N D c = tensorClass C N D a * tensorClass C N D b - tensorClass C N D b * tensorClass C N D a ∧
      tensorClass C N D t = tensorClass C N D a + tensorClass C N D b ∧ tensorClass C N D d = tensorClass C N D a - tensorClass C N D b ∧
      tensorClass C N D n = - tensorClass C N D a ∧ tensorClass C N D q = s • tensorClass C N D a := by
  obtain ⟨m, em, _, hm⟩ := C33_multiply_ring C p N hC h2 a b da db D ha hb hM hp
  obtain ⟨c, ec, _, hc⟩ := C36_commutator C p N hC h2 a b da db D ha hb hM hp
  obtain ⟨t, et, _, ht⟩ := coef_add C p (N := N) hC a b
  obtain ⟨d, ed, _, hd⟩ := coef_sub C p (N := N) hC a b
  obtain ⟨n, en, _, hn⟩ := coef_uminus C p (N := N) hC a
  obtain ⟨q, eq, _, hq⟩ := coef_smul C p (N := N) hC a s
  have hA : ∀ (v : Dense S) (u : List (Fin N)), u.length ≤ D → coef C N v (letters u) = freeCoeff (tensorFree C N D v) u := fun v u hu => by
    rw [C102_coefficients, if_pos hu]
  have hmul : ∀ (x y : Dense S) (w : List (Fin N)), w.length ≤ D →
      conv (coef C N x) (coef C N y) (letters w) = freeCoeff (tensorFree C N D x * tensorFree C N D y) w := fun x y w hl =>
    freeCoeff_mul_conv _ _ _ _ w (fun u hu => hA x u (hu.trans hl)) (fun u hu => hA y u (hu.trans hl))
  refine ⟨m, c, t, d, n, q, em, ec, et, ed, en, eq, ?_, ?_, ?_, ?_, ?_, ?_⟩
  · rw [show tensorClass C N D a * tensorClass C N D b = Ideal.Quotient.mk _ (tensorFree C N D a * tensorFree C N D b) from rfl, tensorClass_eq]
    intro w hl
    rw [hm _ (letters_valid w), letters_length, if_pos hl, hmul a b w hl]
  · rw [show tensorClass C N D a * tensorClass C N D b - tensorClass C N D b * tensorClass C N D a =
      Ideal.Quotient.mk _ (tensorFree C N D a * tensorFree C N D b - tensorFree C N D b * tensorFree C N D a) from rfl, tensorClass_eq]
    intro w hl
    rw [hc _ (letters_valid w), letters_length, if_pos hl, hmul a b w hl, hmul b a w hl, freeCoeff_sub]
  · rw [show tensorClass C N D a + tensorClass C N D b = Ideal.Quotient.mk _ (tensorFree C N D a + tensorFree C N D b) from rfl, tensorClass_eq]
    intro w hl
    rw [ht, freeCoeff_add, hA a w hl, hA b w hl]
  · rw [show tensorClass C N D a - tensorClass C N D b = Ideal.Quotient.mk _ (tensorFree C N D a - tensorFree C N D b) from rfl, tensorClass_eq]
    intro w hl
    rw [hd, freeCoeff_sub, hA a w hl, hA b w hl]
  · rw [show - tensorClass C N D a = Ideal.Quotient.mk _ (- tensorFree C N D a) from rfl, tensorClass_eq]
    intro w hl
    rw [hn, freeCoeff_neg, hA a w hl]
  · rw [show s • tensorClass C N D a = Ideal.Quotient.mk _ (s • tensorFree C N D a) from rfl, tensorClass_eq]
    intro w hl
    rw [hq, freeCoeff_smul, hA a w hl]

variable {N} in
theorem freeCoeff_evalE (e : TExpr S) (D : Nat) (he : e.Words N D) (w : List (Fin N)) : freeCoeff (evalE (freeLetter S N) e) w = e.value (letters w) := by
  induction e generalizing w with
  | term W s =>
    obtain ⟨u, rfl⟩ := letters_surj W he.1
    rw [evalE, freeLetter_letters, freeCoeff_smul, freeCoeff_word, TExpr.value]
    by_cases h : w = u
    · subst h; simp
    · have : letters w ≠ letters u := fun h' => h (letters_inj h')
      simp [h, this]
  | add a b ha hb => rw [evalE, freeCoeff_add, ha he.1, hb he.2]; rfl
  | sub a b ha hb => rw [evalE, freeCoeff_sub, ha he.1, hb he.2]; rfl
  | neg a ha => rw [evalE, freeCoeff_neg, ha he]; rfl
  | smul s a ha => rw [evalE, freeCoeff_smul, ha he]; rfl
  | mul a b ha hb =>
    rw [evalE, ← freeCoeff_mul_conv _ _ a.value b.value w (fun u _ => (ha he.1 u).symm) (fun u _ => (hb he.2 u).symm)]; rfl
  | comm a b ha hb =>
    rw [evalE, freeCoeff_sub, ← freeCoeff_mul_conv _ _ a.value b.value w (fun u _ => (ha he.1 u).symm) (fun u _ => (hb he.2 u).symm),
      ← freeCoeff_mul_conv _ _ b.value a.value w (fun u _ => (hb he.2 u).symm) (fun u _ => (ha he.1 u).symm)]; rfl

/-- C102.  An expression (without products of two constants, see C53) evaluates to the class of what it denotes in the free algebra, the generators being put for
the letters. -/
theorem C102_expression (hC : C.IsRing) (h2 : 2 ≤ N) (hN : N < 2 ^ 32) (D : Nat) (hD : 1 ≤ D) (hm : D ≤ maxDepth N) (hp : N ^ (D + 1) < 2 ^ 64)
    (e : TExpr S) (hw : e.Words N D) (hs : e.NoConstProduct D) :
    ∃ r, runExpr C p N D e = .ok r ∧ tensorClass C N D r = Ideal.Quotient.mk _ (evalE (freeLetter S N) e) := by
  obtain ⟨r, er, _, hr⟩ := C53_expressions_partial C p N hC h2 hN D hD hm hp e hw hs
  refine ⟨r, er, (tensorClass_eq C D r _).2 fun w hl => ?_⟩
  rw [hr _ (letters_valid w), letters_length, if_pos hl, freeCoeff_evalE e D hw]

/-- The sum of words with given coefficients. -/
def wordSum (c : List (Fin N) → S) : List (List (Fin N)) → TExpr S
  | [] => .term [] 0
  | w :: L => .add (.term (letters w) (c w)) (wordSum c L)

/-- C102.  Every class is the class of a tensor, made with the operations of the crate from multiples of words. -/
theorem C102_surjective (hC : C.IsRing) (h2 : 2 ≤ N) (hN : N < 2 ^ 32) (D : Nat) (hD : 1 ≤ D) (hm : D ≤ maxDepth N) (hp : N ^ (D + 1) < 2 ^ 64)
    (q : FreeAlgebra S (Fin N) ⧸ augmentation S (Fin N) ^ (D + 1)) : ∃ e r, runExpr C p N D e = .ok r ∧ tensorClass C N D r = q := by
  classical
  obtain ⟨x, rfl⟩ := Ideal.Quotient.mk_surjective q
  obtain ⟨T, hT⟩ := freeCoeff_support x
  obtain ⟨L, hL⟩ : ∃ L : List (List (Fin N)), L = (T.filter fun w => w.length ≤ D).toList := ⟨_, rfl⟩
  have hmem : ∀ w, w ∈ L ↔ w ∈ T ∧ w.length ≤ D := fun w => by rw [hL]; simp
  have hnd : L.Nodup := by rw [hL]; exact Finset.nodup_toList _
  have key : ∀ L : List (List (Fin N)), (∀ w ∈ L, w.length ≤ D) → L.Nodup → (wordSum N (freeCoeff x) L).Words N D ∧ (wordSum N (freeCoeff x) L).NoConstProduct D ∧
      ∀ w, (wordSum N (freeCoeff x) L).value (letters w) = if w ∈ L then freeCoeff x w else 0 := by
    intro L hl hn
    induction L with
    | nil => exact ⟨⟨fun l hl => by simp at hl, by simp⟩, trivial, fun w => by simp [wordSum, TExpr.value]⟩
    | cons u L ih =>
      obtain ⟨h1, h3, h4⟩ := ih (fun w hw => hl w (by simp [hw])) (List.nodup_cons.1 hn).2
      refine ⟨⟨⟨letters_valid u, by rw [letters_length]; exact hl u (by simp)⟩, h1⟩, ⟨trivial, h3⟩, fun w => ?_⟩
      show (if letters w = letters u then freeCoeff x u else 0) + (wordSum N (freeCoeff x) L).value (letters w) = _
      rw [h4]
      by_cases h : w = u
      · subst h
        simp [(List.nodup_cons.1 hn).1]
      · have : letters w ≠ letters u := fun h' => h (letters_inj h')
        simp [h, this]
  obtain ⟨h1, h3, h4⟩ := key L (fun w hw => ((hmem w).1 hw).2) hnd
  obtain ⟨r, er, _, hr⟩ := C53_expressions_partial C p N hC h2 hN D hD hm hp _ h1 h3
  refine ⟨_, r, er, (tensorClass_eq C D r x).2 fun w hl => ?_⟩
  rw [hr _ (letters_valid w), letters_length, if_pos hl, h4]
  split_ifs with h
  · rfl
  · exact (hT w fun hw => h ((hmem w).2 ⟨hw, hl⟩)).symm

/-! ## The free Lie algebra -/

attribute [local instance 100] LieRing.ofAssociativeRing

variable {N} in
/-- The elements of the free algebra denoted by Lie expressions. -/
theorem lie_expr_of_free (y : FreeLieAlgebra S (Fin N)) (hN : 1 ≤ N) :
    ∃ e : TExpr S, e.IsLie ∧ e.Words N 1 ∧ evalE (freeLetter S N) e = FreeLieAlgebra.lift S (FreeAlgebra.ι S) y := by
  let L : LieSubalgebra S (FreeAlgebra S (Fin N)) :=
    { carrier := {z | ∃ e : TExpr S, e.IsLie ∧ e.Words N 1 ∧ evalE (freeLetter S N) e = z}
      add_mem' := by
        rintro _ _ ⟨a, a1, a2, rfl⟩ ⟨b, b1, b2, rfl⟩
        exact ⟨.add a b, ⟨a1, b1⟩, ⟨a2, b2⟩, rfl⟩
      zero_mem' := ⟨.term [1] 0, rfl, ⟨fun l hl => by rw [List.mem_singleton] at hl; omega, by simp⟩, by simp [evalE]⟩
      smul_mem' := by
        rintro s _ ⟨a, a1, a2, rfl⟩
        exact ⟨.smul s a, a1, a2, rfl⟩
      lie_mem' := by
        rintro _ _ ⟨a, a1, a2, rfl⟩ ⟨b, b1, b2, rfl⟩
        exact ⟨.comm a b, ⟨a1, b1⟩, ⟨a2, b2⟩, rfl⟩ }
  have hι : ∀ i : Fin N, FreeAlgebra.ι S i ∈ L := fun i =>
    ⟨.term (letters [i]) 1, by simp [TExpr.IsLie, letters], ⟨letters_valid [i], by simp [letters]⟩, by rw [evalE, freeLetter_letters]; simp [freeWord]⟩
  have h : FreeLieAlgebra.lift S (FreeAlgebra.ι S) = L.incl.comp (FreeLieAlgebra.lift S fun i => (⟨FreeAlgebra.ι S i, hι i⟩ : L)) := by
    apply FreeLieAlgebra.hom_ext
    intro i
    simp
  rw [h]
  exact ((FreeLieAlgebra.lift S fun i => (⟨FreeAlgebra.ι S i, hι i⟩ : L)) y).2

variable {N} in
theorem free_of_lie_expr (e : TExpr S) (he : e.IsLie) (D : Nat) (hw : e.Words N D) :
    ∃ y : FreeLieAlgebra S (Fin N), FreeLieAlgebra.lift S (FreeAlgebra.ι S) y = evalE (freeLetter S N) e := by
  induction e with
  | term W s =>
    obtain ⟨w, rfl⟩ := letters_surj W hw.1
    rw [TExpr.IsLie, letters_length, List.length_eq_one_iff] at he
    obtain ⟨i, rfl⟩ := he
    refine ⟨s • FreeLieAlgebra.of S i, ?_⟩
    rw [map_smul, FreeLieAlgebra.lift_of_apply, evalE, freeLetter_letters]
    simp [freeWord]
  | add a b ha hb =>
    obtain ⟨x, hx⟩ := ha he.1 hw.1
    obtain ⟨y, hy⟩ := hb he.2 hw.2
    exact ⟨x + y, by rw [map_add, hx, hy]; rfl⟩
  | sub a b ha hb =>
    obtain ⟨x, hx⟩ := ha he.1 hw.1
    obtain ⟨y, hy⟩ := hb he.2 hw.2
    exact ⟨x - y, by rw [map_sub, hx, hy]; rfl⟩
  | neg a ha =>
    obtain ⟨x, hx⟩ := ha he hw
    exact ⟨-x, by rw [map_neg, hx]; rfl⟩
  | smul s a ha =>
    obtain ⟨x, hx⟩ := ha he hw
    exact ⟨s • x, by rw [map_smul, hx]; rfl⟩
  | mul a b => exact absurd he id
  | comm a b ha hb =>
    obtain ⟨x, hx⟩ := ha he.1 hw.1
    obtain ⟨y, hy⟩ := hb he.2 hw.2
    exact ⟨⁅x, y⁆, by rw [LieHom.map_lie, hx, hy]; rfl⟩

/-- C102, over any commutative ring.  Every element of Mathlib's free Lie algebra gives a tensor, made with commutators, sums and multiples of letters, and these
are all tensors so made. -/
theorem C102_lie_expression (hC : C.IsRing) (h2 : 2 ≤ N) (hN : N < 2 ^ 32) (D : Nat) (hD : 1 ≤ D) (hm : D ≤ maxDepth N) (hp : N ^ (D + 1) < 2 ^ 64) :
    (∀ y : FreeLieAlgebra S (Fin N), ∃ e : TExpr S, e.IsLie ∧ e.Words N D ∧ ∃ r, runExpr C p N D e = .ok r ∧
      tensorClass C N D r = Ideal.Quotient.mk _ (FreeLieAlgebra.lift S (FreeAlgebra.ι S) y)) ∧
    ∀ e : TExpr S, e.IsLie → e.Words N D → ∃ (y : FreeLieAlgebra S (Fin N)) (r : Dense S), runExpr C p N D e = .ok r ∧
      tensorClass C N D r = Ideal.Quotient.mk _ (FreeLieAlgebra.lift S (FreeAlgebra.ι S) y) := by
  constructor
  · intro y
    obtain ⟨e, he, hw, hy⟩ := lie_expr_of_free y (by omega)
    obtain ⟨r, er, hr⟩ := C102_expression C p N hC h2 hN D hD hm hp e (words_mono hD _ hw) (noConst_of_nonempty hD e (lie_nonempty e he))
    exact ⟨e, he, words_mono hD _ hw, r, er, by rw [hr, hy]⟩
  · intro e he hw
    obtain ⟨y, hy⟩ := free_of_lie_expr e he D hw
    obtain ⟨r, er, hr⟩ := C102_expression C p N hC h2 hN D hD hm hp e hw (noConst_of_nonempty hD e (lie_nonempty e he))
    exact ⟨y, r, er, by rw [hr, hy]⟩

end

section
variable {S R : Type} [Field S] [CharZero S] (C : Coeff S R) (N : Nat)

attribute [local instance 100] LieRing.ofAssociativeRing

/-- C102, over a field of characteristic zero.  A tensor satisfies the Lie identities of C71 up to degree `D` exactly when its class is that of an element of Mathlib's
free Lie algebra. -/
theorem C102_lie (hC : C.IsRing) (h2 : 2 ≤ N) (hN : N < 2 ^ 32) (D : Nat) (hD : 1 ≤ D) (hm : D ≤ maxDepth N) (hp : N ^ (D + 1) < 2 ^ 64) (x : Dense S) :
    IsLieVec C N D x ↔ ∃ y : FreeLieAlgebra S (Fin N), tensorClass C N D x = Ideal.Quotient.mk _ (FreeLieAlgebra.lift S (FreeAlgebra.ι S) y) := by
  constructor
  · intro hx
    obtain ⟨e, he, hw, r, er, hr⟩ := C93_ree C .debug N hC h2 hN D hD hm hp x hx
    obtain ⟨y, r', er', hy⟩ := (C102_lie_expression C .debug N hC h2 hN D hD hm hp).2 e he hw
    cases er.symm.trans er'
    refine ⟨y, ?_⟩
    rw [← hy]
    exact (C102_injective C N D x r).2 fun w hw hl => (hr w hw hl).symm
  · rintro ⟨y, hy⟩
    obtain ⟨e, he, hw, r, er, hr⟩ := (C102_lie_expression C .debug N hC h2 hN D hD hm hp).1 y
    rw [← hr, C102_injective] at hy
    obtain ⟨r', er', h0, hs⟩ := C71_lie C .debug N hC h2 hN D hD hm hp e hw he
    cases er.symm.trans er'
    refine ⟨by rw [hy [] (by intro l hl; simp at hl) (by simp), h0], fun u v hu hv hu0 hv0 hl => ?_⟩
    rw [← hs u v hu hv hu0 hv0]
    congr 1
    refine List.map_congr_left fun w hw => ?_
    exact hy w (fun l hl => (shuffles_mem u v w hw l hl).elim (hu l) (hv l)) (by rw [shuffles_length u v w hw]; exact hl)

end

section
variable (S : Type) [Field S] [CharZero S] (N D : Nat)

attribute [local instance 100] LieRing.ofAssociativeRing

/-- The free Lie algebra of Mathlib inside the free algebra, truncated after degree `D`. -/
noncomputable def freeLieImage : Submodule S (FreeAlgebra S (Fin N) ⧸ augmentation S (Fin N) ^ (D + 1)) :=
  (FreeLieAlgebra.lift S (FreeAlgebra.ι S) : FreeLieAlgebra S (Fin N) →ₗ⁅S⁆ FreeAlgebra S (Fin N)).range.toSubmodule.map
    (Ideal.Quotient.mkₐ S (augmentation S (Fin N) ^ (D + 1))).toLinearMap

omit [CharZero S] in
theorem mk_evalDeg_eq (f : List Nat → S) (x : FreeAlgebra S (Fin N)) :
    (Ideal.Quotient.mk (augmentation S (Fin N) ^ (D + 1)) (∑ n ∈ Finset.range (D + 1), evalDeg N (freeLetter S N) f n) = Ideal.Quotient.mk _ x) ↔
      ∀ w : List (Fin N), w.length ≤ D → f (letters w) = freeCoeff x w := by
  rw [Ideal.Quotient.eq, mem_augmentation_pow]
  refine forall_congr' fun w => ?_
  constructor
  · intro h hl
    have := h (by omega)
    rwa [freeCoeff_sub, freeCoeff_sum_evalDeg, if_pos hl, sub_eq_zero] at this
  · intro h hl
    rw [freeCoeff_sub, freeCoeff_sum_evalDeg, if_pos (by omega), h (by omega), sub_self]

theorem freeLieImage_finrank (hN : 1 ≤ N) : Module.finrank S (freeLieImage S N D) = Module.finrank S (lieSpace S N (· ≤ D)) := by
  let φ : lieSpace S N (· ≤ D) →ₗ[S] FreeAlgebra S (Fin N) ⧸ augmentation S (Fin N) ^ (D + 1) :=
    { toFun := fun f => Ideal.Quotient.mk _ (∑ n ∈ Finset.range (D + 1), evalDeg N (freeLetter S N) f.1 n)
      map_add' := fun f g => by
        rw [← map_add, mk_evalDeg_eq]
        intro w hl
        rw [freeCoeff_add, freeCoeff_sum_evalDeg, freeCoeff_sum_evalDeg, if_pos hl, if_pos hl]
        rfl
      map_smul' := fun s f => by
        rw [RingHom.id_apply, show s • Ideal.Quotient.mk (augmentation S (Fin N) ^ (D + 1)) (∑ n ∈ Finset.range (D + 1), evalDeg N (freeLetter S N) f.1 n) =
          Ideal.Quotient.mk _ (s • ∑ n ∈ Finset.range (D + 1), evalDeg N (freeLetter S N) f.1 n) from rfl, mk_evalDeg_eq]
        intro w hl
        rw [freeCoeff_smul, freeCoeff_sum_evalDeg, if_pos hl]
        rfl }
  have hinj : Function.Injective φ := by
    intro f g h
    have h' := (mk_evalDeg_eq S N D f.1 _).1 h
    apply Subtype.ext
    funext W
    by_cases hW : ValidWord N W ∧ W.length ≤ D
    · obtain ⟨w, rfl⟩ := letters_surj W hW.1
      rw [letters_length] at hW
      rw [h' w hW.2, freeCoeff_sum_evalDeg, if_pos hW.2]
    · rw [f.2.1 W hW, g.2.1 W hW]
  have hrange : LinearMap.range φ = freeLieImage S N D := by
    ext q
    constructor
    · rintro ⟨f, rfl⟩
      obtain ⟨e, he, hw, hf⟩ := (C92_space S N hN D f.1).1 f.2
      obtain ⟨y, hy⟩ := free_of_lie_expr e he 1 hw
      refine ⟨_, ⟨y, rfl⟩, ?_⟩
      symm
      refine (mk_evalDeg_eq S N D f.1 _).2 fun w hl => ?_
      show _ = freeCoeff (FreeLieAlgebra.lift S (FreeAlgebra.ι S) y) w
      rw [hf, letters_length, if_pos hl, hy, freeCoeff_evalE e 1 hw]
    · rintro ⟨_, ⟨y, rfl⟩, rfl⟩
      obtain ⟨e, he, hw, hy⟩ := lie_expr_of_free y hN
      refine ⟨⟨fun w => if w.length ≤ D then e.value w else 0, (C92_space S N hN D _).2 ⟨e, he, hw, fun _ => rfl⟩⟩, ?_⟩
      refine (mk_evalDeg_eq S N D _ _).2 fun w hl => ?_
      show (if (letters w).length ≤ D then e.value (letters w) else 0) = freeCoeff (FreeLieAlgebra.lift S (FreeAlgebra.ι S) y) w
      rw [letters_length, if_pos hl, ← hy, freeCoeff_evalE e 1 hw]
  rw [← hrange, LinearMap.finrank_range_of_inj hinj]

/-- C102.  Whatever `hall_set_size` returns is the dimension of Mathlib's free Lie algebra, taken inside the free algebra and truncated after degree `d`. -/
theorem C102_dimension (p : Profile) (w d v : Nat) (hw : 1 ≤ w) (hfit : w ^ d < 2 ^ 63) (h : hallSetSize p w d = .ok v) :
    v = Module.finrank S (freeLieImage S w d) := by
  rw [freeLieImage_finrank S w d hw]
  exact (C92_size S p w d v hfit h).2

/-- C102.  The same for the entries of a `DegreeRangeMap`, however it came about. -/
theorem C102_range_map (p : Profile) (n : Nat) (gs : List Nat) (m : RangeMap) (h : mapAfter p N n gs = .ok m) (d : Nat)
    (hd : d < covered n gs) (hN : 1 ≤ N) (hfit : N ^ d < 2 ^ 63) : RangeMap.get m d = .ok (Module.finrank S (freeLieImage S N d)) := by
  rw [freeLieImage_finrank S N d hN]
  exact C92_range_map S p N n gs m h d hd hfit

end

/-! ## Examples -/

attribute [local instance 100] LieRing.ofAssociativeRing

/-- `1 + e_{12}` is `1 + x_0 x_1` in the free algebra, at every truncation degree. -/
example (D : Nat) : tensorClass intCoeff 2 D (Dense.ofVec [1, 0, 0, 0, 1, 0, 0]) =
    Ideal.Quotient.mk _ (1 + FreeAlgebra.ι Int 0 * FreeAlgebra.ι Int 1) := by
  rw [tensorClass_eq]
  intro w _
  have h : 1 + FreeAlgebra.ι Int 0 * FreeAlgebra.ι Int 1 = freeWord Int ([] : List (Fin 2)) + freeWord Int ([0, 1] : List (Fin 2)) := by
    simp [freeWord]
  rw [h, freeCoeff_add, freeCoeff_word, freeCoeff_word]
  by_cases hl : w.length ≤ 2
  · match w with
    | [] => decide
    | [a] => fin_cases a <;> decide
    | [a, b] => fin_cases a <;> fin_cases b <;> decide
    | _ :: _ :: _ :: _ => simp at hl
  · rw [coef_zero_of_length _ _ intCoeff_isRing (show HasDegree 2 _ 2 from ⟨by decide, by decide⟩) _ (letters_valid w) (by rw [letters_length]; omega),
      if_neg (by rintro rfl; simp at hl), if_neg (by rintro rfl; simp at hl), add_zero]
/-- Truncated at degree one, the words `12` and `21` have the same class. -/
example : tensorClass intCoeff 2 1 (Dense.ofVec [2, 0, 0, 0, 1, 0, 0]) = tensorClass intCoeff 2 1 (Dense.ofVec [2, 0, 0, 0, 0, 1, 0]) :=
  (C102_injective _ _ _ _ _).2 fun w hw hl => by
    have h := words1 w hw hl
    simp only [List.mem_cons, List.not_mem_nil, or_false] at h
    rcases h with rfl | rfl | rfl <;> decide
/-- Not so at degree two. -/
example : tensorClass intCoeff 2 2 (Dense.ofVec [2, 0, 0, 0, 1, 0, 0]) ≠ tensorClass intCoeff 2 2 (Dense.ofVec [2, 0, 0, 0, 0, 1, 0]) := fun h => by
  have := (C102_injective _ _ _ _ _).1 h [1, 2] (by decide) (by decide)
  revert this
  decide
example := C102_coefficients intCoeff 2 3 (Dense.ofVec [2, 0, 0, 0, 1, 0, 0]) [0, 1]
example (p : Profile) := C102_operations intCoeff p 2 intCoeff_isRing (by omega) (Dense.ofVec [2, 0, 0, 0, 1, 0, 0]) (Dense.ofVec [0, 1, -1]) 7 2 1 2
  ⟨rfl, by decide⟩ ⟨rfl, by decide⟩ (by decide) (by decide)
example (p : Profile) := C102_expression intCoeff p 2 intCoeff_isRing (by omega) (by omega) 4 (by omega) (by decide +kernel) (by decide)
  (.mul (.add (.term [1, 2] 3) (.term [] 5)) (.comm (.term [1] 1) (.term [2] (-1))))
  ⟨⟨⟨by decide, by decide⟩, by decide, by decide⟩, ⟨by decide, by decide⟩, by decide, by decide⟩ (by simp [TExpr.NoConstProduct, TExpr.deg])
example (p : Profile) := C102_surjective intCoeff p 2 intCoeff_isRing (by omega) (by omega) 4 (by omega) (by decide +kernel) (by decide)
  (Ideal.Quotient.mk _ (FreeAlgebra.ι Int 0 * FreeAlgebra.ι Int 1 - 3 • FreeAlgebra.ι Int 1))
example (p : Profile) := (C102_lie_expression intCoeff p 2 intCoeff_isRing (by omega) (by omega) 4 (by omega) (by decide +kernel) (by decide)).1
  ⁅FreeLieAlgebra.of Int (0 : Fin 2), FreeLieAlgebra.of Int (1 : Fin 2)⁆
/-- The word `12` belongs to no element of the free Lie algebra. -/
example : ¬ ∃ y : FreeLieAlgebra ℚ (Fin 2), tensorClass (fieldCoeff ℚ) 2 2 (Dense.ofVec [0, 0, 0, 0, 1, 0, 0]) =
    Ideal.Quotient.mk _ (FreeLieAlgebra.lift ℚ (FreeAlgebra.ι ℚ) y) := by
  rw [← C102_lie (fieldCoeff ℚ) 2 (fieldCoeff_isField ℚ).toIsRing (by omega) (by omega) 2 (by omega) (by decide +kernel) (by decide)]
  intro h
  have := h.2 [1] [2] (by decide) (by decide) (by simp) (by simp) (by simp)
  rw [show shuffles [1] [2] = [[1, 2], [2, 1]] by decide +kernel] at this
  revert this
  decide +kernel
/-- The free Lie algebra on two generators has dimension 8 up to degree 4. -/
example : Module.finrank ℚ (freeLieImage ℚ 2 4) = 8 :=
  have h := C92_size_returns ℚ .debug 2 4 (by omega) (by norm_num)
  (C102_dimension ℚ .debug 2 4 _ (by omega) (by norm_num) h).symm.trans ((C92_size ℚ .debug 2 4 _ (by norm_num) h).1.trans (by decide +kernel))
example (p : Profile) : ∃ m, mapAfter p 5 2 [5, 3] = .ok m ∧ RangeMap.get m 4 = .ok (Module.finrank ℚ (freeLieImage ℚ 5 4)) := by
  obtain ⟨m, hm⟩ := C44_returns_partial p 5 2 [5, 3] (by decide) (by omega) (by simp)
  exact ⟨m, hm, C102_range_map ℚ 5 p 2 [5, 3] m hm 4 (by decide) (by omega) (by norm_num)⟩
/-- The vector `2 e_1 + 3 e_2` does. -/
example := (C102_lie (fieldCoeff Rat) 2 (fieldCoeff_isField Rat).toIsRing (by omega) (by omega) 4 (by omega) (by decide +kernel) (by decide) (Dense.ofVec [0, 2, 3])).1
  (path_lie 4 _ (by simp [path]))

end RA
