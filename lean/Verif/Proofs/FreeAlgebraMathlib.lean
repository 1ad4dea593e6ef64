import Verif.SpecAlg
import Verif.SpecTensor
import Mathlib.Algebra.FreeAlgebra
import Mathlib.Algebra.Lie.Free
import Mathlib.Algebra.Lie.OfAssociative
import Mathlib.RingTheory.Ideal.Operations

/-!
# Coefficients of words in Mathlib's free algebra
-/

namespace RA
open Spec

section
variable {S : Type} [CommRing S] {X : Type}

/-- The coefficient of a word in an element of Mathlib's free algebra. -/
noncomputable def freeCoeff (x : FreeAlgebra S X) (w : List X) : S := (FreeAlgebra.equivMonoidAlgebraFreeMonoid x).coeff (FreeMonoid.ofList w)

/-- The element of Mathlib's free algebra belonging to a word. -/
def freeWord (S : Type) [CommRing S] {X : Type} (w : List X) : FreeAlgebra S X := (w.map (FreeAlgebra.ι S)).prod

theorem freeCoeff_add (x y : FreeAlgebra S X) (w : List X) : freeCoeff (x + y) w = freeCoeff x w + freeCoeff y w := by
  simp [freeCoeff]

theorem freeCoeff_neg (x : FreeAlgebra S X) (w : List X) : freeCoeff (-x) w = - freeCoeff x w := by
  simp [freeCoeff]

theorem freeCoeff_sub (x y : FreeAlgebra S X) (w : List X) : freeCoeff (x - y) w = freeCoeff x w - freeCoeff y w := by
  simp [freeCoeff]

theorem freeCoeff_smul (s : S) (x : FreeAlgebra S X) (w : List X) : freeCoeff (s • x) w = s * freeCoeff x w := by
  simp [freeCoeff]

theorem freeCoeff_zero (w : List X) : freeCoeff (0 : FreeAlgebra S X) w = 0 := by
  simp [freeCoeff]

theorem freeCoeff_sum {ι : Type} (l : List ι) (f : ι → FreeAlgebra S X) (w : List X) : freeCoeff (l.map f).sum w = (l.map fun i => freeCoeff (f i) w).sum := by
  induction l with
  | nil => simp [freeCoeff_zero]
  | cons i l ih => simp [freeCoeff_add, ih]

/-- Elements with the same coefficients are equal. -/
theorem freeCoeff_inj {x y : FreeAlgebra S X} (h : ∀ w, freeCoeff x w = freeCoeff y w) : x = y := by
  apply FreeAlgebra.equivMonoidAlgebraFreeMonoid.injective
  ext w
  exact h (FreeMonoid.toList w)

theorem equiv_freeWord (w : List X) : FreeAlgebra.equivMonoidAlgebraFreeMonoid (freeWord S w) = MonoidAlgebra.single (FreeMonoid.ofList w) 1 := by
  induction w with
  | nil => simp [freeWord, MonoidAlgebra.one_def]
  | cons a w ih =>
    have : freeWord S (a :: w) = FreeAlgebra.ι S a * freeWord S w := by simp [freeWord]
    rw [this, map_mul, ih]
    simp [FreeAlgebra.equivMonoidAlgebraFreeMonoid]

theorem freeCoeff_word [DecidableEq X] (u w : List X) : freeCoeff (freeWord S u) w = if w = u then 1 else 0 := by
  classical
  unfold freeCoeff
  rw [equiv_freeWord, MonoidAlgebra.coeff_single, Finsupp.single_apply]
  simp [eq_comm]

/-- The coefficients of a product: sums over the ways to cut the word in two. -/
theorem freeCoeff_mul (x y : FreeAlgebra S X) (w : List X) :
    freeCoeff (x * y) w = ∑ i ∈ Finset.range (w.length + 1), freeCoeff x (w.take i) * freeCoeff y (w.drop i) := by
  classical
  unfold freeCoeff
  rw [map_mul]
  generalize FreeAlgebra.equivMonoidAlgebraFreeMonoid x = x
  generalize FreeAlgebra.equivMonoidAlgebraFreeMonoid y = y
  induction x using MonoidAlgebra.induction_linear with
  | zero => simp
  | add a b ha hb => simp [add_mul, ha, hb, Finset.sum_add_distrib]
  | single u s =>
    induction y using MonoidAlgebra.induction_linear with
    | zero => simp
    | add a b ha hb => simp only [mul_add, MonoidAlgebra.coeff_add, Finsupp.add_apply, ha, hb, Finset.sum_add_distrib]
    | single v t =>
      obtain ⟨u, rfl⟩ := FreeMonoid.ofList.surjective u
      obtain ⟨v, rfl⟩ := FreeMonoid.ofList.surjective v
      rw [MonoidAlgebra.single_mul_single, ← FreeMonoid.ofList_append]
      simp only [MonoidAlgebra.coeff_single, Finsupp.single_apply, EmbeddingLike.apply_eq_iff_eq]
      by_cases h : u ++ v = w
      · subst h
        rw [if_pos rfl, Finset.sum_eq_single u.length]
        · simp
        · intro i hi hne
          rw [Finset.mem_range, List.length_append] at hi
          by_cases he : u = (u ++ v).take i
          · have := congrArg List.length he
            rw [List.length_take, List.length_append] at this
            omega
          · rw [if_neg he, zero_mul]
        · intro hn
          exact absurd (Finset.mem_range.mpr (by rw [List.length_append]; omega)) hn
      · rw [if_neg h]
        symm
        apply Finset.sum_eq_zero
        intro i _
        by_cases h1 : u = w.take i
        · by_cases h2 : v = w.drop i
          · exact absurd (by rw [h1, h2, List.take_append_drop]) h
          · rw [if_neg h2, mul_zero]
        · rw [if_neg h1, zero_mul]

/-- An element is the sum of its words with their coefficients, over any finite set of words outside of which the coefficients vanish. -/
theorem freeCoeff_expand [DecidableEq X] (x : FreeAlgebra S X) (T : Finset (List X)) (h : ∀ w ∉ T, freeCoeff x w = 0) :
    x = ∑ w ∈ T, freeCoeff x w • freeWord S w := by
  apply freeCoeff_inj
  intro w
  have hs : ∀ U : Finset (List X), freeCoeff (∑ v ∈ U, freeCoeff x v • freeWord S v) w = ∑ v ∈ U, if w = v then freeCoeff x v else 0 := by
    intro U
    induction U using Finset.induction_on with
    | empty => simp [freeCoeff_zero]
    | insert a U ha ih =>
      rw [Finset.sum_insert ha, Finset.sum_insert ha, freeCoeff_add, ih, freeCoeff_smul, freeCoeff_word]
      simp
  rw [hs, Finset.sum_ite_eq T w]
  split_ifs with hw
  · rfl
  · exact h w hw

/-- Only finitely many words have a coefficient. -/
theorem freeCoeff_support (x : FreeAlgebra S X) : ∃ T : Finset (List X), ∀ w ∉ T, freeCoeff x w = 0 := by
  classical
  refine ⟨(FreeAlgebra.equivMonoidAlgebraFreeMonoid x).coeff.support.image FreeMonoid.toList, fun w hw => ?_⟩
  by_contra hn
  exact hw (Finset.mem_image.mpr ⟨FreeMonoid.ofList w, Finsupp.mem_support_iff.mpr hn, rfl⟩)

/-- The ideal of the elements without constant term. -/
def augmentation (S : Type) [CommRing S] (X : Type) : Ideal (FreeAlgebra S X) := RingHom.ker (FreeAlgebra.algebraMapInv : FreeAlgebra S X →ₐ[S] S)

instance : (augmentation S X).IsTwoSided := by unfold augmentation; infer_instance

theorem freeCoeff_nil (x : FreeAlgebra S X) : freeCoeff x [] = FreeAlgebra.algebraMapInv x := by
  induction x using FreeAlgebra.induction with
  | grade0 r => simp [freeCoeff, Algebra.algebraMap_eq_smul_one, MonoidAlgebra.one_def]
  | grade1 a =>
    classical
    have h := freeCoeff_word (S := S) [a] []
    simp only [freeWord, List.map_cons, List.map_nil, List.prod_cons, List.prod_nil, mul_one] at h
    rw [h]
    simp [FreeAlgebra.algebraMapInv]
  | mul a b ha hb => rw [freeCoeff_mul, map_mul]; simp [ha, hb]
  | add a b ha hb => rw [freeCoeff_add, map_add, ha, hb]

theorem freeWord_mem (w : List X) : freeWord S w ∈ augmentation S X ^ w.length := by
  induction w with
  | nil => simp [freeWord, Submodule.pow_zero]
  | cons a w ih =>
    have : freeWord S (a :: w) = FreeAlgebra.ι S a * freeWord S w := by simp [freeWord]
    rw [this, List.length_cons, Ideal.IsTwoSided.pow_succ]
    apply Ideal.mul_mem_mul _ ih
    unfold augmentation
    rw [RingHom.mem_ker]
    simp [FreeAlgebra.algebraMapInv]

/-- The powers of the augmentation ideal: an element is in the `n`-th power exactly when the words of fewer than `n` letters have coefficient zero. -/
theorem mem_augmentation_pow (x : FreeAlgebra S X) (n : Nat) : x ∈ augmentation S X ^ n ↔ ∀ w : List X, w.length < n → freeCoeff x w = 0 := by
  classical
  constructor
  · intro h
    induction n generalizing x with
    | zero => intro w hw; omega
    | succ n ih =>
      rw [Ideal.IsTwoSided.pow_succ] at h
      induction h using Submodule.mul_induction_on' with
      | mem_mul_mem a ha b hb =>
        intro w hw
        rw [freeCoeff_mul]
        apply Finset.sum_eq_zero
        intro i hi
        rw [Finset.mem_range] at hi
        rcases Nat.eq_zero_or_pos i with rfl | hi0
        · have : freeCoeff a [] = 0 := by rw [freeCoeff_nil]; exact ha
          rw [List.take_zero, this, zero_mul]
        · rw [ih b hb (w.drop i) (by rw [List.length_drop]; omega), mul_zero]
      | add a _ b _ ha hb =>
        intro w hw
        rw [freeCoeff_add, ha w hw, hb w hw, add_zero]
  · intro h
    obtain ⟨T, hT⟩ := freeCoeff_support x
    rw [freeCoeff_expand x T hT]
    refine Submodule.sum_mem _ fun w _ => ?_
    by_cases hl : w.length < n
    · rw [h w hl, zero_smul]
      exact Submodule.zero_mem _
    · rw [Algebra.smul_def]
      exact Ideal.mul_mem_left _ _ (Ideal.pow_le_pow_right (by omega) (freeWord_mem w))

end
end RA
