import Verif.Proofs.Conv
import Mathlib.Algebra.BigOperators.Intervals
import Mathlib.Algebra.Module.Pi
import Mathlib.Algebra.Field.Basic
import Mathlib.Data.Nat.Factorial.Basic
import Mathlib.Tactic.FieldSimp
import Mathlib.Tactic.Abel
import Mathlib.Tactic.Module

/-!
# The ring of formal tensors

A formal tensor is a coefficient function on words; the product is `Spec.conv`.  Independent of the model.
-/

namespace RA
open Spec

/-- Formal tensors. -/
def WordFn (S : Type) := List Nat → S

namespace WordFn
variable {S : Type} [CommRing S]

instance : AddCommGroup (WordFn S) := inferInstanceAs (AddCommGroup (List Nat → S))
instance : Module S (WordFn S) := inferInstanceAs (Module S (List Nat → S))

instance : Ring (WordFn S) :=
  { (inferInstance : AddCommGroup (WordFn S)) with
    mul := fun f g => conv f g
    one := unitFn
    mul_assoc := fun f g h => funext fun w => conv_assoc f g h w
    one_mul := fun f => funext fun w => conv_unit_left f w
    mul_one := fun f => funext fun w => conv_unit_right f w
    left_distrib := fun f g h => funext fun w => conv_add_right f g h w
    right_distrib := fun f g h => funext fun w => conv_add_left f g h w
    zero_mul := fun f => funext fun w => conv_zero_left f w
    mul_zero := fun f => funext fun w => by
      have := conv_smul_right (0 : S) f f w
      simp only [zero_mul] at this
      exact this }

theorem mul_apply (f g : WordFn S) (w : List Nat) : (f * g) w = conv f g w := rfl
theorem mul_apply_sum (f g : WordFn S) (w : List Nat) : (f * g) w = ((List.range (w.length + 1)).map fun k => f (w.take k) * g (w.drop k)).sum :=
  conv_eq_sum f g w
theorem mul_nil (f g : WordFn S) : (f * g) [] = f [] * g [] := rfl
theorem mul_cons (f g : WordFn S) (l : Nat) (w : List Nat) : (f * g) (l :: w) = f [] * g (l :: w) + conv (fun u => f (l :: u)) g w := rfl
theorem one_apply (w : List Nat) : (1 : WordFn S) w = if w = [] then 1 else 0 := rfl
theorem zero_apply (w : List Nat) : (0 : WordFn S) w = 0 := rfl
theorem add_apply (f g : WordFn S) (w : List Nat) : (f + g) w = f w + g w := rfl
theorem sub_apply (f g : WordFn S) (w : List Nat) : (f - g) w = f w - g w := rfl
theorem smul_apply (c : S) (f : WordFn S) (w : List Nat) : (c • f) w = c * f w := rfl

theorem sum_apply {ι : Type} (s : Finset ι) (f : ι → WordFn S) (w : List Nat) : (∑ i ∈ s, f i) w = ∑ i ∈ s, f i w :=
  Finset.sum_apply w s f

theorem smul_mul (c : S) (f g : WordFn S) : (c • f) * g = c • (f * g) := funext fun w => conv_smul_left c f g w
theorem mul_smul' (c : S) (f g : WordFn S) : f * (c • g) = c • (f * g) := funext fun w => conv_smul_right c f g w

/-- Equal on all words of length at most `d`. -/
def EqTo (d : Nat) (f g : WordFn S) : Prop := ∀ w : List Nat, w.length ≤ d → f w = g w

omit [CommRing S] in
theorem EqTo.refl (d : Nat) (f : WordFn S) : EqTo d f f := fun _ _ => rfl
omit [CommRing S] in
theorem EqTo.symm {d : Nat} {f g : WordFn S} (h : EqTo d f g) : EqTo d g f := fun w hw => (h w hw).symm
omit [CommRing S] in
theorem EqTo.trans {d : Nat} {f g h : WordFn S} (h1 : EqTo d f g) (h2 : EqTo d g h) : EqTo d f h := fun w hw => (h1 w hw).trans (h2 w hw)

theorem EqTo.add {d : Nat} {f f' g g' : WordFn S} (hf : EqTo d f f') (hg : EqTo d g g') : EqTo d (f + g) (f' + g') := fun w hw => by
  rw [add_apply, add_apply, hf w hw, hg w hw]

theorem EqTo.smul {d : Nat} {f f' : WordFn S} (c : S) (hf : EqTo d f f') : EqTo d (c • f) (c • f') := fun w hw => by
  rw [smul_apply, smul_apply, hf w hw]

theorem EqTo.mul {d : Nat} {f f' g g' : WordFn S} (hf : EqTo d f f') (hg : EqTo d g g') : EqTo d (f * g) (f' * g') := fun w hw =>
  conv_congr w (fun u hu => hf u (by omega)) (fun u hu => hg u (by omega))

/-- A right factor without constant term gains one degree. -/
theorem EqTo.mul_raise {d : Nat} {f f' g : WordFn S} (hf : EqTo d f f') (hg : g [] = 0) : EqTo (d + 1) (f * g) (f' * g) := fun w hw => by
  rw [mul_apply_sum, mul_apply_sum]
  congr 1
  apply List.map_congr_left
  intro k hk
  rw [List.mem_range] at hk
  by_cases h : k = w.length
  · subst h
    rw [List.drop_length, hg, mul_zero, mul_zero]
  · rw [hf _ (by rw [List.length_take]; omega)]

theorem EqTo.sum {d : Nat} {ι : Type} (s : Finset ι) (f g : ι → WordFn S) (h : ∀ i ∈ s, EqTo d (f i) (g i)) :
    EqTo d (∑ i ∈ s, f i) (∑ i ∈ s, g i) := fun w hw => by
  rw [sum_apply, sum_apply]
  exact Finset.sum_congr rfl fun i hi => h i hi w hw

/-- The formal tensor of the one-letter word `1`. -/
def letter : WordFn S := fun w => if w = [1] then 1 else 0

theorem letter_mul (g : WordFn S) (w : List Nat) : ((letter : WordFn S) * g) (1 :: w) = g w := by
  rw [mul_cons]
  have h : (fun u : List Nat => (letter (S := S)) (1 :: u)) = unitFn := by
    funext u
    unfold letter unitFn
    simp
  rw [h]
  refine (congrArg₂ (· + ·) (?_ : letter (S := S) [] * g (1 :: w) = 0) (conv_unit_left g w)).trans (zero_add _)
  simp [letter]

theorem letter_pow (k m : Nat) : ((letter : WordFn S) ^ k) (List.replicate m 1) = if m = k then 1 else 0 := by
  induction k generalizing m with
  | zero =>
    rw [pow_zero, one_apply]
    cases m <;> simp
  | succ k ih =>
    rw [pow_succ']
    cases m with
    | zero => rw [List.replicate_zero, mul_nil]; simp [letter]
    | succ m => rw [List.replicate_succ, letter_mul, ih]; simp

/-- The unrolled Horner recursion `r ↦ i (r x) + a` for `i = n, ..., 1`. -/
theorem horner (a x r : WordFn S) (n : Nat) :
    (List.range' 1 n).reverse.foldl (fun r (i : Nat) => (i : S) • (r * x) + a) r =
      ∑ k ∈ Finset.range n, (k.factorial : S) • (a * x ^ k) + (n.factorial : S) • (r * x ^ n) := by
  induction n generalizing r with
  | zero => simp
  | succ n ih =>
    rw [List.range'_concat, List.reverse_append, List.reverse_singleton, List.singleton_append, List.foldl_cons, ih, Finset.sum_range_succ,
      add_mul, smul_mul, smul_add, smul_smul, Nat.one_mul, mul_assoc, ← pow_succ', Nat.factorial_succ]
    push_cast
    rw [show (n.factorial : S) * (1 + (n : S)) = ((n : S) + 1) * (n.factorial : S) by ring]
    abel

end WordFn
end RA
