import Verif.SpecAlg
import Verif.Proofs.Conv
import Mathlib.Algebra.BigOperators.Intervals
import Mathlib.Algebra.BigOperators.Ring.Finset
import Mathlib.Algebra.Algebra.Basic
import Mathlib.Tactic.LinearCombination

/-!
# The concatenation product: reversal, evaluation in algebras, shuffles
-/

namespace RA
open Spec

section
variable {S : Type} [CommRing S]

/-! ## Reversal -/

theorem conv_snoc (f g : List Nat → S) (w : List Nat) (l : Nat) :
    conv f g (w ++ [l]) = conv f (fun v => g (v ++ [l])) w + f (w ++ [l]) * g [] := by
  induction w generalizing f with
  | nil => simp [conv]
  | cons x w ih =>
    rw [List.cons_append, conv, conv, ih, ← add_assoc]
    rfl

theorem conv_reverse (f g : List Nat → S) (w : List Nat) :
    conv f g w.reverse = conv (fun u => g u.reverse) (fun u => f u.reverse) w := by
  induction w generalizing g with
  | nil => simp [conv, mul_comm]
  | cons l w ih =>
    rw [List.reverse_cons, conv_snoc, ih, conv]
    simp only [List.reverse_cons, List.reverse_nil]
    ring

/-! ## Evaluation in an algebra -/

variable {A : Type} [Ring A] [Algebra S A]

theorem evalDeg_zero (N : Nat) (z : Nat → A) (f : List Nat → S) : evalDeg N z f 0 = algebraMap S A (f []) := by
  simp [evalDeg, allWords, Algebra.algebraMap_eq_smul_one]

theorem evalDeg_add (N : Nat) (z : Nat → A) (f g : List Nat → S) (n : Nat) :
    evalDeg N z (fun w => f w + g w) n = evalDeg N z f n + evalDeg N z g n := by
  unfold evalDeg
  simp only [add_smul]
  rw [List.sum_map_add]

theorem evalDeg_smul (N : Nat) (z : Nat → A) (c : S) (f : List Nat → S) (n : Nat) :
    evalDeg N z (fun w => c * f w) n = algebraMap S A c * evalDeg N z f n := by
  unfold evalDeg
  rw [← List.sum_map_mul_left]
  simp only [Algebra.smul_def, map_mul, mul_assoc]

theorem evalDeg_sub (N : Nat) (z : Nat → A) (f g : List Nat → S) (n : Nat) :
    evalDeg N z (fun w => f w - g w) n = evalDeg N z f n - evalDeg N z g n := by
  have h := evalDeg_add N z f (fun w => -1 * g w) n
  rw [evalDeg_smul] at h
  simp only [neg_mul, one_mul, map_neg, map_one, ← sub_eq_add_neg] at h
  exact h

theorem evalDeg_succ (N : Nat) (z : Nat → A) (f : List Nat → S) (n : Nat) :
    evalDeg N z f (n + 1) = ((List.range' 1 N).map fun l => z l * evalDeg N z (fun w => f (l :: w)) n).sum := by
  unfold evalDeg
  rw [allWords]
  induction List.range' 1 N with
  | nil => simp
  | cons l L ih =>
    rw [List.flatMap_cons, List.map_append, List.sum_append, ih, List.map_cons, List.sum_cons, List.map_map, ← List.sum_map_mul_left]
    congr 2
    apply List.map_congr_left
    intro w _
    simp

theorem evalDeg_congr (N : Nat) (z : Nat → A) {f g : List Nat → S} {n : Nat} (h : ∀ w, ValidWord N w → w.length = n → f w = g w) :
    evalDeg N z f n = evalDeg N z g n := by
  induction n generalizing f g with
  | zero => rw [evalDeg_zero, evalDeg_zero, h [] (by intro l hl; simp at hl) rfl]
  | succ n ih =>
    rw [evalDeg_succ, evalDeg_succ]
    congr 1
    apply List.map_congr_left
    intro l hl
    rw [List.mem_range'_1] at hl
    rw [ih fun w hw hn => h (l :: w) (by
      intro x hx
      rcases List.mem_cons.mp hx with rfl | hx
      · omega
      · exact hw x hx) (by simp [hn])]

theorem list_sum_finset {ι : Type} (L : List Nat) (s : Finset ι) (F : Nat → ι → A) :
    (L.map fun l => ∑ i ∈ s, F l i).sum = ∑ i ∈ s, (L.map fun l => F l i).sum := by
  induction L with
  | nil => simp
  | cons l L ih => simp only [List.map_cons, List.sum_cons, ih, Finset.sum_add_distrib]

/-- Evaluation turns the concatenation product into the product of the algebra, degree by degree. -/
theorem evalDeg_conv (N : Nat) (z : Nat → A) (f g : List Nat → S) (n : Nat) :
    evalDeg N z (conv f g) n = ∑ i ∈ Finset.range (n + 1), evalDeg N z f i * evalDeg N z g (n - i) := by
  induction n generalizing f with
  | zero => simp [evalDeg_zero, conv]
  | succ n ih =>
    rw [evalDeg_succ, Finset.sum_range_succ']
    have h : ∀ l, z l * evalDeg N z (fun w => conv f g (l :: w)) n =
        algebraMap S A (f []) * (z l * evalDeg N z (fun w => g (l :: w)) n) +
          ∑ i ∈ Finset.range (n + 1), (z l * evalDeg N z (fun w => f (l :: w)) i) * evalDeg N z g (n - i) := by
      intro l
      have e : (fun w => conv f g (l :: w)) = fun w => f [] * g (l :: w) + conv (fun u => f (l :: u)) g w := rfl
      rw [e, evalDeg_add, evalDeg_smul, ih, mul_add, ← mul_assoc, ← mul_assoc, Algebra.commutes, Finset.mul_sum]
      simp only [mul_assoc]
    simp only [h]
    rw [List.sum_map_add, List.sum_map_mul_left, ← evalDeg_succ, list_sum_finset, evalDeg_zero, add_comm]
    congr 1
    apply Finset.sum_congr rfl
    intro i hi
    rw [List.sum_map_mul_right, ← evalDeg_succ]
    congr 2
    omega

/-- Sums over all degrees multiply. -/
theorem sum_antidiag (x y : Nat → A) (da db M : Nat) (hM : da + db ≤ M) (hx : ∀ i, da < i → x i = 0) (hy : ∀ j, db < j → y j = 0) :
    ∑ n ∈ Finset.range (M + 1), ∑ i ∈ Finset.range (n + 1), x i * y (n - i) =
      (∑ i ∈ Finset.range (da + 1), x i) * ∑ j ∈ Finset.range (db + 1), y j := by
  have hx' : ∑ i ∈ Finset.range (da + 1), x i = ∑ i ∈ Finset.range (M + 1), x i := by
    apply Finset.sum_subset
    · intro i hi
      rw [Finset.mem_range] at hi ⊢
      omega
    · intro i _ hi
      rw [Finset.mem_range] at hi
      exact hx i (by omega)
  rw [hx', Finset.sum_mul]
  rw [Finset.sum_sigma', ]
  have h2 : ∀ i ∈ Finset.range (M + 1), x i * ∑ j ∈ Finset.range (db + 1), y j = ∑ n ∈ Finset.range (M + 1), if i ≤ n then x i * y (n - i) else 0 := by
    intro i hi
    rw [Finset.mem_range] at hi
    by_cases hd : da < i
    · simp [hx i hd]
    · rw [← Finset.sum_filter]
      have h3 : (Finset.range (M + 1)).filter (fun n => i ≤ n) = (Finset.range (M + 1 - i)).image (· + i) := by
        ext n
        simp only [Finset.mem_filter, Finset.mem_range, Finset.mem_image]
        constructor
        · rintro ⟨h1, h2⟩
          exact ⟨n - i, by omega, by omega⟩
        · rintro ⟨m, h1, rfl⟩
          omega
      rw [h3, Finset.sum_image (by intro a _ b _ h; simpa using h), Finset.mul_sum]
      simp only [Nat.add_sub_cancel]
      apply Finset.sum_subset
      · intro j hj
        rw [Finset.mem_range] at hj ⊢
        omega
      · intro j _ hj
        rw [Finset.mem_range] at hj
        rw [hy j (by omega), mul_zero]
  rw [Finset.sum_congr rfl h2, Finset.sum_comm, Finset.sum_sigma]
  apply Finset.sum_congr rfl
  intro n hn
  rw [Finset.mem_range] at hn
  rw [← Finset.sum_filter]
  apply Finset.sum_congr _ fun _ _ => rfl
  ext i
  simp only [Finset.mem_range, Finset.mem_filter]
  omega

/-! ## Shuffles -/

/-- Sum of the values over the shuffles of two words. -/
def sh (f : List Nat → S) (u v : List Nat) : S := ((shuffles u v).map f).sum

theorem sh_nil_left (f : List Nat → S) (v : List Nat) : sh f [] v = f v := by simp [sh, shuffles]

theorem sh_nil_right (f : List Nat → S) (u : List Nat) : sh f u [] = f u := by cases u <;> simp [sh, shuffles]

theorem sh_cons (f : List Nat → S) (a b : Nat) (u v : List Nat) :
    sh f (a :: u) (b :: v) = sh (fun w => f (a :: w)) u (b :: v) + sh (fun w => f (b :: w)) (a :: u) v := by
  unfold sh
  rw [shuffles, List.map_append, List.sum_append, List.map_map, List.map_map]
  rfl

theorem sh_add (f g : List Nat → S) (u v : List Nat) : sh (fun w => f w + g w) u v = sh f u v + sh g u v := by
  unfold sh
  rw [List.sum_map_add]

theorem sh_mul (c : S) (f : List Nat → S) (u v : List Nat) : sh (fun w => c * f w) u v = c * sh f u v := by
  unfold sh
  rw [List.sum_map_mul_left]

theorem sh_neg (f : List Nat → S) (u v : List Nat) : sh (fun w => - f w) u v = - sh f u v := by
  have := sh_mul (-1) f u v
  simpa using this

theorem sh_sub (f g : List Nat → S) (u v : List Nat) : sh (fun w => f w - g w) u v = sh f u v - sh g u v := by
  have := sh_add f (fun w => - g w) u v
  rw [sh_neg] at this
  simpa [sub_eq_add_neg] using this

/-- Product of functions of two words: the sum over the splittings of both. -/
def conv2 (F G : List Nat → List Nat → S) : List Nat → List Nat → S
  | [], v => conv (F []) (G []) v
  | a :: u, v => conv (F []) (G (a :: u)) v + conv2 (fun x => F (a :: x)) G u v

theorem conv2_add_left (F F' G : List Nat → List Nat → S) (u v : List Nat) :
    conv2 (fun x y => F x y + F' x y) G u v = conv2 F G u v + conv2 F' G u v := by
  induction u generalizing F F' with
  | nil => exact conv_add_left _ _ _ _
  | cons a u ih => rw [conv2, conv2, conv2, ih, conv_add_left]; ring

theorem conv2_nil_right (F G : List Nat → List Nat → S) (u : List Nat) : conv2 F G u [] = conv (fun x => F x []) (fun x => G x []) u := by
  induction u generalizing F with
  | nil => rfl
  | cons a u ih => rw [conv2, ih, conv, conv]

theorem conv2_cons_right (F G : List Nat → List Nat → S) (u v : List Nat) (b : Nat) :
    conv2 F G u (b :: v) = conv (fun x => F x []) (fun x => G x (b :: v)) u + conv2 (fun x y => F x (b :: y)) G u v := by
  induction u generalizing F with
  | nil => rfl
  | cons a u ih => rw [conv2, ih, conv, conv, conv2]; ring

/-- Deconcatenation and shuffle are compatible. -/
theorem sh_conv (f g : List Nat → S) (u v : List Nat) : sh (conv f g) u v = conv2 (sh f) (sh g) u v := by
  have e : ∀ f : List Nat → S, sh f [] = f := fun f => funext (sh_nil_left f)
  have e' : ∀ f : List Nat → S, (fun x => sh f x []) = f := fun f => funext (sh_nil_right f)
  match u, v with
  | [], v => rw [sh_nil_left, conv2, e, e]
  | a :: u, [] => rw [sh_nil_right, conv2_nil_right, e', e']
  | a :: u, b :: v =>
    have e1 : ∀ l, (fun w => conv f g (l :: w)) = fun w => f [] * g (l :: w) + conv (fun u => f (l :: u)) g w := fun _ => rfl
    rw [sh_cons, e1, e1, sh_add, sh_add, sh_mul, sh_mul, sh_conv (fun x => f (a :: x)) g u (b :: v), sh_conv (fun x => f (b :: x)) g (a :: u) v]
    rw [conv2_cons_right, conv2, conv2, conv2_cons_right, e, e, e']
    have e2 : (fun x => sh f (a :: x) []) = fun x => f (a :: x) := funext fun x => sh_nil_right f _
    have e3 : (fun x y => sh f (a :: x) (b :: y)) = fun x y => sh (fun w => f (a :: w)) x (b :: y) + sh (fun w => f (b :: w)) (a :: x) y :=
      funext fun x => funext fun y => sh_cons f a b x y
    rw [e2, e3, conv2_add_left, conv, sh_cons g]
    ring
termination_by u.length + v.length

theorem conv_right_const (f h : List Nat → S) (w : List Nat) (hh : ∀ y, y ≠ [] → h y = 0) : conv f h w = f w * h [] := by
  induction w generalizing f with
  | nil => rfl
  | cons l w ih => rw [conv, ih, hh _ (by simp), mul_zero, zero_add]

theorem conv_left_const (f h : List Nat → S) (w : List Nat) (hf : ∀ y, y ≠ [] → f y = 0) : conv f h w = f [] * h w := by
  cases w with
  | nil => rfl
  | cons l w =>
    rw [conv, show (fun u => f (l :: u)) = fun _ => 0 from funext fun u => hf _ (by simp), conv_zero_left, add_zero]

theorem conv2_left_const (F G : List Nat → List Nat → S) (u v : List Nat) (hF : ∀ x y, y ≠ [] → F x y = 0) :
    conv2 F G u v = conv (fun x => F x []) (fun x => G x v) u := by
  induction u generalizing F with
  | nil =>
    rw [conv2, conv_left_const _ _ _ (hF [])]
    rfl
  | cons a u ih => rw [conv2, ih _ fun x y h => hF _ _ h, conv_left_const _ _ _ (hF []), conv]

/-- The coefficients vanish on the empty word and on all shuffles of non-empty words. -/
def Primitive (f : List Nat → S) : Prop := f [] = 0 ∧ ∀ u v, u ≠ [] → v ≠ [] → sh f u v = 0

theorem sh_conv_primitive {f g : List Nat → S} (hf : Primitive f) (hg : Primitive g) (u v : List Nat) (hu : u ≠ []) (hv : v ≠ []) :
    sh (conv f g) u v = f v * g u + f u * g v := by
  obtain ⟨a, u, rfl⟩ := List.exists_cons_of_ne_nil hu
  rw [sh_conv, conv2, show sh f [] = f from funext (sh_nil_left f), conv_right_const _ _ _ fun y hy => hg.2 _ _ hu hy, sh_nil_right,
    conv2_left_const _ _ _ _ fun x y hy => hf.2 _ _ (by simp) hy, conv_right_const _ _ _ fun y hy => hg.2 _ _ hy hv, sh_nil_right, sh_nil_left]

theorem Primitive.comm {f g : List Nat → S} (hf : Primitive f) (hg : Primitive g) : Primitive fun u => conv f g u - conv g f u := by
  refine ⟨by simp only [conv, hf.1, hg.1]; ring, fun u v hu hv => ?_⟩
  rw [sh_sub, sh_conv_primitive hf hg u v hu hv, sh_conv_primitive hg hf u v hu hv]
  ring

theorem shuffles_length (u v : List Nat) : ∀ w ∈ shuffles u v, w.length = u.length + v.length := by
  match u, v with
  | [], v => simp [shuffles]
  | a :: u, [] => simp [shuffles]
  | a :: u, b :: v =>
    intro w hw
    rw [shuffles, List.mem_append, List.mem_map, List.mem_map] at hw
    rcases hw with ⟨x, hx, rfl⟩ | ⟨x, hx, rfl⟩
    · have := shuffles_length u (b :: v) x hx
      simp only [List.length_cons] at this ⊢
      omega
    · have := shuffles_length (a :: u) v x hx
      simp only [List.length_cons] at this ⊢
      omega
termination_by u.length + v.length

theorem shuffles_mem (u v : List Nat) : ∀ w ∈ shuffles u v, ∀ l ∈ w, l ∈ u ∨ l ∈ v := by
  match u, v with
  | [], v => simp [shuffles]
  | a :: u, [] => simp [shuffles]
  | a :: u, b :: v =>
    intro w hw l hl
    rw [shuffles, List.mem_append, List.mem_map, List.mem_map] at hw
    rcases hw with ⟨x, hx, rfl⟩ | ⟨x, hx, rfl⟩
    · have := shuffles_mem u (b :: v) x hx l
      simp only [List.mem_cons] at this hl ⊢
      tauto
    · have := shuffles_mem (a :: u) v x hx l
      simp only [List.mem_cons] at this hl ⊢
      tauto
termination_by u.length + v.length

theorem primitive_letter (x : Nat) (s : S) : Primitive fun u : List Nat => if u = [x] then s else 0 := by
  refine ⟨by simp, fun u v hu hv => ?_⟩
  unfold sh
  apply List.sum_eq_zero
  intro y hy
  rw [List.mem_map] at hy
  obtain ⟨w, hw, rfl⟩ := hy
  have hl := shuffles_length u v w hw
  have h1 := List.length_pos_of_ne_nil hu
  have h2 := List.length_pos_of_ne_nil hv
  rw [if_neg]
  rintro rfl
  simp at hl
  omega

/-- Lie expressions have primitive values. -/
theorem primitive_value (e : TExpr S) (h : e.IsLie) : Primitive e.value := by
  induction e with
  | term w s =>
    obtain ⟨x, rfl⟩ := List.length_eq_one_iff.mp h
    exact primitive_letter x s
  | add a b ha hb =>
    refine ⟨?_, fun u v hu hv => ?_⟩
    · show a.value [] + b.value [] = 0
      rw [(ha h.1).1, (hb h.2).1, add_zero]
    · exact (sh_add a.value b.value u v).trans (by rw [(ha h.1).2 u v hu hv, (hb h.2).2 u v hu hv, add_zero])
  | sub a b ha hb =>
    refine ⟨?_, fun u v hu hv => ?_⟩
    · show a.value [] - b.value [] = 0
      rw [(ha h.1).1, (hb h.2).1, sub_zero]
    · exact (sh_sub a.value b.value u v).trans (by rw [(ha h.1).2 u v hu hv, (hb h.2).2 u v hu hv, sub_zero])
  | neg a ha =>
    refine ⟨?_, fun u v hu hv => ?_⟩
    · show - a.value [] = 0
      rw [(ha h).1, neg_zero]
    · exact (sh_neg a.value u v).trans (by rw [(ha h).2 u v hu hv, neg_zero])
  | smul s a ha =>
    refine ⟨?_, fun u v hu hv => ?_⟩
    · show s * a.value [] = 0
      rw [(ha h).1, mul_zero]
    · exact (sh_mul s a.value u v).trans (by rw [(ha h).2 u v hu hv, mul_zero])
  | mul a b _ _ => exact absurd h id
  | comm a b ha hb => exact (ha h.1).comm (hb h.2)

/-! ## Inverses -/

/-- The sum `1 + x + x^2 + ... + x^k`, by Horner's rule. -/
def hornerFn (x : List Nat → S) : Nat → List Nat → S
  | 0 => unitFn
  | k + 1 => fun w => unitFn w + conv x (hornerFn x k) w

/-- The power `x^k`. -/
def powFn (x : List Nat → S) : Nat → List Nat → S
  | 0 => unitFn
  | k + 1 => conv x (powFn x k)

theorem powFn_zero_of_length (x : List Nat → S) (hx : x [] = 0) (k : Nat) (w : List Nat) (h : w.length < k) : powFn x k w = 0 := by
  induction k generalizing w with
  | zero => omega
  | succ k ih =>
    rw [powFn, conv_eq_sum]
    apply List.sum_eq_zero
    intro y hy
    rw [List.mem_map] at hy
    obtain ⟨i, hi, rfl⟩ := hy
    rw [List.mem_range] at hi
    cases i with
    | zero => simp [hx]
    | succ i => rw [ih _ (by rw [List.length_drop]; omega), mul_zero]

theorem horner_left (x : List Nat → S) (k : Nat) (w : List Nat) :
    conv (fun u => unitFn u - x u) (hornerFn x k) w = unitFn w - powFn x (k + 1) w := by
  induction k generalizing w with
  | zero =>
    rw [conv_sub_left, hornerFn, conv_unit_left, powFn, powFn]
  | succ k ih =>
    rw [conv_sub_left, conv_unit_left]
    have h1 : conv x (hornerFn x (k + 1)) w = x w + conv (conv x x) (hornerFn x k) w := by
      rw [hornerFn, conv_add_right, conv_unit_right, conv_assoc]
    have h2 : conv x (fun u => conv (fun u => unitFn u - x u) (hornerFn x k) u) w = x w - powFn x (k + 2) w := by
      rw [show (fun u => conv (fun u => unitFn u - x u) (hornerFn x k) u) = fun u => unitFn u - powFn x (k + 1) u from funext ih,
        conv_sub_right, conv_unit_right]
      rfl
    have h3 : conv x (fun u => conv (fun u => unitFn u - x u) (hornerFn x k) u) w = conv x (hornerFn x k) w - conv (conv x x) (hornerFn x k) w := by
      rw [show (fun u => conv (fun u => unitFn u - x u) (hornerFn x k) u) = fun u => hornerFn x k u - conv x (hornerFn x k) u from
        funext fun u => by rw [conv_sub_left, conv_unit_left], conv_sub_right, conv_assoc]
    rw [h1, hornerFn]
    rw [h2] at h3
    linear_combination -h3

theorem horner_comm (x : List Nat → S) (k : Nat) (w : List Nat) : conv x (hornerFn x k) w = conv (hornerFn x k) x w := by
  induction k generalizing w with
  | zero => rw [hornerFn, conv_unit_left, conv_unit_right]
  | succ k ih =>
    rw [hornerFn, conv_add_right, conv_add_left, conv_unit_left, conv_unit_right, conv_assoc, show conv x (hornerFn x k) = conv (hornerFn x k) x from funext ih]

end
end RA
