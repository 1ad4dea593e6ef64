import Verif.Proofs.ExpLog
import Verif.Proofs.WordFn
import Verif.Proofs.ConvMore
import Mathlib.RingTheory.Congruence.Basic

/-!
# Group-like and primitive tensors

Independent of the model.
-/

namespace RA
open Spec Series

theorem map_expTo {S A B : Type} [Field S] [Ring A] [Algebra S A] [Ring B] [Algebra S B] (φ : A →ₐ[S] B) (D : Nat) (x : A) :
    φ (expTo S D x) = expTo S D (φ x) := by
  unfold expTo
  rw [map_sum]
  exact Finset.sum_congr rfl fun k _ => by rw [map_smul, map_pow]

theorem map_logTo {S A B : Type} [Field S] [Ring A] [Algebra S A] [Ring B] [Algebra S B] (φ : A →ₐ[S] B) (D : Nat) (x : A) :
    φ (logTo S D x) = logTo S D (φ x) := by
  unfold logTo
  rw [map_sum]
  exact Finset.sum_congr rfl fun k _ => by rw [map_smul, map_pow]

namespace Series.Filt
variable {S A : Type} [Field S] [Ring A] [Algebra S A] (Φ : Filt S A)

/-- Equality up to the `n`-th step of the filtration. -/
def con (n : Nat) : RingCon A where
  r a b := a - b ∈ Φ.F n
  iseqv :=
    { refl := fun a => by rw [sub_self]; exact Submodule.zero_mem _
      symm := fun {a b} h => by rw [← neg_sub]; exact Submodule.neg_mem _ h
      trans := fun {a b c} h h' => by rw [← sub_add_sub_cancel a b c]; exact Submodule.add_mem _ h h' }
  mul' := fun {a b c d} h h' => by
    have := Submodule.add_mem _ (Φ.mul_mem_left h c) (Φ.mul_mem_right h' b)
    rwa [sub_mul, mul_sub, sub_add_sub_cancel] at this
  add' := fun {a b c d} h h' => by
    have := Submodule.add_mem _ h h'
    rwa [← add_sub_add_comm] at this

theorem mk_eq (n : Nat) (a b : A) : (Φ.con n).mkₐ S a = (Φ.con n).mkₐ S b ↔ a - b ∈ Φ.F n := RingCon.eq _

/-- The filtration of the quotient. -/
def quot (n : Nat) : Filt S (Φ.con n).Quotient where
  F m := (Φ.F m).map ((Φ.con n).mkₐ S).toLinearMap
  anti := fun m k h => Submodule.map_mono (Φ.anti m k h)
  mul := by
    rintro m k _ _ ⟨a, ha, rfl⟩ ⟨b, hb, rfl⟩
    exact ⟨a * b, Φ.mul m k a b ha hb, map_mul ((Φ.con n).mkₐ S) a b⟩
  top := by
    rw [Φ.top, Submodule.map_top, LinearMap.range_eq_top]
    exact RingCon.mkₐ_surjective (α := S) (Φ.con n)

/-- Tensors that commute up to degree `D` have exponentials that multiply up to degree `D`. -/
theorem exp_add_mod [CharZero S] {x y : A} (hx : x ∈ Φ.F 1) (hy : y ∈ Φ.F 1) (D : Nat) (hc : x * y - y * x ∈ Φ.F (D + 1)) :
    expTo S D x * expTo S D y - expTo S D (x + y) ∈ Φ.F (D + 1) := by
  have hc' : Commute ((Φ.con (D + 1)).mkₐ S x) ((Φ.con (D + 1)).mkₐ S y) := by
    show _ * _ = _ * _
    rw [← map_mul, ← map_mul]
    exact (Φ.mk_eq _ _ _).2 hc
  have := (Φ.quot (D + 1)).exp_add (x := (Φ.con (D + 1)).mkₐ S x) (y := (Φ.con (D + 1)).mkₐ S y) ⟨x, hx, rfl⟩ ⟨y, hy, rfl⟩ hc' D
  rw [← map_add, ← map_expTo, ← map_expTo, ← map_expTo, ← map_mul, ← map_sub] at this
  obtain ⟨z, hz, e⟩ := this
  have h := (Φ.mk_eq (D + 1) z _).1 e
  have := Submodule.sub_mem _ hz h
  rwa [sub_sub_cancel] at this

end Series.Filt

/-! ## The algebra of formal tensors, filtered by degree -/

namespace WordFn
variable {S : Type} [CommRing S]

instance : Algebra S (WordFn S) := Algebra.ofModule (fun c f g => smul_mul c f g) (fun c f g => mul_smul' c f g)

/-- Zero on all words of length below `n`. -/
def order (n : Nat) : Submodule S (WordFn S) where
  carrier := {f | ∀ w : List Nat, w.length < n → f w = 0}
  add_mem' := fun {f g} hf hg w hw => by rw [add_apply, hf w hw, hg w hw, add_zero]
  zero_mem' := fun _ _ => rfl
  smul_mem' := fun c f hf w hw => by rw [smul_apply, hf w hw, mul_zero]

theorem mem_order (n : Nat) (f : WordFn S) : f ∈ order n ↔ ∀ w : List Nat, w.length < n → f w = 0 := Iff.rfl

theorem eqTo_iff (D : Nat) (f g : WordFn S) : EqTo D f g ↔ f - g ∈ order (D + 1) := by
  rw [mem_order]
  exact ⟨fun h w hw => by rw [sub_apply, h w (by omega), sub_self], fun h w hw => sub_eq_zero.1 (h w (by omega))⟩

theorem mem_order_one (f : WordFn S) : f ∈ order 1 ↔ f [] = 0 := by
  rw [mem_order]
  exact ⟨fun h => h [] (by simp), fun h w hw => by rw [List.length_eq_zero_iff.1 (by omega : w.length = 0), h]⟩

theorem mul_order {n m : Nat} {f g : WordFn S} (hf : f ∈ order n) (hg : g ∈ order m) : f * g ∈ order (n + m) := by
  intro w hw
  rw [mul_apply_sum]
  apply List.sum_eq_zero
  intro x hx
  rw [List.mem_map] at hx
  obtain ⟨k, hk, rfl⟩ := hx
  rw [List.mem_range] at hk
  by_cases h : k < n
  · rw [hf _ (by rw [List.length_take]; omega), zero_mul]
  · rw [hg _ (by rw [List.length_drop]; omega), mul_zero]

end WordFn

/-- Formal tensors filtered by degree. -/
def wordFilt (S : Type) [Field S] : Filt S (WordFn S) where
  F := WordFn.order
  anti := fun _ _ h _ hf w hw => hf w (by omega)
  mul := fun _ _ _ _ hf hg => WordFn.mul_order hf hg
  top := by
    ext f
    rw [WordFn.mem_order]
    simp

/-! ## Functions of two words -/

/-- Functions of two words, the tensor square of the formal tensors. -/
def PairFn (S : Type) := List Nat → WordFn S

namespace PairFn
variable {S : Type} [CommRing S]

instance : AddCommGroup (PairFn S) := inferInstanceAs (AddCommGroup (List Nat → WordFn S))
instance : Module S (PairFn S) := inferInstanceAs (Module S (List Nat → WordFn S))

/-- Product of functions of words with values in a ring that need not commute. -/
def convR {R : Type} [Ring R] (f g : List Nat → R) : List Nat → R
  | [] => f [] * g []
  | l :: w => f [] * g (l :: w) + convR (fun u => f (l :: u)) g w

theorem convR_cons {R : Type} [Ring R] (f g : List Nat → R) (l : Nat) (w : List Nat) : convR f g (l :: w) = f [] * g (l :: w) + convR (fun u => f (l :: u)) g w := rfl

theorem convR_add_left {R : Type} [Ring R] (f f' g : List Nat → R) (w : List Nat) : convR (fun u => f u + f' u) g w = convR f g w + convR f' g w := by
  induction w generalizing f f' with
  | nil => simp only [convR, add_mul]
  | cons l w ih => rw [convR, convR, convR, ih, add_mul]; abel

theorem convR_add_right {R : Type} [Ring R] (f g g' : List Nat → R) (w : List Nat) : convR f (fun u => g u + g' u) w = convR f g w + convR f g' w := by
  induction w generalizing f with
  | nil => simp only [convR, mul_add]
  | cons l w ih => rw [convR, convR, convR, ih, mul_add]; abel

theorem convR_mul_left {R : Type} [Ring R] (c : R) (f g : List Nat → R) (w : List Nat) : convR (fun u => c * f u) g w = c * convR f g w := by
  induction w generalizing f with
  | nil => simp only [convR, mul_assoc]
  | cons l w ih => rw [convR, convR, ih, mul_add, mul_assoc]

theorem convR_zero_left {R : Type} [Ring R] (g : List Nat → R) (w : List Nat) : convR (fun _ => 0) g w = 0 := by
  have := convR_mul_left 0 (fun _ => (0 : R)) g w
  simpa using this

theorem convR_zero_right {R : Type} [Ring R] (f : List Nat → R) (w : List Nat) : convR f (fun _ => 0) w = 0 := by
  induction w generalizing f with
  | nil => simp [convR]
  | cons l w ih => rw [convR, ih, mul_zero, add_zero]

theorem convR_assoc {R : Type} [Ring R] (f g h : List Nat → R) (w : List Nat) : convR (convR f g) h w = convR f (convR g h) w := by
  induction w generalizing f g with
  | nil => simp only [convR, mul_assoc]
  | cons l w ih =>
    rw [convR, convR]
    have e : (fun u => convR f g (l :: u)) = fun u => f [] * g (l :: u) + convR (fun u => f (l :: u)) g u := rfl
    rw [e, convR_add_left, convR_mul_left, ih, convR]
    simp only [convR, mul_add, mul_assoc, add_assoc]

/-- The unit at the empty word. -/
def unitR {R : Type} [Ring R] (w : List Nat) : R := if w = [] then 1 else 0

theorem convR_unit_left {R : Type} [Ring R] (g : List Nat → R) (w : List Nat) : convR unitR g w = g w := by
  cases w with
  | nil => simp [convR, unitR]
  | cons l w =>
    have : (fun u : List Nat => (unitR (l :: u) : R)) = fun _ => 0 := by funext u; simp [unitR]
    rw [convR, this, convR_zero_left]
    simp [unitR]

theorem convR_unit_right {R : Type} [Ring R] (f : List Nat → R) (w : List Nat) : convR f unitR w = f w := by
  induction w generalizing f with
  | nil => simp [convR, unitR]
  | cons l w ih =>
    rw [convR, ih]
    simp [unitR]

instance : Ring (PairFn S) :=
  { (inferInstance : AddCommGroup (PairFn S)) with
    mul := fun f g => convR f g
    one := unitR
    mul_assoc := fun f g h => funext fun w => convR_assoc f g h w
    one_mul := fun f => funext fun w => convR_unit_left f w
    mul_one := fun f => funext fun w => convR_unit_right f w
    left_distrib := fun f g h => funext fun w => convR_add_right f g h w
    right_distrib := fun f g h => funext fun w => convR_add_left f g h w
    zero_mul := fun f => funext fun w => convR_zero_left f w
    mul_zero := fun f => funext fun w => convR_zero_right f w }

theorem mul_apply (F G : PairFn S) (u : List Nat) : (F * G) u = convR F G u := rfl
theorem one_apply (u : List Nat) : (1 : PairFn S) u = if u = [] then 1 else 0 := rfl
theorem zero_apply (u v : List Nat) : (0 : PairFn S) u v = 0 := rfl
theorem add_apply (F G : PairFn S) (u v : List Nat) : (F + G) u v = F u v + G u v := rfl
theorem sub_apply (F G : PairFn S) (u v : List Nat) : (F - G) u v = F u v - G u v := rfl
theorem smul_apply (c : S) (F : PairFn S) (u v : List Nat) : (c • F) u v = c * F u v := rfl

theorem smul_mul (c : S) (F G : PairFn S) : (c • F) * G = c • (F * G) := by
  funext u
  show convR (c • F) G u = c • convR F G u
  induction u generalizing F with
  | nil => exact WordFn.smul_mul c (F []) (G [])
  | cons l u ih =>
    show c • F [] * G (l :: u) + convR (c • fun u => F (l :: u) : PairFn S) G u = c • (F [] * G (l :: u) + convR (fun u => F (l :: u)) G u)
    rw [smul_add, WordFn.smul_mul]
    exact congrArg _ (ih fun u => F (l :: u))

theorem mul_smul' (c : S) (F G : PairFn S) : F * (c • G) = c • (F * G) := by
  funext u
  show convR F (c • G) u = c • convR F G u
  induction u generalizing F with
  | nil => exact WordFn.mul_smul' c (F []) (G [])
  | cons l u ih =>
    show F [] * c • G (l :: u) + convR (fun u => F (l :: u)) (c • G) u = c • (F [] * G (l :: u) + convR (fun u => F (l :: u)) G u)
    rw [smul_add, ih fun u => F (l :: u), WordFn.mul_smul']

instance : Algebra S (PairFn S) := Algebra.ofModule (fun c f g => smul_mul c f g) (fun c f g => mul_smul' c f g)

theorem mul_eq_conv2 (F G : PairFn S) (u v : List Nat) : (F * G) u v = conv2 F G u v := by
  rw [mul_apply]
  induction u generalizing F with
  | nil => rfl
  | cons a u ih =>
    exact congrArg₂ (· + ·) rfl (ih fun u => F (a :: u))

/-- Zero on all pairs of words of total length below `n`. -/
def order (n : Nat) : Submodule S (PairFn S) where
  carrier := {F | ∀ u v : List Nat, u.length + v.length < n → F u v = 0}
  add_mem' := fun {f g} hf hg u v hw => by rw [add_apply, hf u v hw, hg u v hw, add_zero]
  zero_mem' := fun _ _ _ => rfl
  smul_mem' := fun c f hf u v hw => by rw [smul_apply, hf u v hw, mul_zero]

theorem mem_order (n : Nat) (F : PairFn S) : F ∈ order n ↔ ∀ u v : List Nat, u.length + v.length < n → F u v = 0 := Iff.rfl

theorem convR_zero {n m a : Nat} (F G : PairFn S) (u v : List Nat) (hF : ∀ x y : List Nat, a + x.length + y.length < n → F x y = 0)
    (hG : ∀ x y : List Nat, x.length + y.length < m → G x y = 0) (h : a + u.length + v.length < n + m) : convR F G u v = 0 := by
  have one : ∀ (f g : WordFn S) (i j : Nat), (∀ y : List Nat, i + y.length < n → f y = 0) → (∀ y : List Nat, j + y.length < m → g y = 0) →
      i + j + v.length < n + m → (f * g) v = 0 := by
    intro f g i j hf hg hij
    rw [WordFn.mul_apply_sum]
    apply List.sum_eq_zero
    intro x hx
    rw [List.mem_map] at hx
    obtain ⟨k, hk, rfl⟩ := hx
    rw [List.mem_range] at hk
    by_cases h : i + k < n
    · rw [hf _ (by rw [List.length_take]; omega), zero_mul]
    · rw [hg _ (by rw [List.length_drop]; omega), mul_zero]
  induction u generalizing F a with
  | nil => exact one _ _ a 0 (fun y hy => hF [] y (by simpa using hy)) (fun y hy => hG [] y (by simpa using hy)) (by simpa using h)
  | cons l u ih =>
    show (F [] * G (l :: u)) v + convR (fun x => F (l :: x)) G u v = 0
    rw [one _ _ a (l :: u).length (fun y hy => hF [] y (by simpa using hy)) (fun y hy => hG _ y hy) h,
      ih (a := a + 1) (fun x => F (l :: x)) (fun x y hx => hF _ y (by rw [List.length_cons]; omega)) (by rw [List.length_cons] at h; omega), add_zero]

end PairFn

/-- Functions of two words filtered by total degree. -/
def pairFilt (S : Type) [Field S] : Filt S (PairFn S) where
  F := PairFn.order
  anti := fun _ _ h _ hf u v hw => hf u v (by omega)
  mul := fun _ _ _ _ hf hg u v h => PairFn.convR_zero (a := 0) _ _ u v (fun x y hx => hf x y (by rwa [Nat.zero_add] at hx)) hg (by rwa [Nat.zero_add])
  top := by
    ext f
    rw [PairFn.mem_order]
    simp

/-! ## The three maps from formal tensors to functions of two words -/

namespace PairFn
variable {S : Type} [CommRing S]

/-- `f ⊗ 1`. -/
def left : WordFn S →ₐ[S] PairFn S :=
  AlgHom.ofLinearMap
    { toFun := fun f u => f u • 1
      map_add' := fun f g => funext fun u => add_smul (f u) (g u) (1 : WordFn S)
      map_smul' := fun c f => funext fun u => mul_smul c (f u) (1 : WordFn S) }
    (by
      funext u
      show (1 : WordFn S) u • (1 : WordFn S) = (1 : PairFn S) u
      rw [WordFn.one_apply, one_apply]
      split_ifs <;> simp)
    (by
      intro f g
      funext u
      show (f * g) u • (1 : WordFn S) = convR (fun u => f u • (1 : WordFn S)) (fun u => g u • (1 : WordFn S)) u
      rw [WordFn.mul_apply]
      have key : ∀ (u : List Nat) (f g : List Nat → S), conv f g u • (1 : WordFn S) = convR (fun u => f u • (1 : WordFn S)) (fun u => g u • (1 : WordFn S)) u := by
        intro u
        induction u with
        | nil =>
          intro f g
          rw [conv, convR, smul_mul_smul_comm, mul_one]
        | cons l u ih =>
          intro f g
          rw [conv, convR, add_smul, ih (fun u => f (l :: u)) g, smul_mul_smul_comm, mul_one]
      exact key u f g)

/-- `1 ⊗ f`. -/
def right : WordFn S →ₐ[S] PairFn S :=
  AlgHom.ofLinearMap
    { toFun := fun f u => if u = [] then f else 0
      map_add' := fun f g => funext fun u => by
        show (if u = [] then f + g else 0) = (if u = [] then f else 0) + (if u = [] then g else 0)
        split_ifs <;> simp
      map_smul' := fun c f => funext fun u => by
        show (if u = [] then c • f else 0) = c • (if u = [] then f else 0)
        split_ifs <;> simp }
    rfl
    (by
      intro f g
      funext u
      show (if u = [] then f * g else 0) = convR (fun u => if u = [] then f else 0) (fun u => if u = [] then g else 0) u
      cases u with
      | nil => simp [convR]
      | cons l u =>
        rw [convR_cons]
        simp only [List.cons_ne_nil, if_false, if_true, mul_zero, zero_add]
        rw [convR_zero_left])

/-- Sums over shuffles. -/
def delta : WordFn S →ₐ[S] PairFn S :=
  AlgHom.ofLinearMap
    { toFun := fun f => sh f
      map_add' := fun f g => funext fun u => funext fun v => sh_add f g u v
      map_smul' := fun c f => funext fun u => funext fun v => sh_mul c f u v }
    (by
      funext u
      show sh (fun w => if w = [] then (1 : S) else 0) u = (if u = [] then 1 else 0 : WordFn S)
      funext v
      cases u with
      | nil => exact sh_nil_left _ v
      | cons a u =>
        rw [if_neg (by simp)]
        show sh (fun w => if w = [] then (1 : S) else 0) (a :: u) v = (0 : S)
        unfold sh
        apply List.sum_eq_zero
        intro y hy
        rw [List.mem_map] at hy
        obtain ⟨w, hw, rfl⟩ := hy
        have hl := shuffles_length _ _ w hw
        rw [if_neg]
        rintro rfl
        simp only [List.length_nil, List.length_cons] at hl
        omega)
    (by
      intro f g
      funext u
      funext v
      exact (sh_conv f g u v).trans (mul_eq_conv2 (fun u => sh f u) (fun u => sh g u) u v).symm)

theorem left_apply (f : WordFn S) (u v : List Nat) : left f u v = if v = [] then f u else 0 := by
  show f u * (1 : WordFn S) v = _
  rw [WordFn.one_apply]
  split_ifs <;> simp

theorem right_apply (f : WordFn S) (u v : List Nat) : right f u v = if u = [] then f v else 0 := by
  show (if u = [] then f else 0) v = _
  split_ifs <;> rfl

theorem delta_apply (f : WordFn S) (u v : List Nat) : delta f u v = sh f u v := rfl
theorem delta_nil_left (f : WordFn S) (v : List Nat) : delta f [] v = f v := sh_nil_left f v
theorem delta_nil_right (f : WordFn S) (u : List Nat) : delta f u [] = f u := sh_nil_right f u

theorem left_mul_right (f g : WordFn S) (u : List Nat) : (left f * right g) u = f u • g := by
  show convR (fun u => f u • (1 : WordFn S)) (fun u => if u = [] then g else 0) u = _
  have key : ∀ (u : List Nat) (f : List Nat → S), convR (fun u => f u • (1 : WordFn S)) (fun u => if u = [] then g else 0) u = f u • g := by
    intro u
    induction u with
    | nil => intro f; simp [convR]
    | cons l u ih =>
      intro f
      rw [convR, if_neg (by simp), mul_zero, zero_add, ih fun u => f (l :: u)]
  exact key u f

theorem right_mul_left (f g : WordFn S) (u : List Nat) : (right g * left f) u = f u • g := by
  show convR (fun u => if u = [] then g else 0) (fun u => f u • (1 : WordFn S)) u = _
  cases u with
  | nil => simp [convR]
  | cons l u =>
    rw [convR, if_pos rfl]
    simp only [List.cons_ne_nil, if_false]
    rw [convR_zero_left, add_zero, mul_smul_comm, mul_one]

theorem commute (f g : WordFn S) : Commute (left f) (right g) := by
  show left f * right g = right g * left f
  funext u
  rw [left_mul_right, right_mul_left]

theorem tensor_apply (f g : WordFn S) (u v : List Nat) : (left f * right g) u v = f u * g v := by
  rw [left_mul_right]
  rfl

theorem left_order {n : Nat} {f : WordFn S} (h : f ∈ WordFn.order n) : left f ∈ order n := by
  intro u v hl
  rw [left_apply]
  split_ifs with hv
  · exact h u (by omega)
  · rfl

theorem right_order {n : Nat} {f : WordFn S} (h : f ∈ WordFn.order n) : right f ∈ order n := by
  intro u v hl
  rw [right_apply]
  split_ifs with hv
  · exact h v (by omega)
  · rfl

theorem delta_order {n : Nat} {f : WordFn S} (h : f ∈ WordFn.order n) : delta f ∈ order n := by
  intro u v hl
  apply List.sum_eq_zero
  intro y hy
  obtain ⟨w, hw, rfl⟩ := List.mem_map.1 hy
  exact h w (by rw [shuffles_length _ _ w hw]; exact hl)

end PairFn

/-! ## Group-like and primitive -/

section
variable {S : Type} [CommRing S]

/-- Up to total length `D`, the product of two coefficients is the sum of the coefficients over the shuffles of their words. -/
def GroupLike (D : Nat) (g : WordFn S) : Prop := g [] = 1 ∧ ∀ u v : List Nat, u.length + v.length ≤ D → sh g u v = g u * g v

/-- Up to total length `D`, the coefficients vanish on the empty word and on shuffles of non-empty words. -/
def PrimitiveTo (D : Nat) (f : WordFn S) : Prop := f [] = 0 ∧ ∀ u v : List Nat, u ≠ [] → v ≠ [] → u.length + v.length ≤ D → sh f u v = 0

theorem groupLike_iff (D : Nat) (g : WordFn S) : GroupLike D g ↔ g [] = 1 ∧ PairFn.delta g - PairFn.left g * PairFn.right g ∈ PairFn.order (D + 1) := by
  refine and_congr_right fun _ => ?_
  rw [PairFn.mem_order]
  constructor
  · intro h u v hl
    rw [PairFn.sub_apply, PairFn.tensor_apply, PairFn.delta_apply, h u v (by omega), sub_self]
  · intro h u v hl
    have := h u v (by omega)
    rw [PairFn.sub_apply, PairFn.tensor_apply, PairFn.delta_apply] at this
    exact sub_eq_zero.1 this

theorem primitiveTo_iff (D : Nat) (f : WordFn S) : PrimitiveTo D f ↔ f [] = 0 ∧ PairFn.delta f - (PairFn.left f + PairFn.right f) ∈ PairFn.order (D + 1) := by
  refine and_congr_right fun h0 => ?_
  rw [PairFn.mem_order]
  constructor
  · intro h u v hl
    rw [PairFn.sub_apply, PairFn.add_apply, PairFn.left_apply, PairFn.right_apply]
    by_cases hu : u = []
    · subst hu
      rw [PairFn.delta_nil_left, if_pos rfl]
      split_ifs with hv
      · subst hv; rw [h0]; ring
      · ring
    · by_cases hv : v = []
      · subst hv
        rw [PairFn.delta_nil_right, if_pos rfl, if_neg hu]
        ring
      · rw [if_neg hu, if_neg hv, PairFn.delta_apply, h u v hu hv (by omega)]
        ring
  · intro h u v hu hv hl
    have := h u v (by omega)
    rw [PairFn.sub_apply, PairFn.add_apply, PairFn.left_apply, PairFn.right_apply, PairFn.delta_apply, if_neg hu, if_neg hv] at this
    simpa using this

end

section
variable {S : Type} [Field S] [CharZero S]

omit [CharZero S] in
theorem expTo_nil (D : Nat) (x : WordFn S) (h : x [] = 0) : expTo S D x [] = 1 := by
  have := (wordFilt S).expTo_sub_one_mem ((WordFn.mem_order_one x).2 h) D
  have := (WordFn.mem_order_one _).1 this
  rw [WordFn.sub_apply, WordFn.one_apply, if_pos rfl] at this
  exact sub_eq_zero.1 this

omit [CharZero S] in
theorem logTo_nil (D : Nat) (x : WordFn S) (h : x [] = 0) : logTo S D x [] = 0 :=
  (WordFn.mem_order_one _).1 ((wordFilt S).logTo_mem ((WordFn.mem_order_one x).2 h) D)

/-- Exponentials of primitive tensors are group-like. -/
theorem groupLike_exp (D : Nat) (x : WordFn S) (h : PrimitiveTo D x) : GroupLike D (expTo S D x) := by
  rw [primitiveTo_iff] at h
  obtain ⟨h0, h⟩ := h
  rw [groupLike_iff]
  refine ⟨expTo_nil D x h0, ?_⟩
  have hx := (WordFn.mem_order_one x).2 h0
  have h1 := (pairFilt S).expTo_congr h D
  have h2 := (pairFilt S).exp_add (PairFn.left_order hx) (PairFn.right_order hx) (PairFn.commute x x) D
  rw [map_expTo, map_expTo, map_expTo]
  have := Submodule.sub_mem _ h1 h2
  rwa [show ∀ a b c : PairFn S, a - b - (c - b) = a - c from fun a b c => by abel] at this

/-- Logarithms of group-like tensors are primitive. -/
theorem primitive_log (D : Nat) (g : WordFn S) (h : GroupLike D g) : PrimitiveTo D (logTo S D (g - 1)) := by
  rw [groupLike_iff] at h
  obtain ⟨h0, h⟩ := h
  have hy : (g - 1) [] = 0 := by rw [WordFn.sub_apply, WordFn.one_apply, if_pos rfl, h0, sub_self]
  have hy1 := (WordFn.mem_order_one _).2 hy
  set l := logTo S D (g - 1) with hl
  have hl0 : l [] = 0 := logTo_nil D _ hy
  have hl1 := (WordFn.mem_order_one l).2 hl0
  rw [primitiveTo_iff]
  refine ⟨hl0, ?_⟩
  have hg : expTo S D l - g ∈ (wordFilt S).F (D + 1) := by
    have := (wordFilt S).exp_log hy1 D
    rwa [add_sub_cancel] at this
  have m1 : PairFn.left l ∈ (pairFilt S).F 1 := PairFn.left_order hl1
  have m2 : PairFn.right l ∈ (pairFilt S).F 1 := PairFn.right_order hl1
  -- both sides have the same exponential
  have e1 : expTo S D (PairFn.left l + PairFn.right l) - PairFn.delta g ∈ (pairFilt S).F (D + 1) := by
    have a1 := (pairFilt S).exp_add m1 m2 (PairFn.commute l l) D
    rw [← map_expTo, ← map_expTo] at a1
    have a2 : PairFn.left (expTo S D l) * PairFn.right (expTo S D l) - PairFn.left g * PairFn.right g ∈ (pairFilt S).F (D + 1) := by
      have b1 : PairFn.left (expTo S D l - g) ∈ (pairFilt S).F (D + 1) := PairFn.left_order hg
      have b2 : PairFn.right (expTo S D l - g) ∈ (pairFilt S).F (D + 1) := PairFn.right_order hg
      have := Submodule.add_mem _ ((pairFilt S).mul_mem_left b1 (PairFn.right (expTo S D l))) ((pairFilt S).mul_mem_right b2 (PairFn.left g))
      rwa [map_sub, map_sub, sub_mul, mul_sub, sub_add_sub_cancel] at this
    have := Submodule.sub_mem _ (Submodule.sub_mem _ a2 a1) h
    rwa [show ∀ a b c d : PairFn S, a - b - (a - c) - (d - b) = c - d from fun a b c d => by abel] at this
  have c1 := (pairFilt S).log_exp (Submodule.add_mem _ m1 m2) D
  have e3 : expTo S D (PairFn.left l + PairFn.right l) - 1 - (PairFn.delta g - 1) ∈ (pairFilt S).F (D + 1) := by
    rwa [sub_sub_sub_cancel_right]
  have e4 := (pairFilt S).logTo_congr e3 D
  have e5 : logTo S D (PairFn.delta g - 1) = PairFn.delta l := by
    rw [hl, map_logTo, map_sub, map_one]
  rw [e5] at e4
  have := Submodule.sub_mem _ c1 e4
  rw [show ∀ a b c : PairFn S, a - b - (a - c) = c - b from fun a b c => by abel] at this
  exact this

end

section
variable {S : Type} [CommRing S]

theorem groupLike_one (D : Nat) : GroupLike D (1 : WordFn S) := by
  rw [groupLike_iff]
  refine ⟨rfl, ?_⟩
  rw [map_one, map_one, map_one, mul_one, sub_self]
  exact Submodule.zero_mem _

end

section
variable {S : Type} [Field S]

/-- Products of group-like tensors are group-like. -/
theorem groupLike_mul (D : Nat) (g h : WordFn S) (hg : GroupLike D g) (hh : GroupLike D h) : GroupLike D (g * h) := by
  rw [groupLike_iff] at hg hh ⊢
  refine ⟨by rw [WordFn.mul_nil, hg.1, hh.1, mul_one], ?_⟩
  rw [map_mul, map_mul, map_mul]
  have e : PairFn.left g * PairFn.left h * (PairFn.right g * PairFn.right h) = (PairFn.left g * PairFn.right g) * (PairFn.left h * PairFn.right h) := by
    rw [mul_assoc, ← mul_assoc (PairFn.left h), (PairFn.commute h g).eq]
    noncomm_ring
  rw [e]
  have := Submodule.add_mem _ ((pairFilt S).mul_mem_left hg.2 (PairFn.delta h)) ((pairFilt S).mul_mem_right hh.2 (PairFn.left g * PairFn.right g))
  rwa [sub_mul, mul_sub, sub_add_sub_cancel] at this

end

/-! ## The antipode -/

section
variable {S : Type} [CommRing S]

/-- Signed reversal of words. -/
def antipode (g : List Nat → S) : List Nat → S := fun w => (-1) ^ w.length * g w.reverse

/-- `∑ (-1)^|u| sh g (u.reverse ++ x) v` over the splittings `u ++ v` of a word. -/
def altShuffle (g : List Nat → S) : List Nat → List Nat → S
  | x, [] => sh g x []
  | x, b :: y => sh g x (b :: y) - altShuffle g (b :: x) y

theorem altShuffle_cons (g : List Nat → S) (a : Nat) (x y : List Nat) : altShuffle g (a :: x) y = sh (fun w => g (a :: w)) x y := by
  induction y generalizing g a x with
  | nil => rw [altShuffle, sh_nil_right, sh_nil_right]
  | cons b y ih => rw [altShuffle, ih, sh_cons]; ring

theorem altShuffle_nil (g : List Nat → S) (y : List Nat) : altShuffle g [] y = if y = [] then g [] else 0 := by
  cases y with
  | nil => rw [altShuffle, sh_nil_right, if_pos rfl]
  | cons b y => rw [altShuffle, altShuffle_cons, sh_nil_left, sh_nil_left, if_neg (by simp), sub_self]

theorem conv_antipode (D : Nat) (g : List Nat → S) (hg : GroupLike D g) (x y : List Nat) (h : x.length + y.length ≤ D) :
    conv (fun u => (-1) ^ u.length * g (u.reverse ++ x)) g y = altShuffle g x y := by
  induction y generalizing x with
  | nil => rw [conv, altShuffle, sh_nil_right, hg.1]; simp
  | cons b y ih =>
    rw [conv, altShuffle, hg.2 x (b :: y) h, ← ih (b :: x) (by simp only [List.length_cons] at h ⊢; omega)]
    have e : (fun u : List Nat => (-1 : S) ^ (b :: u).length * g ((b :: u).reverse ++ x)) = fun u => (-1) * ((-1) ^ u.length * g (u.reverse ++ b :: x)) := by
      funext u
      rw [List.length_cons, pow_succ, List.reverse_cons, List.append_assoc]
      simp
    rw [e, conv_smul_left]
    simp
    ring

/-- The inverse of a group-like tensor is its signed reversal. -/
theorem antipode_left (D : Nat) (g : List Nat → S) (hg : GroupLike D g) (w : List Nat) (h : w.length ≤ D) :
    conv (antipode g) g w = if w = [] then 1 else 0 := by
  have := conv_antipode D g hg [] w (by simpa using h)
  simp only [List.append_nil] at this
  rw [altShuffle_nil, hg.1] at this
  exact this

end
end RA
