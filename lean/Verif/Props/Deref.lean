import Verif.Model.Deref
import Verif.Lawful
import Verif.Model.Float

/-!
# Wrapper types that deref to a vector (C42)
-/

namespace RA

section
variable {W U K S R : Type} (I : Wrapper W U) (A : VecOps W K S R) (T : VecOps U K S R)

/-- The wrapper is a newtype: unwrapping a wrapped value gives it back, and `==` compares the wrapped values. -/
structure Wrapper.Lawful (T : VecOps U K S R) : Prop where
  unwrap_wrap : ∀ u, I.unwrap (I.wrap u) = u
  eq : ∀ a b, I.eq a b = T.eq (I.unwrap a) (I.unwrap b)

/-- Every method except `get` and `get_mut` of the wrapper's vector operations `A` does what the method of the wrapped vector does: same success,
panic or undefined behaviour, and on success the wrapped result. -/
structure TransparentButAccess : Prop where
  eq : ∀ a b, A.eq a b = T.eq (I.unwrap a) (I.unwrap b)
  new : I.unwrap A.new = T.new
  fromKey : ∀ k, I.unwrap <$> A.fromKey k = T.fromKey k
  fromKeyScalar : ∀ k s, I.unwrap <$> A.fromKeyScalar k s = T.fromKeyScalar k s
  fromIterator : ∀ l, I.unwrap <$> A.fromIterator l = T.fromIterator l
  swap : ∀ a b, (fun r => (I.unwrap r.1, I.unwrap r.2)) <$> A.swap a b = T.swap (I.unwrap a) (I.unwrap b)
  toOwned : ∀ a, I.unwrap <$> A.toOwned a = T.toOwned (I.unwrap a)
  clear : ∀ a, I.unwrap <$> A.clear a = T.clear (I.unwrap a)
  uminus : ∀ a, I.unwrap <$> A.uminus a = T.uminus (I.unwrap a)
  uminusInplace : ∀ a, I.unwrap <$> A.uminusInplace a = T.uminusInplace (I.unwrap a)
  insertSingle : ∀ a (k : K) (s : S), I.unwrap <$> A.insertSingle a k s = T.insertSingle (I.unwrap a) k s
  insert : ∀ a (l : List (K × S)), I.unwrap <$> A.insert a l = T.insert (I.unwrap a) l
  erase : ∀ a (k : K), I.unwrap <$> A.erase a k = T.erase (I.unwrap a) k
  scalarRmultiply : ∀ a (s : S), I.unwrap <$> A.scalarRmultiply a s = T.scalarRmultiply (I.unwrap a) s
  scalarLmultiply : ∀ a (s : S), I.unwrap <$> A.scalarLmultiply a s = T.scalarLmultiply (I.unwrap a) s
  scalarRdivide : ∀ a (r : R), I.unwrap <$> A.scalarRdivide a r = T.scalarRdivide (I.unwrap a) r
  scalarLdivide : ∀ a (r : R), I.unwrap <$> A.scalarLdivide a r = T.scalarLdivide (I.unwrap a) r
  scalarLmultiplyInplace : ∀ a (s : S), I.unwrap <$> A.scalarLmultiplyInplace a s = T.scalarLmultiplyInplace (I.unwrap a) s
  scalarRmultiplyInplace : ∀ a (s : S), I.unwrap <$> A.scalarRmultiplyInplace a s = T.scalarRmultiplyInplace (I.unwrap a) s
  scalarRdivideInplace : ∀ a (r : R), I.unwrap <$> A.scalarRdivideInplace a r = T.scalarRdivideInplace (I.unwrap a) r
  scalarLdivideInplace : ∀ a (r : R), I.unwrap <$> A.scalarLdivideInplace a r = T.scalarLdivideInplace (I.unwrap a) r
  add : ∀ a b, I.unwrap <$> A.add a b = T.add (I.unwrap a) (I.unwrap b)
  sub : ∀ a b, I.unwrap <$> A.sub a b = T.sub (I.unwrap a) (I.unwrap b)
  addInplace : ∀ a b, I.unwrap <$> A.addInplace a b = T.addInplace (I.unwrap a) (I.unwrap b)
  subInplace : ∀ a b, I.unwrap <$> A.subInplace a b = T.subInplace (I.unwrap a) (I.unwrap b)
  addScalarRmultiply : ∀ a b (s : S), I.unwrap <$> A.addScalarRmultiply a b s = T.addScalarRmultiply (I.unwrap a) (I.unwrap b) s
  addScalarLmultiply : ∀ a b (s : S), I.unwrap <$> A.addScalarLmultiply a b s = T.addScalarLmultiply (I.unwrap a) (I.unwrap b) s
  subScalarRmultiply : ∀ a b (s : S), I.unwrap <$> A.subScalarRmultiply a b s = T.subScalarRmultiply (I.unwrap a) (I.unwrap b) s
  subScalarLmultiply : ∀ a b (s : S), I.unwrap <$> A.subScalarLmultiply a b s = T.subScalarLmultiply (I.unwrap a) (I.unwrap b) s
  addScalarRdivide : ∀ a b (r : R), I.unwrap <$> A.addScalarRdivide a b r = T.addScalarRdivide (I.unwrap a) (I.unwrap b) r
  addScalarLdivide : ∀ a b (r : R), I.unwrap <$> A.addScalarLdivide a b r = T.addScalarLdivide (I.unwrap a) (I.unwrap b) r
  subScalarRdivide : ∀ a b (r : R), I.unwrap <$> A.subScalarRdivide a b r = T.subScalarRdivide (I.unwrap a) (I.unwrap b) r
  subScalarLdivide : ∀ a b (r : R), I.unwrap <$> A.subScalarLdivide a b r = T.subScalarLdivide (I.unwrap a) (I.unwrap b) r

/-- All methods. -/
structure Transparent : Prop extends TransparentButAccess I A T where
  get : ∀ a k, A.get a k = T.get (I.unwrap a) k
  getMut : ∀ a k f, (fun r => (r.1, I.unwrap r.2)) <$> A.getMut a k f = T.getMut (I.unwrap a) k f

variable {I T} in
theorem Wrapper.Lawful.strip (h : I.Lawful T) (x : Res U) : I.unwrap <$> (I.wrap <$> x) = x := by
  cases x <;> simp [h.unwrap_wrap]

variable {I T} in
theorem Wrapper.Lawful.strip2 (h : I.Lawful T) (x : Res (U × U)) :
    (fun r => (I.unwrap r.1, I.unwrap r.2)) <$> ((fun r => (I.wrap r.1, I.wrap r.2)) <$> x) = x := by
  cases x <;> simp [h.unwrap_wrap]

/-- C42, full statement for one wrapper and wrapped vector type: with enough recursion depth the wrapper is transparent. -/
def C42_transparent_full : Prop := ∃ fuel, Transparent I (Deref.ops I T fuel) T

/-- C42, the part that holds: every method other than `get` and `get_mut`.  Missing: those two, which never return. -/
theorem C42_transparent_partial (h : I.Lawful T) (fuel : Nat) : TransparentButAccess I (Deref.ops I T fuel) T :=
  { eq := h.eq,
    new := h.unwrap_wrap _,
    fromKey := by intros; exact h.strip _,
    fromKeyScalar := by intros; exact h.strip _,
    fromIterator := by intros; exact h.strip _,
    swap := by intros; exact h.strip2 _,
    toOwned := by intros; exact h.strip _,
    clear := by intros; exact h.strip _,
    uminus := by intros; exact h.strip _,
    uminusInplace := by intros; exact h.strip _,
    insertSingle := by intros; exact h.strip _,
    insert := by intros; exact h.strip _,
    erase := by intros; exact h.strip _,
    scalarRmultiply := by intros; exact h.strip _,
    scalarLmultiply := by intros; exact h.strip _,
    scalarRdivide := by intros; exact h.strip _,
    scalarLdivide := by intros; exact h.strip _,
    scalarLmultiplyInplace := by intros; exact h.strip _,
    scalarRmultiplyInplace := by intros; exact h.strip _,
    scalarRdivideInplace := by intros; exact h.strip _,
    scalarLdivideInplace := by intros; exact h.strip _,
    add := by intros; exact h.strip _,
    sub := by intros; exact h.strip _,
    addInplace := by intros; exact h.strip _,
    subInplace := by intros; exact h.strip _,
    addScalarRmultiply := by intros; exact h.strip _,
    addScalarLmultiply := by intros; exact h.strip _,
    subScalarRmultiply := by intros; exact h.strip _,
    subScalarLmultiply := by intros; exact h.strip _,
    addScalarRdivide := by intros; exact h.strip _,
    addScalarLdivide := by intros; exact h.strip _,
    subScalarRdivide := by intros; exact h.strip _,
    subScalarLdivide := by intros; exact h.strip _ }

/-- C42: `get` and `get_mut` of a wrapper call themselves for ever, whatever the vector, the key and the recursion depth. -/
theorem C42_get_diverges (a : W) (k : K) (f : S → S) (fuel : Nat) :
    (Deref.ops I T fuel).get a k = .diverge ∧ (Deref.ops I T fuel).getMut a k f = .diverge := by
  constructor
  · show Deref.get fuel a k = _
    induction fuel with
    | zero => rfl
    | succ n ih => exact ih
  · show Deref.getMut fuel a k f = _
    induction fuel with
    | zero => rfl
    | succ n ih => exact ih

example : (Deref.ops (denseTensorWrapper intCoeff) (Dense.ops intCoeff (tensorBasis .debug 2)) 5).get ⟨.ofVec [1, 2]⟩ ⟨1, 0⟩ = .diverge :=
  (C42_get_diverges _ _ (⟨.ofVec [1, 2]⟩ : DenseTensor Int) (⟨1, 0⟩ : TensorKey) id 5).1

/-- C42 is false of every wrapper around a vector type with a `get` that returns. -/
theorem C42_transparent_refuted (u : W) (k : K) (x : Option S) (hx : T.get (I.unwrap u) k = .ok x) : ¬ C42_transparent_full I T := by
  rintro ⟨fuel, h⟩
  have := h.get u k
  rw [(C42_get_diverges I T u k id fuel).1, hx] at this
  cases this

example : ¬ C42_transparent_full (denseTensorWrapper intCoeff) (Dense.ops intCoeff (tensorBasis .debug 2)) :=
  C42_transparent_refuted _ _ (⟨.ofVec [1, 2]⟩ : DenseTensor Int) (⟨1, 0⟩ : TensorKey) (some 2) (by decide +kernel)

end

/-- `DenseTensor` is such a newtype. -/
theorem denseTensorWrapper_lawful {K S R : Type} (C : Coeff S R) (B : Basis K) : (denseTensorWrapper C).Lawful (Dense.ops C B) :=
  ⟨fun _ => rfl, fun _ _ => rfl⟩

example : TransparentButAccess (denseTensorWrapper intCoeff) (Deref.ops (denseTensorWrapper intCoeff) (Dense.ops intCoeff integerBasis) 3)
    (Dense.ops intCoeff integerBasis) := C42_transparent_partial _ _ (denseTensorWrapper_lawful intCoeff integerBasis) 3

/-- C42 is false of `DenseTensor` over every alphabet: reading the constant term of the empty tensor overflows the stack. -/
theorem C42_dense_tensor_refuted {S R : Type} (C : Coeff S R) (p : Profile) (N : Nat) :
    ¬ C42_transparent_full (denseTensorWrapper C) (Dense.ops C (tensorBasis p N)) :=
  C42_transparent_refuted _ _ ⟨Dense.new⟩ TensorKey.new none rfl

example : ¬ C42_transparent_full (denseTensorWrapper (floatCoeff .f64)) (Dense.ops (floatCoeff .f64) (tensorBasis .release 7)) :=
  C42_dense_tensor_refuted (floatCoeff .f64) .release 7

/-- C42 for `DenseTensor`: the methods that do work. -/
theorem C42_dense_tensor_partial {S R : Type} (C : Coeff S R) (p : Profile) (N : Nat) (fuel : Nat) :
    TransparentButAccess (denseTensorWrapper C) (Deref.ops (denseTensorWrapper C) (Dense.ops C (tensorBasis p N)) fuel)
      (Dense.ops C (tensorBasis p N)) :=
  C42_transparent_partial _ _ (denseTensorWrapper_lawful C _) fuel

example : (Deref.ops (denseTensorWrapper intCoeff) (Dense.ops intCoeff (tensorBasis .debug 2)) 5).addInplace
    ⟨.ofVec [1, 2]⟩ ⟨.ofVec [1, 1, 1]⟩ = .ok ⟨.ofVec [2, 3, 1]⟩ := by decide +kernel

example : (Deref.ops (denseTensorWrapper intCoeff) (Dense.ops intCoeff (tensorBasis .debug 2)) 5).addInplace
    ⟨.ofVec [1, 2]⟩ ⟨.ofVec [1, 1, 1]⟩ = .ok ⟨.ofVec [2, 3, 1]⟩ := by decide +kernel

end RA
