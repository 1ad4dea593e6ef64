import Verif.Model.Dense

/-!
# `src/vector/implementation/deref_impl.rs`: the blanket `Vector` for types that deref to a vector

The wrapper is a newtype (`DenseTensor`, free_tensor/implementation/dense.rs:16-57, is the one in the crate): `W` is isomorphic to `U` through
`Deref`/`DerefMut` and `From`, and both directions are free of effects.
-/

namespace RA

/-- deref_impl.rs:10: a wrapper with `Deref`/`DerefMut` (`unwrap`) and `From` (`wrap`), `PartialEq` (`eq`). -/
structure Wrapper (W U : Type) where
  wrap : U → W
  unwrap : W → U
  eq : W → W → Bool

namespace Deref
variable {W U K S R : Type} (I : Wrapper W U)

/-- deref_impl.rs:48-50 `get`: `self.borrow()` resolves to `<V as Borrow<V>>::borrow`, so `.get(key)` is this very function.  `fuel` bounds the
recursion depth. -/
def get : Nat → W → K → Res (Option S)
  | 0, _, _ => .diverge
  | fuel + 1, w, k => get fuel w k

/-- deref_impl.rs:52-54 `get_mut`: same. -/
def getMut : Nat → W → K → (S → S) → Res (Bool × W)
  | 0, _, _, _ => .diverge
  | fuel + 1, w, k, f => getMut fuel w k f

/-- deref_impl.rs:9-172: every method; `fuel` is the recursion depth available to `get`/`get_mut`. -/
def ops (T : VecOps U K S R) (fuel : Nat) : VecOps W K S R :=
  { eq := I.eq
    new := I.wrap T.new
    fromKey := fun k => I.wrap <$> T.fromKey k
    fromKeyScalar := fun k s => I.wrap <$> T.fromKeyScalar k s
    fromIterator := fun l => I.wrap <$> T.fromIterator l
    swap := fun a b => (fun r => (I.wrap r.1, I.wrap r.2)) <$> T.swap (I.unwrap a) (I.unwrap b)
    toOwned := fun a => I.wrap <$> T.toOwned (I.unwrap a)
    clear := fun a => I.wrap <$> T.clear (I.unwrap a)
    get := get fuel
    getMut := getMut fuel
    insertSingle := fun a k s => I.wrap <$> T.insertSingle (I.unwrap a) k s
    insert := fun a l => I.wrap <$> T.insert (I.unwrap a) l
    erase := fun a k => I.wrap <$> T.erase (I.unwrap a) k
    uminus := fun a => I.wrap <$> T.uminus (I.unwrap a)
    add := fun a b => I.wrap <$> T.add (I.unwrap a) (I.unwrap b)
    sub := fun a b => I.wrap <$> T.sub (I.unwrap a) (I.unwrap b)
    scalarRmultiply := fun a s => I.wrap <$> T.scalarRmultiply (I.unwrap a) s
    scalarLmultiply := fun a s => I.wrap <$> T.scalarLmultiply (I.unwrap a) s
    scalarRdivide := fun a r => I.wrap <$> T.scalarRdivide (I.unwrap a) r
    scalarLdivide := fun a r => I.wrap <$> T.scalarLdivide (I.unwrap a) r
    uminusInplace := fun a => I.wrap <$> T.uminusInplace (I.unwrap a)
    addInplace := fun a b => I.wrap <$> T.addInplace (I.unwrap a) (I.unwrap b)
    subInplace := fun a b => I.wrap <$> T.subInplace (I.unwrap a) (I.unwrap b)
    scalarLmultiplyInplace := fun a s => I.wrap <$> T.scalarLmultiplyInplace (I.unwrap a) s
    scalarRmultiplyInplace := fun a s => I.wrap <$> T.scalarRmultiplyInplace (I.unwrap a) s
    scalarRdivideInplace := fun a r => I.wrap <$> T.scalarRdivideInplace (I.unwrap a) r
    scalarLdivideInplace := fun a r => I.wrap <$> T.scalarLdivideInplace (I.unwrap a) r
    addScalarRmultiply := fun a b s => I.wrap <$> T.addScalarRmultiply (I.unwrap a) (I.unwrap b) s
    addScalarLmultiply := fun a b s => I.wrap <$> T.addScalarLmultiply (I.unwrap a) (I.unwrap b) s
    subScalarRmultiply := fun a b s => I.wrap <$> T.subScalarRmultiply (I.unwrap a) (I.unwrap b) s
    subScalarLmultiply := fun a b s => I.wrap <$> T.subScalarLmultiply (I.unwrap a) (I.unwrap b) s
    addScalarRdivide := fun a b r => I.wrap <$> T.addScalarRdivide (I.unwrap a) (I.unwrap b) r
    addScalarLdivide := fun a b r => I.wrap <$> T.addScalarLdivide (I.unwrap a) (I.unwrap b) r
    subScalarRdivide := fun a b r => I.wrap <$> T.subScalarRdivide (I.unwrap a) (I.unwrap b) r
    subScalarLdivide := fun a b r => I.wrap <$> T.subScalarLdivide (I.unwrap a) (I.unwrap b) r }

end Deref

/-- free_tensor/implementation/dense.rs:16-18 `DenseTensor`. -/
structure DenseTensor (S : Type) where
  inner : Dense S
deriving DecidableEq, Repr

/-- free_tensor/implementation/dense.rs:16 (derived `PartialEq`), 21-57 (`Deref`, `DerefMut`, `From`). -/
def denseTensorWrapper {S R : Type} (C : Coeff S R) : Wrapper (DenseTensor S) (Dense S) :=
  { wrap := .mk, unwrap := DenseTensor.inner, eq := fun a b => Dense.eq C a.inner b.inner }

end RA
