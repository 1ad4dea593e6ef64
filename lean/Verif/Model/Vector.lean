import Verif.Model.Coeff

/-!
# Vector traits: `src/vector/traits/vector.rs`, `src/vector/traits/extension.rs`, `src/basis/mod.rs`

A trait is a record of operations.  `&mut self` methods return the new value; `impl Borrow`/`impl Into` arguments are passed
as the target type.
-/

namespace RA

/-- basis/mod.rs:14-44: the functions of `OrderedBasis` and `OrderedBasisWithDegree` used by the vector implementations. -/
structure Basis (K : Type) where
  keyToIndex : K → Res Nat
  indexToKey : Nat → Res K
  dimForKey : K → Res Nat
  dimForIndex : Nat → Res Nat
  indexToDegree : Nat → Res Nat
  startOfDegree : Nat → Res Nat

/-- vector.rs:13-155 trait `Vector`, all methods.  `getMut v k f` is `get_mut(k)` followed by `*r = f(*r)` on the returned reference; it gives whether
an entry was found and the new vector. -/
structure VecOps (V K S R : Type) where
  eq : V → V → Bool
  new : V
  fromKey : K → Res V
  fromKeyScalar : K → S → Res V
  fromIterator : List (K × S) → Res V
  swap : V → V → Res (V × V)
  toOwned : V → Res V
  clear : V → Res V
  get : V → K → Res (Option S)
  getMut : V → K → (S → S) → Res (Bool × V)
  insertSingle : V → K → S → Res V
  insert : V → List (K × S) → Res V
  erase : V → K → Res V
  uminus : V → Res V
  add : V → V → Res V
  sub : V → V → Res V
  scalarRmultiply : V → S → Res V
  scalarLmultiply : V → S → Res V
  scalarRdivide : V → R → Res V
  scalarLdivide : V → R → Res V
  uminusInplace : V → Res V
  addInplace : V → V → Res V
  subInplace : V → V → Res V
  scalarLmultiplyInplace : V → S → Res V
  scalarRmultiplyInplace : V → S → Res V
  scalarRdivideInplace : V → R → Res V
  scalarLdivideInplace : V → R → Res V
  addScalarRmultiply : V → V → S → Res V
  addScalarLmultiply : V → V → S → Res V
  subScalarRmultiply : V → V → S → Res V
  subScalarLmultiply : V → V → S → Res V
  addScalarRdivide : V → V → R → Res V
  addScalarLdivide : V → V → R → Res V
  subScalarRdivide : V → V → R → Res V
  subScalarLdivide : V → V → R → Res V

/-- The required methods of the trait `Vector`. -/
structure VecReq (V K S R : Type) where
  eq : V → V → Bool
  new : V
  fromKey : K → Res V
  fromKeyScalar : K → S → Res V
  fromIterator : List (K × S) → Res V
  swap : V → V → Res (V × V)
  toOwned : V → Res V
  clear : V → Res V
  get : V → K → Res (Option S)
  getMut : V → K → (S → S) → Res (Bool × V)
  insertSingle : V → K → S → Res V
  insert : V → List (K × S) → Res V
  erase : V → K → Res V
  uminusInplace : V → Res V
  addInplace : V → V → Res V
  subInplace : V → V → Res V
  scalarLmultiplyInplace : V → S → Res V
  scalarRdivideInplace : V → R → Res V

namespace VecReq
variable {V K S R : Type} (T : VecReq V K S R)

/-- vector.rs:43-48. -/
def uminus (v : V) : Res V := do T.uminusInplace (← T.toOwned v)
/-- vector.rs:50-55. -/
def add (v o : V) : Res V := do T.addInplace (← T.toOwned v) o
/-- vector.rs:57-62. -/
def sub (v o : V) : Res V := do T.subInplace (← T.toOwned v) o
/-- vector.rs:68-73. -/
def scalarLmultiply (v : V) (s : S) : Res V := do T.scalarLmultiplyInplace (← T.toOwned v) s
/-- vector.rs:64-67. -/
def scalarRmultiply (v : V) (s : S) : Res V := T.scalarLmultiply v s
/-- vector.rs:75-80. -/
def scalarRdivide (v : V) (r : R) : Res V := do T.scalarRdivideInplace (← T.toOwned v) r
/-- vector.rs:82-85. -/
def scalarLdivide (v : V) (r : R) : Res V := T.scalarRdivide v r
/-- vector.rs:94-97. -/
def scalarRmultiplyInplace (v : V) (s : S) : Res V := T.scalarLmultiplyInplace v s
/-- vector.rs:100-103. -/
def scalarLdivideInplace (v : V) (r : R) : Res V := T.scalarRdivideInplace v r
/-- vector.rs:108-111. -/
def addScalarRmultiply (v o : V) (s : S) : Res V := do T.addInplace v (← T.scalarRmultiply o s)
/-- vector.rs:114-117. -/
def addScalarLmultiply (v o : V) (s : S) : Res V := do T.addInplace v (← T.scalarLmultiply o s)
/-- vector.rs:120-123. -/
def subScalarRmultiply (v o : V) (s : S) : Res V := do T.subInplace v (← T.scalarRmultiply o s)
/-- vector.rs:126-129. -/
def subScalarLmultiply (v o : V) (s : S) : Res V := do T.subInplace v (← T.scalarLmultiply o s)
/-- vector.rs:132-135. -/
def addScalarRdivide (v o : V) (r : R) : Res V := do T.addInplace v (← T.scalarRdivide o r)
/-- vector.rs:138-141. -/
def addScalarLdivide (v o : V) (r : R) : Res V := do T.addInplace v (← T.scalarLdivide o r)
/-- vector.rs:144-147. -/
def subScalarRdivide (v o : V) (r : R) : Res V := do T.subInplace v (← T.scalarRdivide o r)
/-- vector.rs:150-153. -/
def subScalarLdivide (v o : V) (r : R) : Res V := do T.subInplace v (← T.scalarLdivide o r)

/-- A type implementing the required methods and keeping every provided one. -/
def full : VecOps V K S R :=
  { eq := T.eq, new := T.new, fromKey := T.fromKey, fromKeyScalar := T.fromKeyScalar, fromIterator := T.fromIterator,
    swap := T.swap, toOwned := T.toOwned, clear := T.clear, get := T.get, getMut := T.getMut, insertSingle := T.insertSingle,
    insert := T.insert, erase := T.erase, uminus := T.uminus, add := T.add, sub := T.sub,
    scalarRmultiply := T.scalarRmultiply, scalarLmultiply := T.scalarLmultiply, scalarRdivide := T.scalarRdivide,
    scalarLdivide := T.scalarLdivide, uminusInplace := T.uminusInplace, addInplace := T.addInplace, subInplace := T.subInplace,
    scalarLmultiplyInplace := T.scalarLmultiplyInplace, scalarRmultiplyInplace := T.scalarRmultiplyInplace,
    scalarRdivideInplace := T.scalarRdivideInplace, scalarLdivideInplace := T.scalarLdivideInplace,
    addScalarRmultiply := T.addScalarRmultiply, addScalarLmultiply := T.addScalarLmultiply,
    subScalarRmultiply := T.subScalarRmultiply, subScalarLmultiply := T.subScalarLmultiply,
    addScalarRdivide := T.addScalarRdivide, addScalarLdivide := T.addScalarLdivide,
    subScalarRdivide := T.subScalarRdivide, subScalarLdivide := T.subScalarLdivide }

end VecReq

/-! ## extension.rs: trait `VectorKeyExt` -/

namespace KeyExt
variable {V K S R : Type} (C : Coeff S R) (T : VecOps V K S R)

/-- extension.rs:8-20. -/
def addScalarMultiply (v : V) (k : K) (s : S) : Res V := do
  let (found, v') ← T.getMut v k (fun x => C.add x s)
  if found then return v' else T.insertSingle v' k s

/-- extension.rs:22-34. -/
def subScalarMultiply (v : V) (k : K) (s : S) : Res V := do
  let (found, v') ← T.getMut v k (fun x => C.sub x s)
  if found then return v' else T.insertSingle v' k (C.uminus s)

/-- extension.rs:36-49. -/
def addScalarDivide (v : V) (k : K) (r : R) : Res V := do
  let sca := C.div C.one r
  let (found, v') ← T.getMut v k (fun x => C.add x sca)
  if found then return v' else T.insertSingle v' k sca

/-- extension.rs:52-65.  `sca` is `MONE / val` and is *subtracted* when the key is present (line 60), inserted when it is not. -/
def subScalarDivide (v : V) (k : K) (r : R) : Res V := do
  let sca := C.div C.mone r
  let (found, v') ← T.getMut v k (fun x => C.sub x sca)
  if found then return v' else T.insertSingle v' k sca

end KeyExt
end RA
