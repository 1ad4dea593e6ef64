import Verif.Model.Vector
import Verif.Model.TensorBasis

/-!
# `src/vector/implementation/simple_dense_vector.rs`
-/

namespace RA

/-- simple_dense_vector.rs:21-27, which variant of `SimpleDenseVectorData` is in use. -/
inductive Mode where
  | owned
  | borrowed
  | borrowedMut
deriving DecidableEq, Repr

/-- simple_dense_vector.rs:35-38 `SimpleDenseVector`.  `data` is the slice the vector sees.  `lent` is a ghost: the current content of the buffer the
vector was built over (meaningless for vectors built as `Owned`); while the mode is `borrowedMut` the two are the same memory. -/
structure Dense (S : Type) where
  mode : Mode
  data : List S
  lent : List S
deriving DecidableEq, Repr

/-- `*slice.get_unchecked_mut(i) = f(...)`: undefined behaviour outside the slice. -/
def modifyUnchecked {S : Type} (l : List S) (i : Nat) (f : S → S) : Res (List S) :=
  if i < l.length then .ok (l.modify i f) else .ub

/-- `Vec::resize(n, z)`. -/
def vecResize {S : Type} (l : List S) (n : Nat) (z : S) : List S := l.take n ++ List.replicate (n - l.length) z

namespace Dense
variable {K S R : Type} (C : Coeff S R) (B : Basis K)

/-- simple_dense_vector.rs:62-65 `from`. -/
def ofVec (l : List S) : Dense S := ⟨.owned, l, []⟩

/-- simple_dense_vector.rs:57-60 `new`. -/
def new : Dense S := ofVec []

/-- A vector over a shared slice (the enum variant `Borrowed`, line 25). -/
def ofBorrowed (l : List S) : Dense S := ⟨.borrowed, l, l⟩

/-- A vector over an exclusive slice (the enum variant `BorrowedMut`, line 26). -/
def ofBorrowedMut (l : List S) : Dense S := ⟨.borrowedMut, l, l⟩

/-- simple_dense_vector.rs:67-70 `from_dimension`. -/
def fromDimension (n : Nat) : Dense S := ofVec (List.replicate n C.zero)

/-- simple_dense_vector.rs:92-99 `size`. -/
def size (d : Dense S) : Nat := d.data.length

/-- simple_dense_vector.rs:42-53 `clone`. -/
def clone (d : Dense S) : Dense S := ofVec d.data

/-- simple_dense_vector.rs:113-129 `eq`: slice equality. -/
def eq (a b : Dense S) : Bool :=
  decide (a.data.length = b.data.length) && (List.zipWith C.eq a.data b.data).all id

/-- simple_dense_vector.rs:145-147 (also 268-270, 300-302, 337-339): a `Borrowed` vector is turned into an `Owned` copy. -/
def makeMut (d : Dense S) : Dense S :=
  match d.mode with
  | .borrowed => { d with mode := .owned }
  | _ => d

/-- simple_dense_vector.rs:143-154 `as_mut_slice` (and 336-346) followed by overwriting the slice with `l`, a list of the same length.  Through
`BorrowedMut` the lent buffer is the same memory. -/
def writeSlice (d : Dense S) (l : List S) : Dense S :=
  match (makeMut d).mode with
  | .borrowedMut => { d with data := l, lent := l }
  | _ => { makeMut d with data := l }

/-- simple_dense_vector.rs:353-359 `resize` and 72-90 `to_owned_with_size`: a borrowed vector is detached into an owned copy, the lent buffer keeps its
content. -/
def resize (d : Dense S) (n : Nat) : Dense S :=
  match d.mode with
  | .owned => { d with data := vecResize d.data n C.zero }
  | .borrowedMut | .borrowed => { d with mode := .owned, data := vecResize d.data n C.zero }

/-- simple_dense_vector.rs:178-189 `from_key_scalar`. -/
def fromKeyScalar (k : K) (s : S) : Res (Dense S) := do
  let size ← B.dimForKey k
  let v := fromDimension C size
  let i ← B.keyToIndex k
  let l ← modifyUnchecked v.data i (fun _ => s)
  return v.writeSlice l

/-- simple_dense_vector.rs:174-176 `from_key`. -/
def fromKey (k : K) : Res (Dense S) := fromKeyScalar C B k C.one

/-- simple_dense_vector.rs:207-209, one turn of the accumulation loop. -/
def fromIteratorStep (v : Dense S) (e : Nat × S) : Res (Dense S) := do
  let l ← modifyUnchecked v.data e.1 (fun x => C.add x e.2)
  return v.writeSlice l

/-- simple_dense_vector.rs:191-213 `from_iterator`; `sort_by` is stable (`List.mergeSort`). -/
def fromIterator (items : List (K × S)) : Res (Dense S) := do
  let vec ← items.mapM (fun e => do
    let i ← B.keyToIndex e.1
    return (i, e.2))
  match (vec.mergeSort (fun a b => decide (a.1 ≤ b.1))).getLast? with
  | none => return new
  | some last =>
    let dim ← B.dimForIndex last.1
    (vec.mergeSort (fun a b => decide (a.1 ≤ b.1))).foldlM (fromIteratorStep C) (fromDimension C dim)

/-- simple_dense_vector.rs:215-218 `swap` (exchanges the two data fields; ghost included). -/
def swap (a b : Dense S) : Res (Dense S × Dense S) := .ok (b, a)

/-- simple_dense_vector.rs:220-222 `to_owned`. -/
def toOwned (d : Dense S) : Res (Dense S) := .ok (ofVec d.data)

/-- simple_dense_vector.rs:224-230 `clear`. -/
def clear (d : Dense S) : Res (Dense S) :=
  match d.mode with
  | .owned => .ok { d with data := [] }
  | .borrowedMut => .ok (d.writeSlice (d.data.map fun _ => C.zero))
  | .borrowed => .ok { d with mode := .owned, data := [] }

/-- simple_dense_vector.rs:232-234 `get`. -/
def get (d : Dense S) (k : K) : Res (Option S) := do
  let i ← B.keyToIndex k
  return d.data[i]?

/-- simple_dense_vector.rs:236-238 `get_mut`, followed by applying `f` to the referenced entry. -/
def getMut (d : Dense S) (k : K) (f : S → S) : Res (Bool × Dense S) := do
  let i ← B.keyToIndex k
  if i < d.data.length then return (true, d.writeSlice (d.data.modify i f))
  else return (false, makeMut d)

/-- simple_dense_vector.rs:240-245 `insert_single`: computes the index and does nothing with it. -/
def insertSingle (d : Dense S) (k : K) (_s : S) : Res (Dense S) := do
  let _ ← B.keyToIndex k
  return d

/-- simple_dense_vector.rs:247-249 `insert`: `todo!()`. -/
def insert (_d : Dense S) (_items : List (K × S)) : Res (Dense S) := .panic

/-- simple_dense_vector.rs:251-256 `erase`. -/
def erase (d : Dense S) (k : K) : Res (Dense S) := do
  let r ← getMut B d k (fun _ => C.zero)
  return r.2

/-- simple_dense_vector.rs:258-263 `uminus_inplace`. -/
def uminusInplace (d : Dense S) : Res (Dense S) := .ok (d.writeSlice (d.data.map C.uminus))

/-- `a.iter_mut().zip(b)` with an in-place operation: the entries of `a` beyond the end of `b` are untouched. -/
def zipInto (f : S → S → S) (a b : List S) : List S :=
  List.zipWith f a b ++ a.drop b.length

/-- simple_dense_vector.rs:265-281 `add_inplace`. -/
def addInplace (d o : Dense S) : Res (Dense S) :=
  let d := makeMut d
  let d := if o.size > d.size then resize C d o.size else d
  .ok (d.writeSlice (zipInto C.add d.data o.data))

/-- simple_dense_vector.rs:283-295 `sub_inplace`. -/
def subInplace (d o : Dense S) : Res (Dense S) :=
  let d := if o.size > d.size then resize C d o.size else d
  .ok (d.writeSlice (zipInto C.sub d.data o.data))

/-- simple_dense_vector.rs:297-309 `scalar_lmultiply_inplace`. -/
def scalarLmultiplyInplace (d : Dense S) (s : S) : Res (Dense S) :=
  .ok (d.writeSlice (d.data.map fun x => C.mul x s))

/-- simple_dense_vector.rs:311-319 `scalar_rdivide_inplace`. -/
def scalarRdivideInplace (d : Dense S) (r : R) : Res (Dense S) :=
  .ok (d.writeSlice (d.data.map fun x => C.div x r))

/-- simple_dense_vector.rs:367-374 `degree`. -/
def degree (d : Dense S) : Res Nat :=
  if d.size = 0 then .ok 0 else B.indexToDegree (d.size - 1)

/-- simple_dense_vector.rs:105-109 `from_degree`. -/
def fromDegree (deg : Nat) : Res (Dense S) := do
  let dim ← B.startOfDegree deg
  return fromDimension C dim

/-- simple_dense_vector.rs:161-321 `impl Vector for SimpleDenseVector`. -/
def req : VecReq (Dense S) K S R :=
  { eq := eq C, new := new, fromKey := fromKey C B, fromKeyScalar := fromKeyScalar C B, fromIterator := fromIterator C B,
    swap := swap, toOwned := toOwned, clear := clear C, get := get B, getMut := getMut B, insertSingle := insertSingle B,
    insert := insert, erase := erase C B, uminusInplace := uminusInplace C, addInplace := addInplace C,
    subInplace := subInplace C, scalarLmultiplyInplace := scalarLmultiplyInplace C,
    scalarRdivideInplace := scalarRdivideInplace C }

/-- All methods (the provided ones are not overridden). -/
def ops : VecOps (Dense S) K S R := (req C B).full

end Dense

/-- tensor_basis/mod.rs:62-147: `TensorBasis<N>` as an ordered basis with degree. -/
def tensorBasis (p : Profile) (N : Nat) : Basis TensorKey :=
  { keyToIndex := TensorBasis.keyToIndex p N
    indexToKey := TensorBasis.indexToKey p N
    dimForKey := TensorBasis.vectorDimensionForKey p N
    dimForIndex := TensorBasis.vectorDimensionForIndex p N
    indexToDegree := TensorBasis.indexToDegree p N
    startOfDegree := TensorBasis.startOfDegree p N }

/-- simple_dense_vector.rs:400-439, the `IntegerBasis` of the crate's own tests (keys are `u8`). -/
def integerBasis : Basis Nat :=
  { keyToIndex := fun k => .ok k
    indexToKey := fun i => if i > 255 then .panic else .ok i
    dimForKey := fun _ => .ok 255
    dimForIndex := fun _ => .ok 255
    indexToDegree := fun _ => .panic
    startOfDegree := fun _ => .panic }

end RA
