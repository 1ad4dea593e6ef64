import Verif.Model.Vector

/-!
# `src/vector/implementation/simple_sparse_vector.rs`

A `HashMap<K, S>` is an association list in iteration order.  The iteration order of a hash map is unspecified, so results are only compared through
`find` (or up to permutation), and statements hold for every list.  That no key is stored twice (`NoDup`) is proved as an invariant, not built in.
-/

namespace RA

/-- simple_sparse_vector.rs:16 `SimpleSparseVector`. -/
structure Sparse (K S : Type) where
  entries : List (K × S)
deriving Repr, DecidableEq

namespace Sparse
variable {K S R : Type} [DecidableEq K] (C : Coeff S R)

/-- `HashMap::get`. -/
def find (m : List (K × S)) (k : K) : Option S := (m.find? (fun e => e.1 = k)).map (·.2)

/-- Overwrite the value of a present key. -/
def modifyAt (m : List (K × S)) (k : K) (f : S → S) : List (K × S) :=
  m.map fun e => if e.1 = k then (e.1, f e.2) else e

/-- `HashMap::insert`: replaces the value of a present key, otherwise adds an entry. -/
def hmInsert (m : List (K × S)) (k : K) (v : S) : List (K × S) :=
  if (find m k).isSome then modifyAt m k (fun _ => v) else m ++ [(k, v)]

/-- `HashMap::remove`. -/
def hmRemove (m : List (K × S)) (k : K) : List (K × S) := m.filter fun e => ¬ e.1 = k

/-- simple_sparse_vector.rs:27-40 `eq`. -/
def eq (a b : Sparse K S) : Bool :=
  if a.entries.length ≠ b.entries.length then false
  else a.entries.all fun e =>
    match find b.entries e.1 with
    | some v1 => C.eq v1 e.2
    | none => false

/-- simple_sparse_vector.rs:87-89 `new`. -/
def new : Sparse K S := ⟨[]⟩

/-- simple_sparse_vector.rs:95-99 `from_key_scalar`. -/
def fromKeyScalar (k : K) (s : S) : Res (Sparse K S) := .ok ⟨hmInsert [] k s⟩

/-- simple_sparse_vector.rs:91-93 `from_key`. -/
def fromKey (k : K) : Res (Sparse K S) := fromKeyScalar k C.one

/-- simple_sparse_vector.rs:101-108 `from_iterator`: a later value for a key replaces the earlier one. -/
def fromIterator (items : List (K × S)) : Res (Sparse K S) :=
  .ok ⟨items.foldl (fun m e => hmInsert m e.1 e.2) []⟩

/-- simple_sparse_vector.rs:110-112 `swap`: `todo!()`. -/
def swap (_a _b : Sparse K S) : Res (Sparse K S × Sparse K S) := .panic

/-- simple_sparse_vector.rs:114-116 `to_owned`: `todo!()`. -/
def toOwned (_a : Sparse K S) : Res (Sparse K S) := .panic

/-- simple_sparse_vector.rs:118-120 `clear`. -/
def clear (_a : Sparse K S) : Res (Sparse K S) := .ok ⟨[]⟩

/-- simple_sparse_vector.rs:122-124 `get`. -/
def get (a : Sparse K S) (k : K) : Res (Option S) := .ok (find a.entries k)

/-- simple_sparse_vector.rs:126-128 `get_mut`, followed by applying `f` to the entry. -/
def getMut (a : Sparse K S) (k : K) (f : S → S) : Res (Bool × Sparse K S) :=
  if (find a.entries k).isSome then .ok (true, ⟨modifyAt a.entries k f⟩) else .ok (false, a)

/-- simple_sparse_vector.rs:130-132 `insert_single`. -/
def insertSingle (a : Sparse K S) (k : K) (v : S) : Res (Sparse K S) := .ok ⟨hmInsert a.entries k v⟩

/-- simple_sparse_vector.rs:134-136 `insert`: `todo!()`. -/
def insert (_a : Sparse K S) (_items : List (K × S)) : Res (Sparse K S) := .panic

/-- simple_sparse_vector.rs:138-140 `erase`: `todo!()`. -/
def erase (_a : Sparse K S) (_k : K) : Res (Sparse K S) := .panic

/-- simple_sparse_vector.rs:142-145 `uminus_inplace`. -/
def uminusInplace (a : Sparse K S) : Res (Sparse K S) := .ok ⟨a.entries.map fun e => (e.1, C.uminus e.2)⟩

/-- simple_sparse_vector.rs:149-157, one turn of the loop of `add_inplace`. -/
def addStep (m : List (K × S)) (e : K × S) : List (K × S) :=
  match find m e.1 with
  | some i =>
    if C.eq (C.add i e.2) C.zero then hmRemove (modifyAt m e.1 fun x => C.add x e.2) e.1
    else modifyAt m e.1 fun x => C.add x e.2
  | none => hmInsert m e.1 e.2

/-- simple_sparse_vector.rs:147-160 `add_inplace`. -/
def addInplace (a o : Sparse K S) : Res (Sparse K S) := .ok ⟨o.entries.foldl (addStep C) a.entries⟩

/-- simple_sparse_vector.rs:164-172, one turn of the loop of `sub_inplace`. -/
def subStep (m : List (K × S)) (e : K × S) : List (K × S) :=
  match find m e.1 with
  | some i =>
    if C.eq (C.sub i e.2) C.zero then hmRemove (modifyAt m e.1 fun x => C.sub x e.2) e.1
    else modifyAt m e.1 fun x => C.sub x e.2
  | none => hmInsert m e.1 (C.uminus e.2)

/-- simple_sparse_vector.rs:162-175 `sub_inplace`. -/
def subInplace (a o : Sparse K S) : Res (Sparse K S) := .ok ⟨o.entries.foldl (subStep C) a.entries⟩

/-- simple_sparse_vector.rs:177-189 `scalar_lmultiply_inplace`. -/
def scalarLmultiplyInplace (a : Sparse K S) (s : S) : Res (Sparse K S) :=
  if C.eq s C.zero then clear a else .ok ⟨a.entries.map fun e => (e.1, C.mul e.2 s)⟩

/-- simple_sparse_vector.rs:191-199 `scalar_rdivide_inplace`. -/
def scalarRdivideInplace (a : Sparse K S) (r : R) : Res (Sparse K S) :=
  .ok ⟨a.entries.map fun e => (e.1, C.div e.2 r)⟩

/-- simple_sparse_vector.rs:77-200 `impl Vector for SimpleSparseVector`. -/
def req : VecReq (Sparse K S) K S R :=
  { eq := eq C, new := new, fromKey := fromKey C, fromKeyScalar := fromKeyScalar, fromIterator := fromIterator,
    swap := swap, toOwned := toOwned, clear := clear, get := get, getMut := getMut, insertSingle := insertSingle,
    insert := insert, erase := erase, uminusInplace := uminusInplace C, addInplace := addInplace C,
    subInplace := subInplace C, scalarLmultiplyInplace := scalarLmultiplyInplace C,
    scalarRdivideInplace := scalarRdivideInplace C }

/-- All methods (the provided ones are not overridden). -/
def ops : VecOps (Sparse K S) K S R := (req C).full

end Sparse
end RA
