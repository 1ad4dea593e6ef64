import Verif.Model.Fallible

/-!
# Coefficients whose arithmetic panics: the methods built from others

The provided methods of `Vector`, the methods of `VectorKeyExt`, and `from_iterator` of the dense vectors, with coefficients that may panic
(`Model/Fallible.lean`).
-/

namespace RA
namespace Fallible
variable {K S R V A : Type} (F : FCoeff S R)

/-- A local value worked on in place and then returned.  If the work panics, the value is dropped. -/
def temp (q : Res Unit × V) : Res V :=
  match q.1 with
  | .ok () => .ok q.2
  | .panic => .panic
  | .ub => .ub
  | .diverge => .diverge

/-- `self.m(tmp)` with an argument that is computed before the call: `self` is touched only if the computation returns. -/
def withArg (r : Res A) (f : A → Unw V Unit) : Unw V Unit := fun v =>
  match r with
  | .ok a => f a v
  | .panic => (.panic, v)
  | .ub => (.ub, v)
  | .diverge => (.diverge, v)

/-! ## `src/vector/traits/vector.rs` for dense vectors

The sparse vectors have no `to_owned` (simple_sparse_vector.rs:114-116 is `todo!()`), so that these methods panic before they do anything. -/

/-- vector.rs:43-48. -/
def dUminusNew (d : Dense S) : Res (Dense S) := temp (dUminus F (.ofVec d.data))
/-- vector.rs:50-55. -/
def dAddNew (d o : Dense S) : Res (Dense S) := temp (dAdd F (.ofVec d.data) o)
/-- vector.rs:57-62. -/
def dSubNew (d o : Dense S) : Res (Dense S) := temp (dSub F (.ofVec d.data) o)
/-- vector.rs:68-73 (64-67 is the same). -/
def dMulNew (d : Dense S) (s : S) : Res (Dense S) := temp (dMul F (.ofVec d.data) s)
/-- vector.rs:75-80 (82-85 is the same). -/
def dDivNew (d : Dense S) (r : R) : Res (Dense S) := temp (dDiv F (.ofVec d.data) r)
/-- vector.rs:114-117 (108-111 is the same). -/
def dAddMul (d o : Dense S) (s : S) : Res Unit × Dense S := withArg (dMulNew F o s) (fun t d => dAdd F d t) d
/-- vector.rs:126-129 (120-123 is the same). -/
def dSubMul (d o : Dense S) (s : S) : Res Unit × Dense S := withArg (dMulNew F o s) (fun t d => dSub F d t) d
/-- vector.rs:132-135 (138-141 is the same). -/
def dAddDiv (d o : Dense S) (r : R) : Res Unit × Dense S := withArg (dDivNew F o r) (fun t d => dAdd F d t) d
/-- vector.rs:144-147 (150-153 is the same). -/
def dSubDiv (d o : Dense S) (r : R) : Res Unit × Dense S := withArg (dDivNew F o r) (fun t d => dSub F d t) d

/-! ## `src/vector/traits/extension.rs` -/

/-- The methods of `Vector` used by `VectorKeyExt`.  `getMut k f` is `get_mut(k)`, and `f` on the entry if there is one; it tells whether there was. -/
structure KeyOps (V K S : Type) where
  getMut : K → (S → Res Unit × S) → Unw V Bool
  insertSingle : K → S → Unw V Unit

/-- simple_dense_vector.rs:236-245 `get_mut` and `insert_single`.  `as_mut_slice` is called before the index is computed, and makes a copy of a vector over a
shared slice. -/
def denseKeys (B : Basis K) : KeyOps (Dense S) K S :=
  { getMut := fun k f d =>
      match B.keyToIndex k with
      | .ok i =>
        match d.data[i]? with
        | some x =>
          match (f x).1 with
          | .ok () => (.ok true, d.writeSlice (d.data.set i (f x).2))
          | .panic => (.panic, d.writeSlice (d.data.set i (f x).2))
          | .ub => (.ub, d.writeSlice (d.data.set i (f x).2))
          | .diverge => (.diverge, d.writeSlice (d.data.set i (f x).2))
        | none => (.ok false, d.makeMut)
      | .panic => (.panic, d.makeMut)
      | .ub => (.ub, d.makeMut)
      | .diverge => (.diverge, d.makeMut)
    insertSingle := fun k _ => do
      let _ ← Unw.lift (B.keyToIndex k)
      return () }

/-- simple_sparse_vector.rs:126-132 `get_mut` and `insert_single`. -/
def sparseKeys [DecidableEq K] : KeyOps (Sparse K S) K S :=
  { getMut := fun k f a =>
      match Sparse.find a.entries k with
      | some x =>
        match (f x).1 with
        | .ok () => (.ok true, ⟨Sparse.modifyAt a.entries k fun _ => (f x).2⟩)
        | .panic => (.panic, ⟨Sparse.modifyAt a.entries k fun _ => (f x).2⟩)
        | .ub => (.ub, ⟨Sparse.modifyAt a.entries k fun _ => (f x).2⟩)
        | .diverge => (.diverge, ⟨Sparse.modifyAt a.entries k fun _ => (f x).2⟩)
      | none => (.ok false, a)
    insertSingle := fun k v a => (.ok (), ⟨Sparse.hmInsert a.entries k v⟩) }

variable (T : KeyOps V K S)

/-- extension.rs:8-20 `add_scalar_multiply`. -/
def keyAdd (k : K) (s : S) : Unw V Unit := do
  if ← T.getMut k (fun x => F.addIn x s) then return () else T.insertSingle k s

/-- extension.rs:22-34 `sub_scalar_multiply`: the negative is computed before the call of `insert_single`. -/
def keySub (k : K) (s : S) : Unw V Unit := do
  if ← T.getMut k (fun x => F.subIn x s) then return ()
  else do
    let y ← Unw.lift (F.uminus s)
    T.insertSingle k y

/-- extension.rs:36-49 `add_scalar_divide`: the quotient comes first. -/
def keyAddDiv (k : K) (r : R) : Unw V Unit := do
  let sca ← Unw.lift (F.div F.one r)
  if ← T.getMut k (fun x => F.addIn x sca) then return () else T.insertSingle k sca

/-- extension.rs:52-65 `sub_scalar_divide`: the quotient comes first. -/
def keySubDiv (k : K) (r : R) : Unw V Unit := do
  let sca ← Unw.lift (F.div F.mone r)
  if ← T.getMut k (fun x => F.subIn x sca) then return () else T.insertSingle k sca

/-! ## `from_iterator` of the dense vectors -/

/-- simple_dense_vector.rs:207-209, one turn of the accumulation loop, on a local vector. -/
def fromIteratorStepF (l : List S) (e : Nat × S) : Res (List S) :=
  match l[e.1]? with
  | none => .ub
  | some x =>
    match F.addIn x e.2 with
    | (.ok (), y) => .ok (l.set e.1 y)
    | (.panic, _) => .panic
    | (.ub, _) => .ub
    | (.diverge, _) => .diverge

/-- simple_dense_vector.rs:191-213 `from_iterator`; `sort_by` is stable (`List.mergeSort`). -/
def fromIteratorF (B : Basis K) (items : List (K × S)) : Res (Dense S) := do
  let vec ← items.mapM (fun e => do
    let i ← B.keyToIndex e.1
    return (i, e.2))
  match (vec.mergeSort (fun a b => decide (a.1 ≤ b.1))).getLast? with
  | none => return .new
  | some last =>
    let dim ← B.dimForIndex last.1
    let l ← (vec.mergeSort (fun a b => decide (a.1 ≤ b.1))).foldlM (fromIteratorStepF F) (List.replicate dim F.zero)
    return .ofVec l

end Fallible
end RA
