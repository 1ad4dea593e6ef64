import Verif.Model.Closure

/-!
# `src/free_tensor/implementation/dense.rs`: what a product leaves behind when its closure panics

The products write through `&mut self` while they call the closure.  A caller who catches the unwinding of a panic sees the vector as it was then.  This is the
code of `Model/Closure.lean` again, in a form that keeps the vector and the state of the closure when a call panics.
-/

namespace RA

/-- A computation on a state that survives a panic: the outcome, and the state at that moment (meaningless after undefined behaviour, never seen when the
computation does not end). -/
def Unw (σ α : Type) := σ → Res α × σ

namespace Unw
variable {σ α β : Type}

/-- Sequencing: the second part runs only if the first returns. -/
def bind (x : Unw σ α) (f : α → Unw σ β) : Unw σ β := fun s =>
  match x s with
  | (.ok a, s) => f a s
  | (.panic, s) => (.panic, s)
  | (.ub, s) => (.ub, s)
  | (.diverge, s) => (.diverge, s)

instance : Monad (Unw σ) where
  pure a := fun s => (.ok a, s)
  bind := bind

/-- A computation that does not touch the state. -/
def lift (r : Res α) : Unw σ α := fun s => (r, s)

/-- Read the state. -/
def get : Unw σ σ := fun s => (.ok s, s)

/-- Replace the state. -/
def set (s : σ) : Unw σ Unit := fun _ => (.ok (), s)

end Unw

namespace DenseAlg
variable {S R T : Type} (C : Coeff S R) (p : Profile) (N : Nat)

/-- `FnMut(&S) -> S` with state in `T`, which survives a panic of the closure. -/
abbrev ClosureU (S T : Type) := T → S → Res S × T

/-- `self.as_mut_slice()`: `Cow::to_mut` on a borrowed vector.  Nothing is written. -/
def asMut (d : Dense S) : Dense S := d.makeMut.writeSlice d.data

/-- The statement `self.as_mut_slice()`. -/
def asMutU : Unw (Dense S × T) (List S) := do
  let st ← Unw.get
  Unw.set (asMut st.1, st.2)
  return st.1.data

/-- dense.rs:75-76 with `out_ptr` at offset `ptr` into the sub-slice of length `len` that begins at `lo`: the reference to the element is made first, then the
closure is called, then the value is added. -/
def bufStepU (func : ClosureU S T) (lo len : Nat) (a : S) (ptr : Nat) (b : S) : Unw (Dense S × T) Nat := fun st =>
  if ptr < len then
    match func st.2 (C.mul a b) with
    | (.ok y, t) => (.ok (ptr + 1), (st.1.writeSlice (st.1.data.modify (lo + ptr) fun x => C.add x y), t))
    | (.panic, t) => (.panic, (st.1, t))
    | (.ub, t) => (.ub, (st.1, t))
    | (.diverge, t) => (.diverge, (st.1, t))
  else (.ub, st)

/-- dense.rs:64-79 `dense_tensor_multiply_into_buffer`; `out` is the sub-slice of length `len` of `self` that begins at `lo`. -/
def mulIntoBufferU (func : ClosureU S T) (lo len : Nat) (lhs rhs : List S) : Unw (Dense S × T) Unit := do
  let _ ← lhs.foldlM (fun ptr a => rhs.foldlM (bufStepU C func lo len a) ptr) 0
  return ()

/-- dense.rs:87-89 on the element at `i`. -/
def inplaceStepU (func : ClosureU S T) (i : Nat) (_ : Unit) (r : S) : Unw (Dense S × T) Unit := fun st =>
  match st.1.data[i]? with
  | none => (.ub, st)
  | some o =>
    match func st.2 (C.mul o r) with
    | (.ok y, t) => (.ok (), (st.1.writeSlice (st.1.data.set i y), t))
    | (.panic, t) => (.panic, (st.1, t))
    | (.ub, t) => (.ub, (st.1, t))
    | (.diverge, t) => (.diverge, (st.1, t))

/-- dense.rs:81-92 `dense_tensor_multiply_inplace`; `out` is the sub-slice of length `len` of `self` that begins at `lo`. -/
def mulInplaceBufferU (func : ClosureU S T) (lo len : Nat) (rhs : List S) : Unw (Dense S × T) Unit :=
  (List.range' lo len).foldlM (fun _ i => rhs.foldlM (inplaceStepU C func i) ()) ()

/-- dense.rs:302-318, the inner loop body of `multiply_and_add_into_impl`. -/
def mulAddStepU (func : ClosureU S T) (lhs rhs : Dense S) (outDeg : Nat) (_ : Unit) (lhsD : Nat) : Unw (Dense S × T) Unit := do
  let rhsD ← Unw.lift (subW p 32 outDeg lhsD)
  let data ← asMutU
  let ro ← Unw.lift (TensorBasis.degreeRange p N outDeg)
  let _ ← Unw.lift (sliceUnchecked data ro)
  let rl ← Unw.lift (TensorBasis.degreeRange p N lhsD)
  let l ← Unw.lift (sliceUnchecked lhs.data rl)
  let rr ← Unw.lift (TensorBasis.degreeRange p N rhsD)
  let r ← Unw.lift (sliceUnchecked rhs.data rr)
  mulIntoBufferU C func ro.1 (ro.2 - ro.1) l r

/-- dense.rs:290-319, one turn of the outer loop. -/
def mulAddDegreeU (func : ClosureU S T) (lhs rhs : Dense S) (lhsDeg rhsDeg : Nat) (_ : Unit) (outDeg : Nat) : Unw (Dense S × T) Unit := do
  let lhsDegMin ← Unw.lift (if outDeg > rhsDeg then subW p 32 outDeg rhsDeg else .ok 0)
  let lhsDegMax := min outDeg lhsDeg
  (List.range' lhsDegMin (lhsDegMax + 1 - lhsDegMin)).reverse.foldlM (mulAddStepU C p N func lhs rhs outDeg) ()

/-- dense.rs:285-287 and 341-343.  The dimension is computed before the vector is touched. -/
def growToU (maxDeg : Nat) : Unw (Dense S × T) Unit := do
  let st ← Unw.get
  let self ← Unw.lift (growTo C p N st.1 maxDeg)
  Unw.set (self, st.2)

/-- dense.rs:264-320 `multiply_and_add_into_impl`, on `self` and the state of the closure. -/
def mulAddIntoU (func : ClosureU S T) (lhs rhs : Dense S) (toDegree : Option Nat) : Unw (Dense S × T) Unit := do
  let lhsDeg ← Unw.lift (Dense.degree (tensorBasis p N) lhs)
  let rhsDeg ← Unw.lift (Dense.degree (tensorBasis p N) rhs)
  let m ← Unw.lift (maxDeg p toDegree lhsDeg rhsDeg)
  growToU C p N m
  (List.range (m + 1)).reverse.foldlM (mulAddDegreeU C p N func lhs rhs lhsDeg rhsDeg) ()

/-- dense.rs:405-413 (also 370-380). -/
def splitMulU (func : ClosureU S T) (rhs : Dense S) (mid : Nat) (ro rl rr : Nat × Nat) : Unw (Dense S × T) Unit := do
  let data ← asMutU
  if mid ≤ data.length then do
    let _ ← Unw.lift (sliceUnchecked (data.drop mid) ro)
    let l ← Unw.lift (sliceUnchecked (data.take mid) rl)
    let r ← Unw.lift (sliceUnchecked rhs.data rr)
    mulIntoBufferU C func (mid + ro.1) (ro.2 - ro.1) l r
  else Unw.lift .panic

/-- dense.rs:394-415, the inner loop body of `multiply_into_impl`. -/
def mulIntoStepU (func : ClosureU S T) (rhs : Dense S) (outDeg lhsDegMax : Nat) (_ : Unit) (lhsD : Nat) : Unw (Dense S × T) Unit := do
  let rhsD ← Unw.lift (subW p 32 outDeg lhsD)
  let t ← Unw.lift (subW p 32 outDeg lhsD)
  let rr ← Unw.lift (TensorBasis.degreeRange p N t)
  let ro ← Unw.lift (TensorBasis.degreeRange p N rhsD)
  let rl ← Unw.lift (TensorBasis.degreeRange p N lhsD)
  let mid ← Unw.lift (TensorBasis.startOfDegree p N lhsDegMax)
  splitMulU C func rhs mid ro rl rr

/-- dense.rs:358-391, the `if assign` block. -/
def mulIntoAssignU (func : ClosureU S T) (rhs : Dense S) (offset outDeg lhsDegMax : Nat) : Unw (Dense S × T) Unit := do
  let t ← Unw.lift (subW p 32 outDeg lhsDegMax)
  let rr ← Unw.lift (TensorBasis.degreeRange p N t)
  let ro ← Unw.lift (TensorBasis.degreeRange p N outDeg)
  if offset = 1 then do
    let rl ← Unw.lift (TensorBasis.degreeRange p N lhsDegMax)
    let mid ← Unw.lift (TensorBasis.startOfDegree p N lhsDegMax)
    splitMulU C func rhs mid ro rl rr
  else do
    let data ← asMutU
    let _ ← Unw.lift (sliceUnchecked data ro)
    let r ← Unw.lift (sliceUnchecked rhs.data rr)
    mulInplaceBufferU C func ro.1 (ro.2 - ro.1) r

/-- dense.rs:351-417, one turn of the outer loop of `multiply_into_impl`. -/
def mulIntoDegreeU (func : ClosureU S T) (rhs : Dense S) (offset : Nat) (assign : Bool) (lhsDeg rhsDeg : Nat) (_ : Unit) (outDeg : Nat) :
    Unw (Dense S × T) Unit := do
  let lhsDegMin ← Unw.lift (subW p 32 outDeg rhsDeg)
  let t ← Unw.lift (subW p 32 outDeg offset)
  let lhsDegMax := min t lhsDeg
  if assign then mulIntoAssignU C p N func rhs offset outDeg lhsDegMax else Unw.lift (.ok ())
  let top ← Unw.lift (subW p 32 lhsDegMax (if assign then 1 else 0))
  (List.range' lhsDegMin (top + 1 - lhsDegMin)).reverse.foldlM (mulIntoStepU C p N func rhs outDeg lhsDegMax) ()

/-- dense.rs:322-418 `multiply_into_impl`, on `self` and the state of the closure. -/
def mulIntoU (func : ClosureU S T) (rhs : Dense S) (toDegree : Option Nat) : Unw (Dense S × T) Unit := do
  let st ← Unw.get
  let lhsDeg ← Unw.lift (Dense.degree (tensorBasis p N) st.1)
  let rhsDeg ← Unw.lift (Dense.degree (tensorBasis p N) rhs)
  let m ← Unw.lift (maxDeg p toDegree lhsDeg rhsDeg)
  growToU C p N m
  let oa := offsetAssign C rhs
  (List.range' 1 m).reverse.foldlM (mulIntoDegreeU C p N func rhs oa.1 oa.2 lhsDeg rhsDeg) ()

end DenseAlg
end RA
