import Verif.Model.Algebra

/-!
# `src/free_tensor/implementation/dense.rs`: the product of dense tensors with a closure that has a state

`multiply_and_add_into_impl` and `multiply_into_impl` take a `FnMut(&S) -> S`: a closure that may change its own state and may panic.  A closure is a function
from the state and the argument to the value and the new state.  `Model/Algebra.lean` is the case of closures without state, the only ones the crate passes.
-/

namespace RA
namespace DenseAlg
variable {S R T : Type} (C : Coeff S R) (p : Profile) (N : Nat)

/-- `FnMut(&S) -> S` with state in `T`. -/
abbrev Closure (S T : Type) := T → S → Res (S × T)

/-- A closure without state. -/
def Closure.pure (f : S → S) : Closure S T := fun s x => .ok (f x, s)

/-- dense.rs:75-76: the reference to the element under `out_ptr` is made first, then the closure is called, then the value is added. -/
def bufStepS (func : Closure S T) (a : S) (st : (List S × Nat) × T) (b : S) : Res ((List S × Nat) × T) :=
  if st.1.2 < st.1.1.length then do
    let (y, s) ← func st.2 (C.mul a b)
    let o ← modifyUnchecked st.1.1 st.1.2 (fun x => C.add x y)
    return ((o, st.1.2 + 1), s)
  else .ub

/-- dense.rs:64-79 `dense_tensor_multiply_into_buffer`. -/
def mulIntoBufferS (func : Closure S T) (out lhs rhs : List S) (s : T) : Res (List S × T) := do
  let st ← lhs.foldlM (fun st a => rhs.foldlM (bufStepS C func a) st) ((out, 0), s)
  return (st.1.1, st.2)

/-- dense.rs:86-91, the loops of `dense_tensor_multiply_inplace` on one element. -/
def inplaceStepS (func : Closure S T) (rhs : List S) (st : List S × T) (o : S) : Res (List S × T) := do
  let (o', s) ← rhs.foldlM (fun (st : S × T) r => func st.2 (C.mul st.1 r)) (o, st.2)
  return (st.1 ++ [o'], s)

/-- dense.rs:81-92 `dense_tensor_multiply_inplace`. -/
def mulInplaceBufferS (func : Closure S T) (out rhs : List S) (s : T) : Res (List S × T) := out.foldlM (inplaceStepS C func rhs) ([], s)

/-- dense.rs:302-318, the inner loop body of `multiply_and_add_into_impl`. -/
def mulAddStepS (func : Closure S T) (lhs rhs : Dense S) (outDeg : Nat) (st : Dense S × T) (lhsD : Nat) : Res (Dense S × T) := do
  let rhsD ← subW p 32 outDeg lhsD
  let self := st.1.makeMut
  let ro ← TensorBasis.degreeRange p N outDeg
  let o ← sliceUnchecked self.data ro
  let rl ← TensorBasis.degreeRange p N lhsD
  let l ← sliceUnchecked lhs.data rl
  let rr ← TensorBasis.degreeRange p N rhsD
  let r ← sliceUnchecked rhs.data rr
  let (o, s) ← mulIntoBufferS C func o l r st.2
  return (self.writeSlice (replaceRange self.data ro o), s)

/-- dense.rs:290-319, one turn of the outer loop. -/
def mulAddDegreeS (func : Closure S T) (lhs rhs : Dense S) (lhsDeg rhsDeg : Nat) (st : Dense S × T) (outDeg : Nat) : Res (Dense S × T) := do
  let lhsDegMin ← if outDeg > rhsDeg then subW p 32 outDeg rhsDeg else .ok 0
  let lhsDegMax := min outDeg lhsDeg
  (List.range' lhsDegMin (lhsDegMax + 1 - lhsDegMin)).reverse.foldlM (mulAddStepS C p N func lhs rhs outDeg) st

/-- dense.rs:264-320 `multiply_and_add_into_impl`. -/
def mulAddIntoS (func : Closure S T) (self lhs rhs : Dense S) (toDegree : Option Nat) (s : T) : Res (Dense S × T) := do
  let lhsDeg ← Dense.degree (tensorBasis p N) lhs
  let rhsDeg ← Dense.degree (tensorBasis p N) rhs
  let m ← maxDeg p toDegree lhsDeg rhsDeg
  let self ← growTo C p N self m
  (List.range (m + 1)).reverse.foldlM (mulAddDegreeS C p N func lhs rhs lhsDeg rhsDeg) (self, s)

/-- dense.rs:405-413 (also 370-380). -/
def splitMulS (func : Closure S T) (rhs : Dense S) (st : Dense S × T) (mid : Nat) (ro rl rr : Nat × Nat) : Res (Dense S × T) := do
  let self := st.1.makeMut
  if mid ≤ self.data.length then
    let a := self.data.take mid
    let b := self.data.drop mid
    let o ← sliceUnchecked b ro
    let l ← sliceUnchecked a rl
    let r ← sliceUnchecked rhs.data rr
    let (o, s) ← mulIntoBufferS C func o l r st.2
    return (self.writeSlice (a ++ replaceRange b ro o), s)
  else .panic

/-- dense.rs:394-415, the inner loop body of `multiply_into_impl`. -/
def mulIntoStepS (func : Closure S T) (rhs : Dense S) (outDeg lhsDegMax : Nat) (st : Dense S × T) (lhsD : Nat) : Res (Dense S × T) := do
  let rhsD ← subW p 32 outDeg lhsD
  let t ← subW p 32 outDeg lhsD
  let rr ← TensorBasis.degreeRange p N t
  let ro ← TensorBasis.degreeRange p N rhsD
  let rl ← TensorBasis.degreeRange p N lhsD
  let mid ← TensorBasis.startOfDegree p N lhsDegMax
  splitMulS C func rhs st mid ro rl rr

/-- dense.rs:358-391, the `if assign` block. -/
def mulIntoAssignS (func : Closure S T) (rhs : Dense S) (offset outDeg lhsDegMax : Nat) (st : Dense S × T) : Res (Dense S × T) := do
  let t ← subW p 32 outDeg lhsDegMax
  let rr ← TensorBasis.degreeRange p N t
  let ro ← TensorBasis.degreeRange p N outDeg
  if offset = 1 then
    let rl ← TensorBasis.degreeRange p N lhsDegMax
    let mid ← TensorBasis.startOfDegree p N lhsDegMax
    splitMulS C func rhs st mid ro rl rr
  else
    let self := st.1.makeMut
    let o ← sliceUnchecked self.data ro
    let r ← sliceUnchecked rhs.data rr
    let (o, s) ← mulInplaceBufferS C func o r st.2
    return (self.writeSlice (replaceRange self.data ro o), s)

/-- dense.rs:351-417, one turn of the outer loop of `multiply_into_impl`. -/
def mulIntoDegreeS (func : Closure S T) (rhs : Dense S) (offset : Nat) (assign : Bool) (lhsDeg rhsDeg : Nat) (st : Dense S × T) (outDeg : Nat) :
    Res (Dense S × T) := do
  let lhsDegMin ← subW p 32 outDeg rhsDeg
  let t ← subW p 32 outDeg offset
  let lhsDegMax := min t lhsDeg
  let st ← if assign then mulIntoAssignS C p N func rhs offset outDeg lhsDegMax st else .ok st
  let top ← subW p 32 lhsDegMax (if assign then 1 else 0)
  (List.range' lhsDegMin (top + 1 - lhsDegMin)).reverse.foldlM (mulIntoStepS C p N func rhs outDeg lhsDegMax) st

/-- dense.rs:322-418 `multiply_into_impl`. -/
def mulIntoS (func : Closure S T) (self rhs : Dense S) (toDegree : Option Nat) (s : T) : Res (Dense S × T) := do
  let lhsDeg ← Dense.degree (tensorBasis p N) self
  let rhsDeg ← Dense.degree (tensorBasis p N) rhs
  let m ← maxDeg p toDegree lhsDeg rhsDeg
  let self ← growTo C p N self m
  let oa := offsetAssign C rhs
  (List.range' 1 m).reverse.foldlM (mulIntoDegreeS C p N func rhs oa.1 oa.2 lhsDeg rhsDeg) (self, s)

end DenseAlg
end RA
