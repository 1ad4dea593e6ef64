import Verif.Model.Dense

/-!
# `src/algebra/mod.rs`, `src/free_tensor/mod.rs`, `src/free_tensor/implementation/dense.rs`

Closures `FnMut(&S) -> S` are pure functions here: every closure the crate passes is one.  Closures with a state, or that panic: `Model/Closure.lean`.
-/

namespace RA

/-! ## algebra/mod.rs: trait `Algebra` -/

/-- algebra/mod.rs:14-29: the required methods of `Algebra` on top of a vector type.  `mulAddInto self lhs rhs func to_degree` is
`multiply_and_add_into_impl`, `mulInto self rhs func to_degree` is `multiply_into_impl`; both give the new `self`. -/
structure AlgOps (V K S R : Type) extends VecOps V K S R where
  mulAddInto : V → V → V → (S → S) → Option Nat → Res V
  mulInto : V → V → (S → S) → Option Nat → Res V

namespace AlgOps
variable {V K S R : Type} (C : Coeff S R) (T : AlgOps V K S R)

/-- algebra/mod.rs:31-40. -/
def multiply (v rhs : V) (d : Option Nat) : Res V := T.mulAddInto T.new v rhs id d

/-- algebra/mod.rs:42-50. -/
def multiplyInplace (v rhs : V) (d : Option Nat) : Res V := T.mulInto v rhs id d

/-- algebra/mod.rs:52-66. -/
def addMul (v lhs rhs : V) (d : Option Nat) : Res V := T.mulAddInto v lhs rhs id d

/-- algebra/mod.rs:68-81. -/
def subMul (v lhs rhs : V) (d : Option Nat) : Res V := T.mulAddInto v lhs rhs C.uminus d

/-- algebra/mod.rs:83-95. -/
def commutator (v rhs : V) (d : Option Nat) : Res V := do
  let r ← T.addMul T.new v rhs d
  T.subMul C r rhs v d

/-- algebra/mod.rs:97-111. -/
def mulScalLprod (v rhs : V) (s : S) (d : Option Nat) : Res V := T.mulInto v rhs (fun x => C.mul s x) d

/-- algebra/mod.rs:113-127. -/
def mulScalRprod (v rhs : V) (s : S) (d : Option Nat) : Res V := T.mulInto v rhs (fun x => C.mul x s) d

/-- algebra/mod.rs:129-143. -/
def mulRatLdiv (v rhs : V) (r : R) (d : Option Nat) : Res V := T.mulInto v rhs (fun x => C.div x r) d

/-- algebra/mod.rs:145-159: takes a scalar and multiplies by it. -/
def mulRatRdiv (v rhs : V) (s : S) (d : Option Nat) : Res V := T.mulInto v rhs (fun x => C.mul x s) d

end AlgOps

/-! ## free_tensor/mod.rs: trait `FreeTensor` (no implementation in the crate) -/

namespace FreeTensor
variable {V S R : Type} (p : Profile) (C : Coeff S R) (T : AlgOps V TensorKey S R) (maxDegree : Nat)

/-- free_tensor/mod.rs:32-35, one turn of the loop of `exp`. -/
def expStep (x tunit result : V) (i : Nat) : Res V := do
  let r ← T.mulRatRdiv C result x (C.fromDegree i) (some maxDegree)
  T.addInplace r tunit

/-- free_tensor/mod.rs:26-37 `exp`: `i` runs from `MAX_DEGREE - 1` down to `1`. -/
def exp (x : V) : Res V := do
  let tunit ← T.fromKey TensorKey.new
  let result ← T.fromKey TensorKey.new
  (List.range' 1 (maxDegree - 1)).reverse.foldlM (expStep C T maxDegree x tunit) result

/-- free_tensor/mod.rs:50-53, one turn of the loop of `fmexp`. -/
def fmexpStep (x oself v : V) (i : Nat) : Res V := do
  let d ← subW p 32 maxDegree i
  let d ← addW p 32 d 1
  let r ← T.mulRatRdiv C v x (C.fromDegree i) (some d)
  T.addInplace r oself

/-- free_tensor/mod.rs:39-56 `fmexp`. -/
def fmexp (v arg : V) : Res V := do
  let oself ← T.toOwned v
  let x ← T.toOwned arg
  let (_, x) ← T.getMut x TensorKey.new (fun _ => C.zero)
  (List.range' 1 (maxDegree - 1)).reverse.foldlM (fmexpStep p C T maxDegree x oself) v

/-- free_tensor/mod.rs:70-77, one turn of the loop of `log`.  The product of line 76 is computed and dropped. -/
def logStep (x tunit rv : V) (i : Nat) : Res V := do
  let rv ← if i % 2 = 0 then T.subScalarRdivide rv tunit (C.ratFromDegree i) else T.addScalarRdivide rv tunit (C.ratFromDegree i)
  let _ ← T.multiply rv x (some maxDegree)
  return rv

/-- free_tensor/mod.rs:58-80 `log`. -/
def log (v : V) : Res V := do
  let tunit ← T.fromKey TensorKey.new
  let x ← T.toOwned v
  let rv := T.new
  let (_, x) ← T.getMut x TensorKey.new (fun _ => C.zero)
  (List.range' 1 (maxDegree - 1)).reverse.foldlM (logStep C T maxDegree x tunit) rv

end FreeTensor

/-! ## free_tensor/implementation/dense.rs: the product of dense tensors -/

namespace DenseAlg
variable {S R : Type} (C : Coeff S R) (p : Profile) (N : Nat)

/-- `slice.get_unchecked(a..b)`: undefined behaviour unless `a ≤ b ≤ len`. -/
def sliceUnchecked (l : List S) (r : Nat × Nat) : Res (List S) :=
  if r.1 ≤ r.2 ∧ r.2 ≤ l.length then .ok ((l.take r.2).drop r.1) else .ub

/-- Effect on the whole slice of overwriting its sub-slice `a..b` with `o`, a list of the same length. -/
def replaceRange (l : List S) (r : Nat × Nat) (o : List S) : List S := l.take r.1 ++ o ++ l.drop r.2

/-- dense.rs:75-76: update the element under `out_ptr` (offset `st.2` into the slice `st.1`) and advance the pointer.  Writing outside the slice
`out_ptr` was taken from is undefined behaviour. -/
def bufStep (func : S → S) (a : S) (st : List S × Nat) (b : S) : Res (List S × Nat) := do
  let o ← modifyUnchecked st.1 st.2 (fun x => C.add x (func (C.mul a b)))
  return (o, st.2 + 1)

/-- dense.rs:64-79 `dense_tensor_multiply_into_buffer`. -/
def mulIntoBuffer (out lhs rhs : List S) (func : S → S) : Res (List S) := do
  let st ← lhs.foldlM (fun st a => rhs.foldlM (bufStep C func a) st) (out, 0)
  return st.1

/-- dense.rs:81-92 `dense_tensor_multiply_inplace`. -/
def mulInplaceBuffer (out rhs : List S) (func : S → S) : List S :=
  out.map fun o => rhs.foldl (fun o r => func (C.mul o r)) o

/-- dense.rs:302-318, the inner loop body of `multiply_and_add_into_impl`. -/
def mulAddStep (lhs rhs : Dense S) (func : S → S) (outDeg : Nat) (self : Dense S) (lhsD : Nat) : Res (Dense S) := do
  let rhsD ← subW p 32 outDeg lhsD
  let self := self.makeMut
  let ro ← TensorBasis.degreeRange p N outDeg
  let o ← sliceUnchecked self.data ro
  let rl ← TensorBasis.degreeRange p N lhsD
  let l ← sliceUnchecked lhs.data rl
  let rr ← TensorBasis.degreeRange p N rhsD
  let r ← sliceUnchecked rhs.data rr
  let o ← mulIntoBuffer C o l r func
  return self.writeSlice (replaceRange self.data ro o)

/-- dense.rs:290-319, one turn of the outer loop. -/
def mulAddDegree (lhs rhs : Dense S) (func : S → S) (lhsDeg rhsDeg : Nat) (self : Dense S) (outDeg : Nat) : Res (Dense S) := do
  let lhsDegMin ← if outDeg > rhsDeg then subW p 32 outDeg rhsDeg else .ok 0
  let lhsDegMax := min outDeg lhsDeg
  (List.range' lhsDegMin (lhsDegMax + 1 - lhsDegMin)).reverse.foldlM (mulAddStep C p N lhs rhs func outDeg) self

/-- dense.rs:280-283 and 336-339: `min(to_degree.expect(..), lhs_deg + rhs_deg)`. -/
def maxDeg (toDegree : Option Nat) (lhsDeg rhsDeg : Nat) : Res Nat :=
  match toDegree with
  | none => .panic
  | some d => do
    let s ← addW p 32 lhsDeg rhsDeg
    return min d s

/-- dense.rs:285-287 and 341-343: grow `self` to hold every degree up to `maxDeg`. -/
def growTo (self : Dense S) (maxDeg : Nat) : Res (Dense S) := do
  let sd ← Dense.degree (tensorBasis p N) self
  if sd < maxDeg then
    let d ← addW p 32 maxDeg 1
    let n ← TensorBasis.startOfDegree p N d
    return Dense.resize C self n
  else return self

/-- dense.rs:264-320 `multiply_and_add_into_impl`. -/
def mulAddInto (self lhs rhs : Dense S) (func : S → S) (toDegree : Option Nat) : Res (Dense S) := do
  let lhsDeg ← Dense.degree (tensorBasis p N) lhs
  let rhsDeg ← Dense.degree (tensorBasis p N) rhs
  let m ← maxDeg p toDegree lhsDeg rhsDeg
  let self ← growTo C p N self m
  (List.range (m + 1)).reverse.foldlM (mulAddDegree C p N lhs rhs func lhsDeg rhsDeg) self

/-- dense.rs:405-413 (also 370-380): split `self` at `mid`, multiply the sub-slice `rl` of the lower part by the sub-slice `rr` of `rhs` into the
sub-slice `ro` of the upper part.  `split_at_mut` panics when `mid` is out of range. -/
def splitMul (self rhs : Dense S) (func : S → S) (mid : Nat) (ro rl rr : Nat × Nat) : Res (Dense S) := do
  let self := self.makeMut
  if mid ≤ self.data.length then
    let a := self.data.take mid
    let b := self.data.drop mid
    let o ← sliceUnchecked b ro
    let l ← sliceUnchecked a rl
    let r ← sliceUnchecked rhs.data rr
    let o ← mulIntoBuffer C o l r func
    return self.writeSlice (a ++ replaceRange b ro o)
  else .panic

/-- dense.rs:394-415, the inner loop body of `multiply_into_impl`. -/
def mulIntoStep (rhs : Dense S) (func : S → S) (outDeg lhsDegMax : Nat) (self : Dense S) (lhsD : Nat) : Res (Dense S) := do
  let rhsD ← subW p 32 outDeg lhsD
  let t ← subW p 32 outDeg lhsD
  let rr ← TensorBasis.degreeRange p N t
  let ro ← TensorBasis.degreeRange p N rhsD
  let rl ← TensorBasis.degreeRange p N lhsD
  let mid ← TensorBasis.startOfDegree p N lhsDegMax
  splitMul C self rhs func mid ro rl rr

/-- dense.rs:358-391, the `if assign` block. -/
def mulIntoAssign (rhs : Dense S) (func : S → S) (offset outDeg lhsDegMax : Nat) (self : Dense S) : Res (Dense S) := do
  let t ← subW p 32 outDeg lhsDegMax
  let rr ← TensorBasis.degreeRange p N t
  let ro ← TensorBasis.degreeRange p N outDeg
  if offset = 1 then
    let rl ← TensorBasis.degreeRange p N lhsDegMax
    let mid ← TensorBasis.startOfDegree p N lhsDegMax
    splitMul C self rhs func mid ro rl rr
  else
    let self := self.makeMut
    let o ← sliceUnchecked self.data ro
    let r ← sliceUnchecked rhs.data rr
    return self.writeSlice (replaceRange self.data ro (mulInplaceBuffer C o r func))

/-- dense.rs:351-417, one turn of the outer loop of `multiply_into_impl`. -/
def mulIntoDegree (rhs : Dense S) (func : S → S) (offset : Nat) (assign : Bool) (lhsDeg rhsDeg : Nat) (self : Dense S) (outDeg : Nat) :
    Res (Dense S) := do
  let lhsDegMin ← subW p 32 outDeg rhsDeg
  let t ← subW p 32 outDeg offset
  let lhsDegMax := min t lhsDeg
  let self ← if assign then mulIntoAssign C p N rhs func offset outDeg lhsDegMax self else .ok self
  let top ← subW p 32 lhsDegMax (if assign then 1 else 0)
  (List.range' lhsDegMin (top + 1 - lhsDegMin)).reverse.foldlM (mulIntoStep C p N rhs func outDeg lhsDegMax) self

/-- dense.rs:345-349. -/
def offsetAssign (rhs : Dense S) : Nat × Bool :=
  match rhs.data[0]? with
  | some v => if C.eq v C.zero then (1, true) else if C.eq v C.one then (1, false) else (0, true)
  | none => (0, true)

/-- dense.rs:322-418 `multiply_into_impl`. -/
def mulInto (self rhs : Dense S) (func : S → S) (toDegree : Option Nat) : Res (Dense S) := do
  let lhsDeg ← Dense.degree (tensorBasis p N) self
  let rhsDeg ← Dense.degree (tensorBasis p N) rhs
  let m ← maxDeg p toDegree lhsDeg rhsDeg
  let self ← growTo C p N self m
  let oa := offsetAssign C rhs
  (List.range' 1 m).reverse.foldlM (mulIntoDegree C p N rhs func oa.1 oa.2 lhsDeg rhsDeg) self

/-- dense.rs:258-420: the algebra of `SimpleDenseVector<TensorBasis<N>, S>`. -/
def ops : AlgOps (Dense S) TensorKey S R :=
  { Dense.ops C (tensorBasis p N) with mulAddInto := mulAddInto C p N, mulInto := mulInto C p N }

end DenseAlg
end RA
