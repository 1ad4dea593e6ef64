import Verif.Model.Sparse
import Verif.Model.Unwind

/-!
# Coefficients whose arithmetic panics

`CoefficientField` is a public trait.  An implementation may panic, say an integer type that checks for overflow, or a rational type in a division by zero.
The linear operations and the products work through `&mut self`, one coefficient after the other.  This is that code again, with coefficient operations that may
panic, keeping the vector at the moment of the panic.

Simplifications: `clone` of a coefficient, and the conversions `Into<ScalarType>` and `Into<RationalType>`, return.
-/

namespace RA

/-- coefficients/mod.rs:23-50 trait `CoefficientField` with methods that may panic.  A method on `&mut self` has an outcome and leaves a value in place, also when
it panics.  The in-place methods need not agree with the others.  Only the methods used below are listed. -/
structure FCoeff (S R : Type) where
  zero : S
  one : S
  mone : S
  /-- `PartialEq::eq`. -/
  eq : S → S → Res Bool
  uminus : S → Res S
  mul : S → S → Res S
  div : S → R → Res S
  addIn : S → S → Res Unit × S
  subIn : S → S → Res Unit × S
  mulIn : S → S → Res Unit × S
  divIn : S → R → Res Unit × S

/-- Coefficients that never panic. -/
def FCoeff.ofCoeff {S R : Type} (C : Coeff S R) : FCoeff S R :=
  { zero := C.zero, one := C.one, mone := C.mone, eq := fun a b => .ok (C.eq a b), uminus := fun a => .ok (C.uminus a)
    mul := fun a b => .ok (C.mul a b), div := fun a r => .ok (C.div a r)
    addIn := fun a b => (.ok (), C.add a b), subIn := fun a b => (.ok (), C.sub a b), mulIn := fun a b => (.ok (), C.mul a b)
    divIn := fun a r => (.ok (), C.div a r) }

namespace Fallible
variable {K S R T A : Type} (F : FCoeff S R)

/-- `*v = f(v)`: the assignment happens only if `f` returns. -/
def assign (f : S → Res S) (v : S) : Res Unit × S :=
  match f v with
  | .ok y => (.ok (), y)
  | .panic => (.panic, v)
  | .ub => (.ub, v)
  | .diverge => (.diverge, v)

/-- `for (x, y) in xs.iter_mut().zip(ys) { g(x, y) }`: the loop ends with the shorter list, or with the first turn that does not return. -/
def zipLoop (g : S → A → Res Unit × S) : List S → List A → Res Unit × List S
  | x :: xs, y :: ys =>
    match g x y with
    | (.ok (), x) => ((zipLoop g xs ys).1, x :: (zipLoop g xs ys).2)
    | (.panic, x) => (.panic, x :: xs)
    | (.ub, x) => (.ub, x :: xs)
    | (.diverge, x) => (.diverge, x :: xs)
  | xs, _ => (.ok (), xs)

/-- `for x in xs.iter_mut() { g(x) }`. -/
def eachLoop (g : S → Res Unit × S) (xs : List S) : Res Unit × List S := zipLoop (fun x _ => g x) xs xs

/-! ## `src/vector/implementation/simple_dense_vector.rs` -/

/-- A loop over `self.as_mut_slice()`. -/
def onSlice (d : Dense S) (q : Res Unit × List S) : Res Unit × Dense S := (q.1, d.writeSlice q.2)

/-- simple_dense_vector.rs:353-359 `resize` and 72-90 `to_owned_with_size`. -/
def resizeF (d : Dense S) (n : Nat) : Dense S :=
  match d.mode with
  | .owned => { d with data := vecResize d.data n F.zero }
  | .borrowedMut | .borrowed => { d with mode := .owned, data := vecResize d.data n F.zero }

/-- `if lhs_vec.size() > self.size() { self.resize(lhs_vec.size()); }`, lines 272-274 and 286-288. -/
def grow (d : Dense S) (n : Nat) : Dense S := if n > d.size then resizeF F d n else d

/-- simple_dense_vector.rs:258-263 `uminus_inplace`. -/
def dUminus (d : Dense S) : Res Unit × Dense S := onSlice d (eachLoop (assign F.uminus) d.data)

/-- simple_dense_vector.rs:265-281 `add_inplace`. -/
def dAdd (d o : Dense S) : Res Unit × Dense S :=
  let d := grow F d.makeMut o.size
  onSlice d (zipLoop F.addIn d.data o.data)

/-- simple_dense_vector.rs:283-295 `sub_inplace`. -/
def dSub (d o : Dense S) : Res Unit × Dense S :=
  let d := grow F d o.size
  onSlice d (zipLoop F.subIn d.data o.data)

/-- simple_dense_vector.rs:297-309 `scalar_lmultiply_inplace`. -/
def dMul (d : Dense S) (s : S) : Res Unit × Dense S := onSlice d.makeMut (eachLoop (fun x => F.mulIn x s) d.data)

/-- simple_dense_vector.rs:311-319 `scalar_rdivide_inplace`. -/
def dDiv (d : Dense S) (r : R) : Res Unit × Dense S := onSlice d (eachLoop (fun x => F.divIn x r) d.data)

/-! ## `src/vector/implementation/simple_sparse_vector.rs` -/

section
variable [DecidableEq K]

/-- `self.0.iter_mut().for_each(|(_, v)| g(v))`, in the order of the map. -/
def sEach (g : S → Res Unit × S) (a : Sparse K S) : Res Unit × Sparse K S :=
  let q := eachLoop g (a.entries.map (·.2))
  (q.1, ⟨(a.entries.map (·.1)).zip q.2⟩)

/-- simple_sparse_vector.rs:142-145 `uminus_inplace`. -/
def sUminus (a : Sparse K S) : Res Unit × Sparse K S := sEach (assign F.uminus) a

/-- simple_sparse_vector.rs:177-189 `scalar_lmultiply_inplace`: the comparison comes first. -/
def sMul (a : Sparse K S) (s : S) : Res Unit × Sparse K S :=
  match F.eq s F.zero with
  | .ok true => (.ok (), ⟨[]⟩)
  | .ok false => sEach (fun x => F.mulIn x s) a
  | .panic => (.panic, a)
  | .ub => (.ub, a)
  | .diverge => (.diverge, a)

/-- simple_sparse_vector.rs:191-199 `scalar_rdivide_inplace`. -/
def sDiv (a : Sparse K S) (r : R) : Res Unit × Sparse K S := sEach (fun x => F.divIn x r) a

/-- simple_sparse_vector.rs:151-154 and 166-169, `g` the in-place operation on the entry of a key that is present: write, compare with zero, remove. -/
def sUpdate (g : Res Unit × S) (k : K) (m : List (K × S)) : Res Unit × List (K × S) :=
  let m := Sparse.modifyAt m k fun _ => g.2
  match g.1 with
  | .ok () =>
    match F.eq g.2 F.zero with
    | .ok true => (.ok (), Sparse.hmRemove m k)
    | .ok false => (.ok (), m)
    | .panic => (.panic, m)
    | .ub => (.ub, m)
    | .diverge => (.diverge, m)
  | r => (r, m)

/-- simple_sparse_vector.rs:149-157, one turn of the loop of `add_inplace`. -/
def sAddStep (_ : Unit) (e : K × S) : Unw (List (K × S)) Unit := fun m =>
  match Sparse.find m e.1 with
  | some i => sUpdate F (F.addIn i e.2) e.1 m
  | none => (.ok (), Sparse.hmInsert m e.1 e.2)

/-- simple_sparse_vector.rs:147-160 `add_inplace`. -/
def sAdd (a o : Sparse K S) : Res Unit × Sparse K S :=
  let q := o.entries.foldlM (sAddStep F) () a.entries
  (q.1, ⟨q.2⟩)

/-- simple_sparse_vector.rs:164-172, one turn of the loop of `sub_inplace`: the negative is computed before it is inserted. -/
def sSubStep (_ : Unit) (e : K × S) : Unw (List (K × S)) Unit := fun m =>
  match Sparse.find m e.1 with
  | some i => sUpdate F (F.subIn i e.2) e.1 m
  | none =>
    match F.uminus e.2 with
    | .ok y => (.ok (), Sparse.hmInsert m e.1 y)
    | .panic => (.panic, m)
    | .ub => (.ub, m)
    | .diverge => (.diverge, m)

/-- simple_sparse_vector.rs:162-175 `sub_inplace`. -/
def sSub (a o : Sparse K S) : Res Unit × Sparse K S :=
  let q := o.entries.foldlM (sSubStep F) () a.entries
  (q.1, ⟨q.2⟩)

end

/-! ## `src/free_tensor/implementation/dense.rs` -/

/-- What one turn of the innermost loop does to its element of the output: from the state of the closure, the element, and the two factors, to the outcome, what
is in the element then, and the state of the closure. -/
abbrev Update (S T : Type) := T → S → S → S → Res Unit × (S × T)

/-- dense.rs:75 `S::add_inplace(&mut *out_ptr, &func(&S::mul(lhs_v, rhs_v)))`. -/
def addProduct (func : DenseAlg.ClosureU S T) : Update S T := fun t o a b =>
  match F.mul a b with
  | .ok x =>
    match func t x with
    | (.ok y, t) => ((F.addIn o y).1, ((F.addIn o y).2, t))
    | (.panic, t) => (.panic, (o, t))
    | (.ub, t) => (.ub, (o, t))
    | (.diverge, t) => (.diverge, (o, t))
  | .panic => (.panic, (o, t))
  | .ub => (.ub, (o, t))
  | .diverge => (.diverge, (o, t))

/-- dense.rs:75-76 with `out_ptr` at offset `ptr` into the sub-slice of length `len` that begins at `lo`. -/
def bufStepF (upd : Update S T) (lo len : Nat) (a : S) (ptr : Nat) (b : S) : Unw (Dense S × T) Nat := fun st =>
  match (if ptr < len then st.1.data[lo + ptr]? else none) with
  | none => (.ub, st)
  | some o =>
    match upd st.2 o a b with
    | (.ok (), o, t) => (.ok (ptr + 1), (st.1.writeSlice (st.1.data.set (lo + ptr) o), t))
    | (.panic, o, t) => (.panic, (st.1.writeSlice (st.1.data.set (lo + ptr) o), t))
    | (.ub, o, t) => (.ub, (st.1.writeSlice (st.1.data.set (lo + ptr) o), t))
    | (.diverge, o, t) => (.diverge, (st.1.writeSlice (st.1.data.set (lo + ptr) o), t))

/-- dense.rs:64-79 `dense_tensor_multiply_into_buffer`; `out` is the sub-slice of length `len` of `self` that begins at `lo`. -/
def mulIntoBufferF (upd : Update S T) (lo len : Nat) (lhs rhs : List S) : Unw (Dense S × T) Unit := do
  let _ ← lhs.foldlM (fun ptr a => rhs.foldlM (bufStepF upd lo len a) ptr) 0
  return ()

/-- dense.rs:302-318, the inner loop body of `multiply_and_add_into_impl`. -/
def mulAddStepF (p : Profile) (N : Nat) (upd : Update S T) (lhs rhs : Dense S) (outDeg : Nat) (_ : Unit) (lhsD : Nat) : Unw (Dense S × T) Unit := do
  let rhsD ← Unw.lift (subW p 32 outDeg lhsD)
  let data ← DenseAlg.asMutU
  let ro ← Unw.lift (TensorBasis.degreeRange p N outDeg)
  let _ ← Unw.lift (DenseAlg.sliceUnchecked data ro)
  let rl ← Unw.lift (TensorBasis.degreeRange p N lhsD)
  let l ← Unw.lift (DenseAlg.sliceUnchecked lhs.data rl)
  let rr ← Unw.lift (TensorBasis.degreeRange p N rhsD)
  let r ← Unw.lift (DenseAlg.sliceUnchecked rhs.data rr)
  mulIntoBufferF upd ro.1 (ro.2 - ro.1) l r

/-- dense.rs:290-319, one turn of the outer loop. -/
def mulAddDegreeF (p : Profile) (N : Nat) (upd : Update S T) (lhs rhs : Dense S) (lhsDeg rhsDeg : Nat) (_ : Unit) (outDeg : Nat) :
    Unw (Dense S × T) Unit := do
  let lhsDegMin ← Unw.lift (if outDeg > rhsDeg then subW p 32 outDeg rhsDeg else .ok 0)
  let lhsDegMax := min outDeg lhsDeg
  (List.range' lhsDegMin (lhsDegMax + 1 - lhsDegMin)).reverse.foldlM (mulAddStepF p N upd lhs rhs outDeg) ()

/-- dense.rs:285-287 and 341-343. -/
def growToF (p : Profile) (N : Nat) (maxDeg : Nat) : Unw (Dense S × T) Unit := do
  let st ← Unw.get
  let sd ← Unw.lift (Dense.degree (tensorBasis p N) st.1)
  if sd < maxDeg then do
    let d ← Unw.lift (addW p 32 maxDeg 1)
    let n ← Unw.lift (TensorBasis.startOfDegree p N d)
    Unw.set (resizeF F st.1 n, st.2)
  else return ()

/-- dense.rs:264-320 `multiply_and_add_into_impl`, on `self` and the state of the closure. -/
def mulAddIntoF (p : Profile) (N : Nat) (func : DenseAlg.ClosureU S T) (lhs rhs : Dense S) (toDegree : Option Nat) : Unw (Dense S × T) Unit := do
  let lhsDeg ← Unw.lift (Dense.degree (tensorBasis p N) lhs)
  let rhsDeg ← Unw.lift (Dense.degree (tensorBasis p N) rhs)
  let m ← Unw.lift (DenseAlg.maxDeg p toDegree lhsDeg rhsDeg)
  growToF F p N m
  (List.range (m + 1)).reverse.foldlM (mulAddDegreeF p N (addProduct F func) lhs rhs lhsDeg rhsDeg) ()

/-- dense.rs:88 `*out_ptr = func(&S::mul(out_ptr, rhs_v))`. -/
def setProduct (func : DenseAlg.ClosureU S T) (t : T) (o r : S) : Res Unit × (S × T) :=
  match F.mul o r with
  | .ok x =>
    match func t x with
    | (.ok y, t) => (.ok (), (y, t))
    | (.panic, t) => (.panic, (o, t))
    | (.ub, t) => (.ub, (o, t))
    | (.diverge, t) => (.diverge, (o, t))
  | .panic => (.panic, (o, t))
  | .ub => (.ub, (o, t))
  | .diverge => (.diverge, (o, t))

/-- dense.rs:87-89 on the element at `i`. -/
def inplaceStepF (func : DenseAlg.ClosureU S T) (i : Nat) (_ : Unit) (r : S) : Unw (Dense S × T) Unit := fun st =>
  match st.1.data[i]? with
  | none => (.ub, st)
  | some o =>
    let q := setProduct F func st.2 o r
    (q.1, (st.1.writeSlice (st.1.data.set i q.2.1), q.2.2))

/-- dense.rs:81-92 `dense_tensor_multiply_inplace`; `out` is the sub-slice of length `len` of `self` that begins at `lo`. -/
def mulInplaceBufferF (func : DenseAlg.ClosureU S T) (lo len : Nat) (rhs : List S) : Unw (Dense S × T) Unit :=
  (List.range' lo len).foldlM (fun _ i => rhs.foldlM (inplaceStepF F func i) ()) ()

/-- dense.rs:405-413 (also 370-380). -/
def splitMulF (func : DenseAlg.ClosureU S T) (rhs : Dense S) (mid : Nat) (ro rl rr : Nat × Nat) : Unw (Dense S × T) Unit := do
  let data ← DenseAlg.asMutU
  if mid ≤ data.length then do
    let _ ← Unw.lift (DenseAlg.sliceUnchecked (data.drop mid) ro)
    let l ← Unw.lift (DenseAlg.sliceUnchecked (data.take mid) rl)
    let r ← Unw.lift (DenseAlg.sliceUnchecked rhs.data rr)
    mulIntoBufferF (addProduct F func) (mid + ro.1) (ro.2 - ro.1) l r
  else Unw.lift .panic

/-- dense.rs:394-415, the inner loop body of `multiply_into_impl`. -/
def mulIntoStepF (p : Profile) (N : Nat) (func : DenseAlg.ClosureU S T) (rhs : Dense S) (outDeg lhsDegMax : Nat) (_ : Unit) (lhsD : Nat) :
    Unw (Dense S × T) Unit := do
  let rhsD ← Unw.lift (subW p 32 outDeg lhsD)
  let t ← Unw.lift (subW p 32 outDeg lhsD)
  let rr ← Unw.lift (TensorBasis.degreeRange p N t)
  let ro ← Unw.lift (TensorBasis.degreeRange p N rhsD)
  let rl ← Unw.lift (TensorBasis.degreeRange p N lhsD)
  let mid ← Unw.lift (TensorBasis.startOfDegree p N lhsDegMax)
  splitMulF F func rhs mid ro rl rr

/-- dense.rs:358-391, the `if assign` block. -/
def mulIntoAssignF (p : Profile) (N : Nat) (func : DenseAlg.ClosureU S T) (rhs : Dense S) (offset outDeg lhsDegMax : Nat) : Unw (Dense S × T) Unit := do
  let t ← Unw.lift (subW p 32 outDeg lhsDegMax)
  let rr ← Unw.lift (TensorBasis.degreeRange p N t)
  let ro ← Unw.lift (TensorBasis.degreeRange p N outDeg)
  if offset = 1 then do
    let rl ← Unw.lift (TensorBasis.degreeRange p N lhsDegMax)
    let mid ← Unw.lift (TensorBasis.startOfDegree p N lhsDegMax)
    splitMulF F func rhs mid ro rl rr
  else do
    let data ← DenseAlg.asMutU
    let _ ← Unw.lift (DenseAlg.sliceUnchecked data ro)
    let r ← Unw.lift (DenseAlg.sliceUnchecked rhs.data rr)
    mulInplaceBufferF F func ro.1 (ro.2 - ro.1) r

/-- dense.rs:351-417, one turn of the outer loop of `multiply_into_impl`. -/
def mulIntoDegreeF (p : Profile) (N : Nat) (func : DenseAlg.ClosureU S T) (rhs : Dense S) (offset : Nat) (assign : Bool) (lhsDeg rhsDeg : Nat) (_ : Unit)
    (outDeg : Nat) : Unw (Dense S × T) Unit := do
  let lhsDegMin ← Unw.lift (subW p 32 outDeg rhsDeg)
  let t ← Unw.lift (subW p 32 outDeg offset)
  let lhsDegMax := min t lhsDeg
  if assign then mulIntoAssignF F p N func rhs offset outDeg lhsDegMax else Unw.lift (.ok ())
  let top ← Unw.lift (subW p 32 lhsDegMax (if assign then 1 else 0))
  (List.range' lhsDegMin (top + 1 - lhsDegMin)).reverse.foldlM (mulIntoStepF F p N func rhs outDeg lhsDegMax) ()

/-- dense.rs:345-349: the second comparison is made only if the first says no. -/
def offsetAssignF (rhs : Dense S) : Res (Nat × Bool) :=
  match rhs.data[0]? with
  | some v => do
    if ← F.eq v F.zero then return (1, true)
    else if ← F.eq v F.one then return (1, false)
    else return (0, true)
  | none => .ok (0, true)

/-- dense.rs:322-418 `multiply_into_impl`, on `self` and the state of the closure.  The comparisons come after the vector has grown. -/
def mulIntoF (p : Profile) (N : Nat) (func : DenseAlg.ClosureU S T) (rhs : Dense S) (toDegree : Option Nat) : Unw (Dense S × T) Unit := do
  let st ← Unw.get
  let lhsDeg ← Unw.lift (Dense.degree (tensorBasis p N) st.1)
  let rhsDeg ← Unw.lift (Dense.degree (tensorBasis p N) rhs)
  let m ← Unw.lift (DenseAlg.maxDeg p toDegree lhsDeg rhsDeg)
  growToF F p N m
  let oa ← Unw.lift (offsetAssignF F rhs)
  (List.range' 1 m).reverse.foldlM (mulIntoDegreeF F p N func rhs oa.1 oa.2 lhsDeg rhsDeg) ()

end Fallible
end RA
