import Verif.Model.FallibleMore

/-!
# Coefficients whose arithmetic panics: the traits `Algebra` and `FreeTensor`

The remaining methods of dense tensors with coefficients that may panic (`Model/Fallible.lean`).

Simplification: the conversions `from_degree` may panic too, so they are given as functions `deg` and `rat` with an outcome.
-/

namespace RA
namespace Fallible
variable {K S R : Type} (F : FCoeff S R)

/-! ## `src/vector/implementation/simple_dense_vector.rs` -/

/-- simple_dense_vector.rs:178-189 `from_key_scalar`. -/
def dFromKeyScalar (B : Basis K) (k : K) (s : S) : Res (Dense S) := do
  let size ← B.dimForKey k
  let i ← B.keyToIndex k
  let l ← modifyUnchecked (List.replicate size F.zero) i (fun _ => s)
  return .ofVec l

/-- simple_dense_vector.rs:174-176 `from_key`. -/
def dFromKey (B : Basis K) (k : K) : Res (Dense S) := dFromKeyScalar F B k F.one

/-- simple_dense_vector.rs:224-230 `clear`. -/
def dClear (d : Dense S) : Dense S :=
  match d.mode with
  | .owned => { d with data := [] }
  | .borrowedMut => d.writeSlice (d.data.map fun _ => F.zero)
  | .borrowed => { d with mode := .owned, data := [] }

/-- simple_dense_vector.rs:251-256 `erase`. -/
def dErase (B : Basis K) (d : Dense S) (k : K) : Res (Dense S) := do
  let r ← Dense.getMut B d k (fun _ => F.zero)
  return r.2

/-! ## `src/algebra/mod.rs` -/

variable (p : Profile) (N : Nat)

/-- `multiply_and_add_into_impl` with a closure that has no state. -/
def tMulAdd (func : S → Res S) (v lhs rhs : Dense S) (d : Option Nat) : Res Unit × Dense S :=
  let q := mulAddIntoF F p N (fun (t : Unit) x => (func x, t)) lhs rhs d (v, ())
  (q.1, q.2.1)

/-- `multiply_into_impl` with a closure that has no state. -/
def tMulInto (func : S → Res S) (v rhs : Dense S) (d : Option Nat) : Res Unit × Dense S :=
  let q := mulIntoF F p N (fun (t : Unit) x => (func x, t)) rhs d (v, ())
  (q.1, q.2.1)

/-- algebra/mod.rs:31-40. -/
def tMultiply (v rhs : Dense S) (d : Option Nat) : Res (Dense S) := temp (tMulAdd F p N .ok .new v rhs d)

/-- algebra/mod.rs:42-50. -/
def tMultiplyInplace (v rhs : Dense S) (d : Option Nat) : Res Unit × Dense S := tMulInto F p N .ok v rhs d

/-- algebra/mod.rs:52-66. -/
def tAddMul (v lhs rhs : Dense S) (d : Option Nat) : Res Unit × Dense S := tMulAdd F p N .ok v lhs rhs d

/-- algebra/mod.rs:68-81. -/
def tSubMul (v lhs rhs : Dense S) (d : Option Nat) : Res Unit × Dense S := tMulAdd F p N F.uminus v lhs rhs d

/-- algebra/mod.rs:83-95. -/
def tCommutator (v rhs : Dense S) (d : Option Nat) : Res (Dense S) := do
  let r ← temp (tAddMul F p N .new v rhs d)
  temp (tSubMul F p N r rhs v d)

/-- algebra/mod.rs:97-111. -/
def tMulScalLprod (v rhs : Dense S) (s : S) (d : Option Nat) : Res Unit × Dense S := tMulInto F p N (fun x => F.mul s x) v rhs d

/-- algebra/mod.rs:113-127. -/
def tMulScalRprod (v rhs : Dense S) (s : S) (d : Option Nat) : Res Unit × Dense S := tMulInto F p N (fun x => F.mul x s) v rhs d

/-- algebra/mod.rs:129-143. -/
def tMulRatLdiv (v rhs : Dense S) (r : R) (d : Option Nat) : Res Unit × Dense S := tMulInto F p N (fun x => F.div x r) v rhs d

/-- algebra/mod.rs:145-159: takes a scalar and multiplies by it. -/
def tMulRatRdiv (v rhs : Dense S) (s : S) (d : Option Nat) : Res Unit × Dense S := tMulInto F p N (fun x => F.mul x s) v rhs d

/-! ## `src/free_tensor/mod.rs` -/

variable (deg : Nat → Res S) (rat : Nat → Res R) (maxDegree : Nat)

/-- free_tensor/mod.rs:32-35, one turn of the loop of `exp`. -/
def tExpStep (x tunit result : Dense S) (i : Nat) : Res (Dense S) := do
  let s ← deg i
  let r ← temp (tMulRatRdiv F p N result x s (some maxDegree))
  temp (dAdd F r tunit)

/-- free_tensor/mod.rs:26-37 `exp`. -/
def tExp (x : Dense S) : Res (Dense S) := do
  let tunit ← dFromKey F (tensorBasis p N) TensorKey.new
  let result ← dFromKey F (tensorBasis p N) TensorKey.new
  (List.range' 1 (maxDegree - 1)).reverse.foldlM (tExpStep F p N deg maxDegree x tunit) result

/-- free_tensor/mod.rs:50-53, one turn of the loop of `fmexp`.  The scalar is computed before the degree. -/
def tFmexpStep (x oself v : Dense S) (i : Nat) : Res (Dense S) := do
  let s ← deg i
  let d ← subW p 32 maxDegree i
  let d ← addW p 32 d 1
  let r ← temp (tMulRatRdiv F p N v x s (some d))
  temp (dAdd F r oself)

/-- free_tensor/mod.rs:39-56 `fmexp`. -/
def tFmexp (v arg : Dense S) : Res (Dense S) := do
  let oself ← Dense.toOwned v
  let x ← Dense.toOwned arg
  let x ← Dense.getMut (tensorBasis p N) x TensorKey.new (fun _ => F.zero)
  (List.range' 1 (maxDegree - 1)).reverse.foldlM (tFmexpStep F p N deg maxDegree x.2 oself) v

/-- free_tensor/mod.rs:70-77, one turn of the loop of `log`.  The product of line 76 is computed and dropped. -/
def tLogStep (x tunit rv : Dense S) (i : Nat) : Res (Dense S) := do
  let r ← rat i
  let rv ← if i % 2 = 0 then temp (dSubDiv F rv tunit r) else temp (dAddDiv F rv tunit r)
  let _ ← tMultiply F p N rv x (some maxDegree)
  return rv

/-- free_tensor/mod.rs:58-80 `log`. -/
def tLog (v : Dense S) : Res (Dense S) := do
  let tunit ← dFromKey F (tensorBasis p N) TensorKey.new
  let x ← Dense.toOwned v
  let x ← Dense.getMut (tensorBasis p N) x TensorKey.new (fun _ => F.zero)
  (List.range' 1 (maxDegree - 1)).reverse.foldlM (tLogStep F p N rat maxDegree x.2 tunit) .new

end Fallible
end RA
