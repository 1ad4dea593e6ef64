import Verif.Model.Dense

/-!
# Printing and slice access of dense vectors

`src/vector/implementation/simple_dense_vector.rs` (`Display`), `src/vector/traits/dense_vector.rs` (`get_slice`, `get_mut_slice`)
-/

namespace RA
namespace Dense
variable {I K S : Type}

/-- simple_dense_vector.rs:381-386, the loop of `Display::fmt`.  `next` is `next` of the key iterator, `showS` and `showK` are the `Display` of the
coefficient and of the key.  `Zip::next` asks the key iterator first, also when the slice is already exhausted.  Writing to the formatter does not fail. -/
def displayLoop (next : I → Res (Option K × I)) (showS : S → Res String) (showK : K → Res String) : I → List S → String → Res String
  | it, [], acc => do
    let _ ← next it
    return acc
  | it, v :: vs, acc => do
    let r ← next it
    match r.1 with
    | none => return acc
    | some k =>
      let a ← showS v
      let b ← showK k
      displayLoop next showS showK r.2 vs (acc ++ a ++ b)

/-- simple_dense_vector.rs:376-388 `Display::fmt`; `it` is `B::iter_keys()`. -/
def displayFmt (next : I → Res (Option K × I)) (showS : S → Res String) (showK : K → Res String) (it : I) (d : Dense S) : Res String :=
  displayLoop next showS showK it d.data ""

/-- simple_dense_vector.rs:376-388 for `TensorBasis<N>`: the key iterator of the tensor basis and the `Display` of tensor keys (with call depth at most
`fuel`). -/
def displayTensor (p : Profile) (N : Nat) (showS : S → Res String) (d : Dense S) (fuel : Nat) : Res String :=
  displayFmt (TensorBasis.BasisIter.next p N) showS (fun k => TensorKey.displayFmt k fuel) (TensorBasis.BasisIter.new N) d

/-- The index types of slices: `i`, `a..b`, `a..`, `..b`, `..`, `a..=b`, `..=b`. -/
inductive SliceIdx where
  | at (i : Nat)
  | range (a b : Nat)
  | rangeFrom (a : Nat)
  | rangeTo (b : Nat)
  | full
  | incl (a b : Nat)
  | toIncl (b : Nat)
deriving DecidableEq, Repr

/-- `SliceIndex::get` of the standard library: first and one past the last position, if they are inside a slice of length `len`. -/
def SliceIdx.bounds (len : Nat) : SliceIdx → Option (Nat × Nat)
  | .at i => if i < len then some (i, i + 1) else none
  | .range a b => if a ≤ b ∧ b ≤ len then some (a, b) else none
  | .rangeFrom a => if a ≤ len then some (a, len) else none
  | .rangeTo b => if b ≤ len then some (0, b) else none
  | .full => some (0, len)
  | .incl a b => if b = 2 ^ 64 - 1 then none else if a ≤ b + 1 ∧ b + 1 ≤ len then some (a, b + 1) else none
  | .toIncl b => if b = 2 ^ 64 - 1 then none else if b + 1 ≤ len then some (0, b + 1) else none

/-- dense_vector.rs:19-23 `get_slice` (a single element is returned as a list of one). -/
def getSlice (d : Dense S) (ix : SliceIdx) : Option (List S) :=
  (ix.bounds d.data.length).map fun ab => (d.data.take ab.2).drop ab.1

/-- dense_vector.rs:25-29 `get_mut_slice`, followed by applying `f` to every element of the returned slice: whether there was one, and the vector
afterwards.  `as_mut_slice` is called first, so a `Borrowed` vector becomes `Owned` in any case. -/
def getMutSlice (d : Dense S) (ix : SliceIdx) (f : S → S) : Bool × Dense S :=
  match ix.bounds d.data.length with
  | some (a, b) => (true, d.writeSlice (d.data.take a ++ ((d.data.take b).drop a).map f ++ d.data.drop b))
  | none => (false, d.writeSlice d.data)

end Dense
end RA
