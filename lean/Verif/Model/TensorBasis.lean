import Verif.Model.TensorKey

/-!
# `src/free_tensor/tensor_basis/mod.rs` and `src/free_tensor/tensor_basis/key_iterator.rs`
-/

namespace RA
namespace TensorBasis
open TensorKey

/-- tensor_basis/mod.rs:24-27 `max_degree`. -/
def maxDegree (N : Nat) : Nat := maxDepth N

/-- tensor_basis/mod.rs:29-32 `start_of_degree` (`usize` arithmetic). -/
def startOfDegree (p : Profile) (N deg : Nat) : Res Nat := do
  let a ← powW p 64 N deg
  let b ← subW p 64 a 1
  let c ← subW p 64 N 1
  divW b c

/-- tensor_basis/mod.rs:34-37 `degree_range`: (start, end) of the half-open range. -/
def degreeRange (p : Profile) (N deg : Nat) : Res (Nat × Nat) := do
  let s ← startOfDegree p N deg
  let d ← addW p 32 deg 1
  let e ← startOfDegree p N d
  return (s, e)

/-- tensor_basis/mod.rs:39-46 `index_to_degree_impl`; `fuel` bounds the recursion depth. -/
def indexToDegreeImpl (p : Profile) (N index : Nat) : (fuel : Nat) → (deg : Nat) → Res Nat
  | 0, _ => .diverge
  | fuel + 1, deg => do
    let s ← startOfDegree p N deg
    if index ≥ s then
      let d ← addW p 32 deg 1
      let e ← startOfDegree p N d
      if index < e then return deg
      else
        let d ← addW p 32 deg 1
        indexToDegreeImpl p N index fuel d
    else
      let d ← addW p 32 deg 1
      indexToDegreeImpl p N index fuel d

/-- tensor_basis/mod.rs:48-59 `index_to_degree`.  `deg` is a `u32`, so after `2 ^ 32` recursive calls every value of
`deg` has been tried and the recursion is infinite: the fuel `2 ^ 32` loses no terminating execution. -/
def indexToDegree (p : Profile) (N index : Nat) : Res Nat :=
  if index = 0 then .ok 0
  else if 1 ≤ index ∧ index ≤ N then .ok 1
  else do
    let s2 ← startOfDegree p N 2
    if s2 ≤ index then
      let s3 ← startOfDegree p N 3
      if index < s3 then return 2
      else indexToDegreeImpl p N index (2 ^ 32) 3
    else indexToDegreeImpl p N index (2 ^ 32) 3

/-- tensor_basis/mod.rs:71-73 `compare`: compares the `data` fields only. -/
def compare (lhs rhs : TensorKey) : Ordering := Ord.compare lhs.data rhs.data

/-- tensor_basis/mod.rs:84-88, one iteration of the `while` loop of `key_to_index` at position `i`. -/
def keyToIndexStep (p : Profile) (N : Nat) (key : TensorKey) (result i : Nat) : Res Nat := do
  let r ← mulW p 64 result N
  let l ← getLetter p N key i
  addW p 64 r l

/-- tensor_basis/mod.rs:79-91 `key_to_index`: `i` runs from `size - 1` down to `0`. -/
def keyToIndex (p : Profile) (N : Nat) (key : TensorKey) : Res Nat :=
  (List.range key.size).reverse.foldlM (keyToIndexStep p N key) 0

/-- tensor_basis/mod.rs:107-111, the `while pos > 0` loop of `index_to_key`.  `pos` strictly decreases, so
`fuel > pos` never runs out. -/
def indexToKeyLoop (p : Profile) (N : Nat) : (fuel : Nat) → (pos : Nat) → TensorKey → Res TensorKey
  | 0, _, _ => .diverge
  | fuel + 1, pos, result =>
    if pos > 0 then do
      let pos ← subW p 64 pos 1
      let r ← remW pos N
      let result ← pushFrontRaw p N result (r % 2 ^ 32)
      let pos ← divW pos N
      indexToKeyLoop p N fuel pos result
    else .ok result

/-- tensor_basis/mod.rs:93-114 `index_to_key`. -/
def indexToKey (p : Profile) (N index : Nat) : Res TensorKey :=
  if index = 0 then .ok TensorKey.new
  else if index ≤ N then fromLetter p (index % 2 ^ 32)
  else indexToKeyLoop p N (index + 1) index TensorKey.new

/-- tensor_basis/mod.rs:125-129 `degree`. -/
def degree (key : TensorKey) : Nat := key.size

/-- tensor_basis/mod.rs:116-118 `vector_dimension_for_key`. -/
def vectorDimensionForKey (p : Profile) (N : Nat) (key : TensorKey) : Res Nat := do
  let d ← addW p 32 (degree key) 1
  startOfDegree p N d

/-- tensor_basis/mod.rs:120-122 `vector_dimension_for_index`. -/
def vectorDimensionForIndex (p : Profile) (N index : Nat) : Res Nat := do
  let d ← indexToDegree p N index
  let d ← addW p 32 d 1
  startOfDegree p N d

/-! ## key_iterator.rs -/

/-- key_iterator.rs:6-9 `struct TensorBasisIterator`. -/
structure BasisIter where
  current : Option TensorKey
  maxDepth : Nat
deriving DecidableEq, Repr

/-- key_iterator.rs:13-19 `new`; also tensor_basis/mod.rs:75-77 `iter_keys`. -/
def BasisIter.new (N : Nat) : BasisIter := ⟨some TensorKey.new, TensorKey.maxDepth N⟩

/-- key_iterator.rs:21-27 `starting_from`. -/
def BasisIter.startingFrom (N : Nat) (k : TensorKey) : BasisIter := ⟨some k, TensorKey.maxDepth N⟩

/-- key_iterator.rs:41-59, the `loop` in `next`: `current` is the key being advanced, `letter_i` the position; gives the new
`self.current`.  `set_letter` keeps the size, so the loop runs at most `size + 1` times. -/
def advanceLoop (p : Profile) (N maxDepth : Nat) : (fuel : Nat) → (current : TensorKey) → (letterI : Nat) →
    Res (Option TensorKey)
  | 0, _, _ => .diverge
  | fuel + 1, current, letterI =>
    if letterI = current.size then
      if letterI = maxDepth then .ok none
      else do
        let c ← pushFront p N current 1
        return some c
    else do
      let letter ← getLetter p N current letterI
      if letter = N then
        let c ← setLetter p N current letterI 1
        let letterI ← addW p 32 letterI 1
        advanceLoop p N maxDepth fuel c letterI
      else
        let l ← addW p 32 letter 1
        let c ← setLetter p N current letterI l
        return some c

/-- key_iterator.rs:35-64 `Iterator::next`: item and new iterator state. -/
def BasisIter.next (p : Profile) (N : Nat) (it : BasisIter) : Res (Option TensorKey × BasisIter) :=
  match it.current with
  | none => .ok (none, it)
  | some current => do
    let c ← advanceLoop p N it.maxDepth (current.size + 1) current 0
    return (some current, { it with current := c })

/-- The `n`-th item (counting from 0) produced by repeatedly calling `next`. -/
def BasisIter.nth (p : Profile) (N : Nat) : (n : Nat) → BasisIter → Res (Option TensorKey)
  | 0, it => do
    let r ← it.next p N
    return r.1
  | n + 1, it => do
    let r ← it.next p N
    BasisIter.nth p N n r.2

end TensorBasis
end RA
