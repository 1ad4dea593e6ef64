import Verif.Model.Base

/-!
# `src/implementation.rs` and `src/free_tensor/tensor_basis/tensor_key.rs`

The const generic `NLETTERS` is the explicit argument `N`.  Machine words are `Nat`s; `u32`/`u64` arithmetic goes through
the checked operations of `Verif.Model.Base`.
-/

namespace RA

/-- src/implementation.rs:4-11 `const_logn` (the const generic base is ignored by the code; it always halves).
The result is at most 31, so the `+ 1` cannot overflow and the function is modelled as a pure one. -/
def constLogn (n : Nat) : Nat :=
  if n < 2 then 0 else constLogn (n / 2) + 1
termination_by n
decreasing_by omega

/-- src/implementation.rs:13-16 `make_mask`. -/
def makeMask (p : Profile) (nBits shift : Nat) : Res Nat := do
  let a ← shlW p 64 1 nBits
  let b ← subW p 64 a 1
  shlW p 64 b shift

/-- tensor_key.rs:25-30 `struct TensorKey` (`size: u32`, `data: u64`; `derive(PartialEq)` compares both fields). -/
structure TensorKey where
  size : Nat
  data : Nat
deriving DecidableEq, Repr

namespace TensorKey

/-- tensor_key.rs:57-60 `bits_per_letter`. -/
def bitsPerLetter (N : Nat) : Nat := constLogn N + 1

/-- tensor_key.rs:62-65 `size_bits`. -/
def sizeBits (N : Nat) : Nat := constLogn ((64 - 1) / bitsPerLetter N)

/-- tensor_key.rs:67-70 `letter_mask`. -/
def letterMask (p : Profile) (N : Nat) : Res Nat := makeMask p (bitsPerLetter N) 0

/-- tensor_key.rs:72-75 `size_mask` (only used by the crate's tests). -/
def sizeMask (p : Profile) (N : Nat) : Res Nat := makeMask p (sizeBits N) (64 - sizeBits N)

/-- tensor_key.rs:77-80 `max_depth`. -/
def maxDepth (N : Nat) : Nat := (64 - sizeBits N) / bitsPerLetter N

/-- tensor_key.rs:82-85 `new`. -/
def new : TensorKey := ⟨0, 0⟩

/-- tensor_key.rs:87-93 `from_letter` (no range check on the letter). -/
def fromLetter (p : Profile) (letter : Nat) : Res TensorKey := do
  let d ← subW p 64 letter 1
  return ⟨1, d⟩

/-- tensor_key.rs:110-120 `set_letter`.  The mask is shifted by `letter` (line 115), the new value by
`bits_per_letter()*letter` (line 118), exactly as in the source. -/
def setLetter (p : Profile) (N : Nat) (k : TensorKey) (letter newVal : Nat) : Res TensorKey :=
  if letter ≥ k.size then .panic
  else do
    let m ← makeMask p (bitsPerLetter N) letter
    let data := k.data &&& notW 64 m
    let t ← subW p 64 newVal 1
    let s ← mulW p 32 (bitsPerLetter N) letter
    let t ← shlW p 64 t s
    let data ← addW p 64 data t
    return ⟨k.size, data⟩

/-- tensor_key.rs:129-134, body of the loop of `from_letters`. -/
def fromLettersStep (p : Profile) (N : Nat) (data letter : Nat) : Res Nat := do
  debugAssert p (decide (1 ≤ letter ∧ letter ≤ N))
  let data ← shlW p 64 data (bitsPerLetter N)
  let t ← subW p 32 letter 1
  addW p 64 data t

/-- tensor_key.rs:122-139 `from_letters`. -/
def fromLetters (p : Profile) (N : Nat) (letters : List Nat) : Res TensorKey :=
  if letters.length > maxDepth N then .panic
  else do
    let data ← letters.foldlM (fromLettersStep p N) 0
    return ⟨letters.length % 2 ^ 32, data⟩

/-- tensor_key.rs:141-152 `get_letter_unadjusted`. -/
def getLetterUnadjusted (p : Profile) (N : Nat) (k : TensorKey) (letter : Nat) : Res Nat := do
  let s ← mulW p 32 letter (bitsPerLetter N)
  let mask ← makeMask p (bitsPerLetter N) s
  let first := k.data &&& mask
  let s' ← mulW p 32 letter (bitsPerLetter N)
  let second ← shrW p 64 first s'
  return second % 2 ^ 32

/-- tensor_key.rs:154-157 `get_letter`. -/
def getLetter (p : Profile) (N : Nat) (k : TensorKey) (letter : Nat) : Res Nat := do
  let l ← getLetterUnadjusted p N k letter
  addW p 32 l 1

/-- tensor_key.rs:159-165 `concatenate` (no check against `max_depth`). -/
def concatenate (p : Profile) (N : Nat) (k other : TensorKey) : Res TensorKey := do
  let size ← addW p 32 k.size other.size
  let s ← mulW p 32 other.size (bitsPerLetter N)
  let d ← shlW p 64 k.data s
  let data ← addW p 64 d other.data
  return ⟨size, data⟩

/-- tensor_key.rs:167-176 `to_letters`. (The `debug_assert_eq!` on the length always holds.) -/
def toLetters (p : Profile) (N : Nat) (k : TensorKey) : Res (List Nat) :=
  (List.range k.size).mapM (getLetter p N k)

/-- tensor_key.rs:178-185 `push_front_raw`. -/
def pushFrontRaw (p : Profile) (N : Nat) (k : TensorKey) (letter : Nat) : Res TensorKey := do
  let m ← letterMask p N
  let s ← mulW p 32 k.size (bitsPerLetter N)
  let t ← shlW p 64 (letter &&& m) s
  let data ← addW p 64 k.data t
  let size ← addW p 32 k.size 1
  return ⟨size, data⟩

/-- tensor_key.rs:187-193 `push_front`. -/
def pushFront (p : Profile) (N : Nat) (k : TensorKey) (letter : Nat) : Res TensorKey := do
  debugAssert p (decide (k.size < maxDepth N))
  debugAssert p (decide (1 ≤ letter ∧ letter ≤ N))
  let l ← subW p 32 letter 1
  pushFrontRaw p N k l

/-- tensor_key.rs:225-233 `TensorKeyIterator::next`: the state is the `index` field; returns the item (if any) and the new state. -/
def lettersNext (p : Profile) (N : Nat) (k : TensorKey) (index : Nat) : Res (Option Nat × Nat) :=
  if index = k.size then .ok (none, index)
  else do
    let index ← addW p 32 index 1
    let pos ← subW p 32 k.size index
    let l ← getLetter p N k pos
    return (some l, index)

/-- Driving `TensorKeyIterator` (tensor_key.rs:213-234) from a given index until it returns `None`, collecting the items;
`fuel` bounds the number of `next` calls (running out is `diverge`). -/
def lettersCollect (p : Profile) (N : Nat) (k : TensorKey) : (fuel : Nat) → (index : Nat) → Res (List Nat)
  | 0, _ => .diverge
  | fuel + 1, index => do
    match ← lettersNext p N k index with
    | (none, _) => return []
    | (some l, index) =>
      let rest ← lettersCollect p N k fuel index
      return l :: rest

/-- tensor_key.rs:33-45 `Debug::fmt`: the text written, letters in decimal. -/
def debugFmt (p : Profile) (N : Nat) (k : TensorKey) : Res String := do
  let body ← (List.range k.size).foldlM (fun acc i => do
    let l ← getLetter p N k i
    if i > 0 then return acc ++ ", " ++ toString l
    else return acc ++ toString l) "("
  return body ++ ")"

/-- tensor_key.rs:47-52 `Display::fmt`: calls `Display::fmt` on the same receiver, i.e. itself; `fuel` bounds the call depth. -/
def displayFmt (k : TensorKey) : (fuel : Nat) → Res String
  | 0 => .diverge
  | fuel + 1 => displayFmt k fuel

end TensorKey
end RA
