import Verif.Model.TensorKey

/-!
# `src/lie/lie_basis/`

`src/lie/mod.rs` declares the module as private, so nothing here is exported from the crate; the rest of the crate does not use it either.
`NLETTERS` is the explicit argument `N`.  `usize`/`u64`/`u32` are `Nat`s as elsewhere; `isize` is `Int` with the operations below.
Recursive functions whose termination is in question are defined by `partial_fixpoint`, with non-termination as `Res.diverge`; exhaustion of the stack is not
modelled.
-/

namespace RA

/-- `Res` ordered flatly above `diverge`. -/
instance : Lean.Order.PartialOrder (Res α) := inferInstanceAs (Lean.Order.PartialOrder (Lean.Order.FlatOrder (Res.diverge : Res α)))
instance : Lean.Order.CCPO (Res α) := inferInstanceAs (Lean.Order.CCPO (Lean.Order.FlatOrder (Res.diverge : Res α)))
instance : Lean.Order.MonoBind Res where
  bind_mono_left h := by
    cases h
    · exact Lean.Order.FlatOrder.rel.bot
    · exact Lean.Order.FlatOrder.rel.refl
  bind_mono_right {_ _ a _ _} h := by
    cases a
    · exact h _
    · exact Lean.Order.FlatOrder.rel.refl
    · exact Lean.Order.FlatOrder.rel.refl
    · exact Lean.Order.FlatOrder.rel.refl

/-- An `isize` result: overflow panics in debug and wraps in release. -/
def fitS (p : Profile) (e : Int) : Res Int :=
  if -2 ^ 63 ≤ e ∧ e < 2 ^ 63 then .ok e
  else match p with
    | .debug => .panic
    | .release => .ok (e.bmod (2 ^ 64))

/-- `isize` division, truncating: dividing by zero and `MIN / -1` panic in both profiles. -/
def divS (a b : Int) : Res Int := if b = 0 ∨ (a = -2 ^ 63 ∧ b = -1) then .panic else .ok (a.tdiv b)

/-- Exact power, before the overflow check. -/
def powInt (a : Int) (e : Nat) : Int := a ^ e

/-- `n as u32`. -/
def toU32 (n : Nat) : Nat := n % 2 ^ 32

/-- `n as isize`. -/
def toSigned (n : Nat) : Int := (n : Int).bmod (2 ^ 64)

/-- `x as usize`. -/
def toUnsigned (x : Int) : Nat := (x.emod (2 ^ 64)).toNat

namespace Hall

/-! ## degree_range_map.rs -/

/-- degree_range_map.rs:15-18 `is_squarefree_impl`. -/
def isSquarefreeImpl (p : Profile) (n base : Nat) : Res Bool := do
  let bb ← mulW p 64 base base
  let r ← remW n bb
  if r ≠ 0 then
    if bb ≥ n then .ok true
    else do
      let b ← addW p 64 base 1
      isSquarefreeImpl p n b
  else .ok false
partial_fixpoint

/-- degree_range_map.rs:20-23 `is_squarefree`. -/
def isSquarefree (p : Profile) (n : Nat) : Res Bool := isSquarefreeImpl p n 2

mutual
/-- degree_range_map.rs:25-34 `mobius_impl`. -/
def mobiusImpl (p : Profile) (n divisor : Nat) : Res Int := do
  if divisor = n then .ok (-1)
  else do
    let r ← remW n divisor
    if r = 0 then do
      let a ← mobius p n
      let q ← divW n divisor
      let b ← mobius p q
      fitS p (a * b)
    else do
      let d ← addW p 64 divisor 1
      mobiusImpl p n d
partial_fixpoint

/-- degree_range_map.rs:36-45 `mobius`. -/
def mobius (p : Profile) (n : Nat) : Res Int := do
  if n = 1 then .ok 1
  else do
    let s ← isSquarefree p n
    if !s then .ok 0
    else mobiusImpl p n 2
partial_fixpoint
end

/-- degree_range_map.rs:47-56 `hall_set_level_term`.  The quotient is `(mobius * pow) / level`. -/
def levelTerm (p : Profile) (width level divisor : Nat) : Res Int := do
  let m ← mobius p divisor
  let e ← divW level divisor
  let w ← fitS p (powInt (toSigned width) (toU32 e))
  let a ← fitS p (m * w)
  divS a (toSigned level)

/-- degree_range_map.rs:58-80 `hall_set_level_size_impl`. -/
def levelSizeImpl (p : Profile) (width level divisor : Nat) : Res Int := do
  let r ← remW level divisor
  let a ← if r = 0 then levelTerm p width level divisor else .ok 0
  let b ← if divisor < level then (do
      let d ← addW p 64 divisor 1
      levelSizeImpl p width level d) else .ok 0
  fitS p (a + b)
partial_fixpoint

/-- degree_range_map.rs:82-85 `hall_set_level_size`. -/
def levelSize (p : Profile) (width depth : Nat) : Res Nat := do
  let s ← levelSizeImpl p width depth 1
  .ok (toUnsigned s)

/-- degree_range_map.rs:87-103 `hall_set_size_impl`. -/
def sizeImpl (p : Profile) (width depth level : Nat) : Res Nat := do
  let a ← levelSize p width level
  let b ← if level < depth then (do
      let l ← addW p 64 level 1
      sizeImpl p width depth l) else .ok 0
  addW p 64 a b
partial_fixpoint

/-- degree_range_map.rs:105-112 `hall_set_size`. -/
def hallSetSize (p : Profile) (width depth : Nat) : Res Nat :=
  if depth = 0 then .ok 0 else sizeImpl p width depth 1

/-- degree_range_map.rs:121-126 `DegreeRangeMapError`. -/
inductive MapError where
  | mapIsEmpty
  | degreeOutOfBounds
deriving DecidableEq, Repr

/-- degree_range_map.rs:143 `DegreeRangeMap`, a vector of dimensions. -/
abbrev RangeMap := List Nat

/-- Pushing `hall_set_size(NLETTERS, d)` for the degrees of `L` (the loops at lines 150-152 and 167-169). -/
def pushSizes (p : Profile) (N : Nat) (m : RangeMap) (L : List Nat) : Res RangeMap :=
  L.foldlM (fun m d => do let s ← hallSetSize p N d; .ok (m ++ [s])) m

namespace RangeMap

/-- degree_range_map.rs:147-154 `new`. -/
def new (p : Profile) (N degree : Nat) : Res RangeMap := pushSizes p N [] (List.range degree)

/-- degree_range_map.rs:156-172 `grow` (it always returns `Ok(())`; reserving capacity has no other effect). -/
def grow (p : Profile) (N : Nat) (m : RangeMap) (requested : Nat) : Res RangeMap :=
  if requested < m.length then .ok m
  else pushSizes p N m (List.range' m.length (requested + 1 - m.length))

/-- degree_range_map.rs:174-181 `get`. -/
def get (m : RangeMap) (deg : Nat) : Except MapError Nat :=
  match m[deg]? with
  | some v => .ok v
  | none => .error .degreeOutOfBounds

/-- degree_range_map.rs:183-200 `find_deg`.  `partition_point` is the length of the longest prefix with `v <= key` (its value on a vector that is not
partitioned is unspecified by the standard library; the theorems only use it on non-decreasing ones).  The final cast to `u32` truncates. -/
def findDeg (m : RangeMap) (key : Nat) : Except MapError Nat :=
  match m.getLast? with
  | none => .error .mapIsEmpty
  | some last =>
    if last < key then .error .degreeOutOfBounds
    else .ok ((m.takeWhile (fun v => decide (v ≤ key))).length % 2 ^ 32)

end RangeMap

/-! ## hall_set.rs -/

/-- hall_set.rs:23-30 `HallSetError` (without `OtherError`, which is never constructed). -/
inductive SetError where
  | tooSmall
  | readError
  | writeError
deriving DecidableEq, Repr

/-- hall_set.rs:54-58 `From<DegreeRangeMapError>`. -/
def SetError.ofMapError : MapError → SetError := fun _ => .tooSmall

/-- hall_set.rs:128-137 `starting_size_for_width`. -/
def startingSize (letters : Nat) : Nat :=
  if letters = 2 then 30
  else if 3 ≤ letters ∧ letters ≤ 5 then 20
  else if 6 ≤ letters ∧ letters ≤ 10 then 8
  else if 11 ≤ letters ∧ letters ≤ 20 then 3
  else 2

/-- hall_set.rs:61 `ParentInfo`. -/
abbrev ParentInfo := Nat × Nat × Nat × Nat

/-- hall_set.rs:141-146 `HallSetInner` (the field `reverse` is never read or written after construction). -/
structure Inner where
  currentDegree : Nat
  set : List (Nat × Nat)
  degrees : RangeMap
deriving DecidableEq, Repr

namespace Inner

/-- hall_set.rs:150-157 `new`. -/
def new (p : Profile) (N : Nat) : Res Inner := do
  let degrees ← RangeMap.new p N (startingSize N)
  .ok { currentDegree := 0, set := [(0, 0)], degrees := degrees }

/-- hall_set.rs:160-163 `get_parents`. -/
def getParents (s : Inner) (key : Nat) : Option (Nat × Nat) := s.set[key]?

/-- hall_set.rs:165-168 `degree`. -/
def degree (s : Inner) (key : Nat) : Option Nat := (RangeMap.findDeg s.degrees key).toOption

/-- hall_set.rs:175-200, inherent `grow_up`: the body of the loop only increments the degree. -/
def growUp (p : Profile) (s : Inner) (newDegree : Nat) : Res Inner := do
  if s.currentDegree < newDegree then do
    let d ← addW p 32 s.currentDegree 1
    growUp p { s with currentDegree := d } newDegree
  else .ok s
partial_fixpoint

/-- `Option::unwrap`. -/
def unwrap (o : Option α) : Res α := match o with | some a => .ok a | none => .panic

/-- hall_set.rs:205-207 `is_letter`. -/
def isLetter (N key : Nat) : Except SetError Bool := .ok (decide (1 ≤ key ∧ key ≤ N))

/-- hall_set.rs:212-213 and 223-224: details of the parent `p`. -/
def detailsOf (s : Inner) (q : Nat) : Res ParentInfo := do
  let lr ← unwrap (s.getParents q)
  let d ← unwrap (s.degree q)
  .ok (q, lr.1, lr.2, d)

/-- hall_set.rs:209-218 `lparent_details`. -/
def lparentDetails (s : Inner) (key : Nat) : Res (Except SetError ParentInfo) :=
  match s.getParents key with
  | some (parent, _) => do let i ← s.detailsOf parent; .ok (.ok i)
  | none => .ok (.error .tooSmall)

/-- hall_set.rs:220-228 `rparent_details`. -/
def rparentDetails (s : Inner) (key : Nat) : Res (Except SetError ParentInfo) :=
  match s.getParents key with
  | some (_, parent) => do let i ← s.detailsOf parent; .ok (.ok i)
  | none => .ok (.error .tooSmall)

/-- hall_set.rs:230-236 `key_details`. -/
def keyDetails (s : Inner) (key : Nat) : Res (Except SetError ParentInfo) :=
  match s.getParents key with
  | some (l, r) => do let d ← unwrap (s.degree key); .ok (.ok (key, l, r, d))
  | none => .ok (.error .tooSmall)

/-- hall_set.rs:238-240, the `grow_up` of the trait: `todo!()`. -/
def traitGrowUp (_s : Inner) (_newDegree : Nat) : Res (Except SetError Inner) := .panic

/-- hall_set.rs:242-244 `degree_range`; `?` converts the error of the map. -/
def degreeRange (p : Profile) (s : Inner) (deg : Nat) : Res (Except SetError (Nat × Nat)) :=
  match RangeMap.get s.degrees deg with
  | .error e => .ok (.error (.ofMapError e))
  | .ok a => do
    let d ← addW p 32 deg 1
    match RangeMap.get s.degrees d with
    | .error e => .ok (.error (.ofMapError e))
    | .ok b => .ok (.ok (a, b))

end Inner

/-- hall_set.rs:76-77 `HallSetObject`: a hall set behind a `RwLock`, used by one thread at a time here.  A panic while the write guard is held poisons
the lock. -/
structure Obj where
  inner : Inner
  poisoned : Bool
deriving DecidableEq, Repr

namespace Obj

/-- hall_set.rs:89-111 and 119-123: an operation through a read guard. -/
def read (o : Obj) (op : Inner → Res (Except SetError α)) : Res (Except SetError α) :=
  if o.poisoned then .ok (.error .readError) else op o.inner

/-- hall_set.rs:113-117 `grow_up`: outcome of the call and the object afterwards. -/
def growUp (o : Obj) (newDegree : Nat) : Res (Except SetError Unit) × Obj :=
  if o.poisoned then (.ok (.error .writeError), o)
  else match o.inner.traitGrowUp newDegree with
    | .ok (.ok i) => (.ok (.ok ()), { o with inner := i })
    | .ok (.error e) => (.ok (.error e), o)
    | .panic => (.panic, { o with poisoned := true })
    | .ub => (.ub, o)
    | .diverge => (.diverge, o)

end Obj

/-! ## hall_key.rs: a `HallKey` is its `u64` -/

namespace Key

/-- hall_key.rs:11-17. -/
def keyBits : Nat := 18
def parentBits : Nat := 18
def sizeBits : Nat := 10
def lparentShift : Nat := keyBits
def rparentShift : Nat := keyBits + parentBits
def sizeShift : Nat := keyBits + 2 * parentBits

/-- hall_key.rs:28-31 `get_key`. -/
def getKey (p : Profile) (k : Nat) : Res Nat := do
  let m ← makeMask p keyBits 0
  .ok ((k &&& m) % 2 ^ 32)

/-- hall_key.rs:33-36 `get_lparent`. -/
def getLparent (p : Profile) (k : Nat) : Res Nat := do
  let m ← makeMask p parentBits lparentShift
  let x ← shrW p 64 (k &&& m) lparentShift
  .ok (x % 2 ^ 32)

/-- hall_key.rs:38-41 `get_rparent`. -/
def getRparent (p : Profile) (k : Nat) : Res Nat := do
  let m ← makeMask p parentBits rparentShift
  let x ← shrW p 64 (k &&& m) rparentShift
  .ok (x % 2 ^ 32)

/-- hall_key.rs:43-46 `size`. -/
def size (p : Profile) (k : Nat) : Res Nat := do
  let m ← makeMask p sizeBits sizeShift
  let x ← shrW p 64 (k &&& m) sizeShift
  .ok (x % 2 ^ 32)

/-- hall_key.rs:48-54 `make_key_data`. -/
def makeKeyData (p : Profile) (key lparent rparent sz : Nat) : Res Nat := do
  let msize ← shlW p 64 sz sizeShift
  let mlparent ← shlW p 64 lparent lparentShift
  let mrparent ← shlW p 64 rparent rparentShift
  let a ← addW p 64 key mlparent
  let a ← addW p 64 a mrparent
  addW p 64 a msize

/-- hall_key.rs:57-60 `new`. -/
def new : Nat := 0

/-- hall_key.rs:62-66 `from_letter`. -/
def fromLetter (p : Profile) (N letter : Nat) : Res Nat := do
  debugAssert p (decide (1 ≤ letter ∧ letter ≤ N))
  makeKeyData p letter 0 letter 1

/-- hall_key.rs:68-71 `is_valid`. -/
def isValid (k : Nat) : Bool := decide (k ≠ 0)

/-- hall_key.rs:73-76 `is_letter`. -/
def isLetter (p : Profile) (k : Nat) : Res Bool := do
  let s ← size p k
  .ok (decide (s = 1))

/-- hall_key.rs:78-81 `to_index`. -/
def toIndex (p : Profile) (k : Nat) : Res Nat := do
  let i ← getKey p k
  subW p 64 i 1

/-- hall_key.rs:86-88 and 94-97: `expect` the details and pack them. -/
def packDetails (p : Profile) (d : Except SetError ParentInfo) : Res Nat :=
  match d with
  | .ok (key, l, r, sz) => makeKeyData p key l r sz
  | .error _ => .panic

/-- hall_key.rs:83-89 `lparent`, once `get_hall_set` has returned `hs`. -/
def lparentWith (p : Profile) (hs : Obj) (k : Nat) : Res Nat := do
  let q ← getRparent p k
  let d ← hs.read (fun i => i.rparentDetails q)
  packDetails p d

/-- hall_key.rs:91-98 `parent`, once `get_hall_set` has returned `hs`. -/
def parentWith (p : Profile) (hs : Obj) (k : Nat) : Res Nat := do
  let q ← getRparent p k
  let d ← hs.read (fun i => i.rparentDetails q)
  packDetails p d

/-- A piece of the formatted output: text or a number. -/
inductive Piece where
  | text (s : String)
  | num (n : Nat)
deriving DecidableEq, Repr

/-- hall_key.rs:111-119 `Display`. -/
def display (p : Profile) (k : Nat) : Res (List Piece) := do
  if ← isLetter p k then do
    let i ← getKey p k
    .ok [.num i]
  else do
    let l ← getLparent p k
    let r ← getRparent p k
    .ok [.text "[", .num l, .text ", ", .num r, .text "]"]

end Key

end Hall
end RA
