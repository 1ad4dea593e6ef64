import Verif.Model.Hall

/-!
# `HallSetObject` shared by several threads (hall_set.rs:76-124) as a transition system

Clones of a `HallSetObject` share one `RwLock` (`Arc`).  Any number of threads, indexed by `ι`, each run a list of operations on it.  Every method takes a
guard on its first line and holds it to its end: lookups a read guard, `grow_up` the write guard.  `read()`/`write()` of a poisoned lock is an `Err`,
which becomes `HallSetReadError`/`HallSetWriteError`; a panic under the write guard poisons the lock, one under a read guard does not.  A thread that
panics runs no further operation.

`grow` is the `grow_up` of the hall set behind the lock (`Inner.traitGrowUp` in the crate); it is a parameter so that the theorems also cover an
implemented one.  The policy of the lock towards readers is a parameter, as in `Model/HallCache.lean`.
-/

namespace RA.Hall.Shared

/-- The methods of the trait `HallSet` (hall_set.rs:65-74). -/
inductive Op where
  | isLetter (key : Nat)
  | lparent (key : Nat)
  | rparent (key : Nat)
  | key (key : Nat)
  | degreeRange (deg : Nat)
  | growUp (deg : Nat)
deriving DecidableEq, Repr

inductive Answer where
  | bool (b : Bool)
  | info (i : ParentInfo)
  | range (a b : Nat)
  | unit
deriving DecidableEq, Repr

/-- What a call gives: a `Result`, or a panic. -/
abbrev Outcome := Res (Except SetError Answer)

def Op.isGrow : Op → Bool
  | .growUp _ => true
  | _ => false

/-- The lookups of `HallSetInner` (hall_set.rs:204-244), under the read guard. -/
def lookup (p : Profile) (N : Nat) (s : Inner) : Op → Outcome
  | .isLetter k => .ok ((Inner.isLetter N k).map .bool)
  | .lparent k => do return (← s.lparentDetails k).map .info
  | .rparent k => do return (← s.rparentDetails k).map .info
  | .key k => do return (← s.keyDetails k).map .info
  | .degreeRange d => do return (← s.degreeRange p d).map fun r => .range r.1 r.2
  | .growUp _ => .panic

/-- Where a thread is; `rest` are the operations it has not started. -/
inductive Pc where
  | ready (rest : List Op)
  /-- in a lookup, read guard held -/
  | reading (op : Op) (rest : List Op)
  /-- in `grow_up`, write guard held -/
  | writing (deg : Nat) (rest : List Op)
  /-- the thread has panicked -/
  | dead (rest : List Op)

structure State (ι : Type) where
  pc : ι → Pc
  inner : Inner
  poisoned : Bool
  /-- finished calls in the order in which they finished -/
  log : List (ι × Op × Outcome)

variable {ι : Type} [DecidableEq ι]

def init (script : ι → List Op) (o : Obj) : State ι := { pc := fun i => .ready (script i), inner := o.inner, poisoned := o.poisoned, log := [] }

/-- No thread holds the write guard. -/
def State.noWriter (s : State ι) : Prop := ∀ i d rest, s.pc i ≠ .writing d rest

/-- No thread holds a read guard. -/
def State.noReader (s : State ι) : Prop := ∀ i op rest, s.pc i ≠ .reading op rest

def State.setPc (s : State ι) (i : ι) (pc : Pc) : State ι := { s with pc := fun j => if j = i then pc else s.pc j }

/-- Where a thread goes after a call: on, or to its end if the call panicked. -/
def afterCall (rest : List Op) : Outcome → Pc
  | .ok _ => .ready rest
  | _ => .dead rest

/-- The call of a thread finishes. -/
def State.finish (s : State ι) (i : ι) (op : Op) (out : Outcome) (rest : List Op) : State ι :=
  { s.setPc i (afterCall rest out) with log := s.log ++ [(i, op, out)] }

/-- One step of one thread. -/
inductive Step (p : Profile) (N : Nat) (grow : Inner → Nat → Res (Except SetError Inner)) (canRead : State ι → ι → Prop) : State ι → State ι → Prop
  /-- hall_set.rs:90-91 etc.: `read()` is granted -/
  | readEnter (s : State ι) (i : ι) (op : Op) (rest : List Op) (h : s.pc i = .ready (op :: rest)) (hop : op.isGrow = false) (hw : s.noWriter)
      (hr : canRead s i) (hp : s.poisoned = false) : Step p N grow canRead s (s.setPc i (.reading op rest))
  /-- `read()` is granted on a poisoned lock -/
  | readPoison (s : State ι) (i : ι) (op : Op) (rest : List Op) (h : s.pc i = .ready (op :: rest)) (hop : op.isGrow = false) (hw : s.noWriter)
      (hr : canRead s i) (hp : s.poisoned = true) : Step p N grow canRead s (s.finish i op (.ok (.error .readError)) rest)
  /-- hall_set.rs:92 etc.: the lookup is done and the guard dropped -/
  | readDone (s : State ι) (i : ι) (op : Op) (rest : List Op) (h : s.pc i = .reading op rest) (hd : lookup p N s.inner op ≠ .diverge) :
      Step p N grow canRead s (s.finish i op (lookup p N s.inner op) rest)
  /-- hall_set.rs:114-115: `write()` is granted -/
  | writeEnter (s : State ι) (i : ι) (d : Nat) (rest : List Op) (h : s.pc i = .ready (.growUp d :: rest)) (hw : s.noWriter) (hr : s.noReader)
      (hp : s.poisoned = false) : Step p N grow canRead s (s.setPc i (.writing d rest))
  /-- `write()` is granted on a poisoned lock -/
  | writePoison (s : State ι) (i : ι) (d : Nat) (rest : List Op) (h : s.pc i = .ready (.growUp d :: rest)) (hw : s.noWriter) (hr : s.noReader)
      (hp : s.poisoned = true) : Step p N grow canRead s (s.finish i (.growUp d) (.ok (.error .writeError)) rest)
  /-- hall_set.rs:116: `grow_up` of the hall set returns -/
  | writeOk (s : State ι) (i : ι) (d : Nat) (rest : List Op) (inner : Inner) (h : s.pc i = .writing d rest) (hg : grow s.inner d = .ok (.ok inner)) :
      Step p N grow canRead s { s.finish i (.growUp d) (.ok (.ok .unit)) rest with inner := inner }
  | writeErr (s : State ι) (i : ι) (d : Nat) (rest : List Op) (e : SetError) (h : s.pc i = .writing d rest) (hg : grow s.inner d = .ok (.error e)) :
      Step p N grow canRead s (s.finish i (.growUp d) (.ok (.error e)) rest)
  /-- it panics: the guard is dropped while the thread unwinds, which poisons the lock -/
  | writePanic (s : State ι) (i : ι) (d : Nat) (rest : List Op) (h : s.pc i = .writing d rest) (hg : grow s.inner d = .panic) :
      Step p N grow canRead s { s.finish i (.growUp d) .panic rest with poisoned := true }

/-- Any number of steps. -/
inductive Reach (p : Profile) (N : Nat) (grow : Inner → Nat → Res (Except SetError Inner)) (canRead : State ι → ι → Prop) : State ι → State ι → Prop
  | refl (s : State ι) : Reach p N grow canRead s s
  | tail {s t u : State ι} : Reach p N grow canRead s t → Step p N grow canRead t u → Reach p N grow canRead s u

end RA.Hall.Shared
