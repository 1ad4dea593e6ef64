import Verif.Model.Hall

/-!
# `get_hall_set` (hall_set.rs:18-21 and 250-271) as a transition system

Any number of threads, indexed by `ι`, each run `get_hall_set::<width i>(pre_grow i)` once.  They share `HALL_SET_CACHE`, a `RwLock` around a map from widths to
hall set objects; an object is represented by a number that identifies its allocation.

The read guard of line 252 is a temporary of the scrutinee of an `if let`; the crate is of edition 2018, where such temporaries live until the end of the whole
`if let … else …` expression.  So a thread that misses still holds the read guard when it calls `write()` on line 266.

Simplifications: the lock cannot be poisoned (that needs a panic under the write guard, where nothing can panic except for want of memory); `lazy_static`
initialisation has happened.
-/

namespace RA.Hall.Cache

/-- Where a thread is in `get_hall_set`. -/
inductive Pc where
  /-- before line 252 -/
  | start
  /-- read guard held, about to look up (line 254) -/
  | reading
  /-- hit: read guard held, about to clone (line 255) and return -/
  | cloning (o : Nat)
  /-- miss: read guard held, in lines 257-263 -/
  | building
  /-- read guard held, calling `write()` (line 266) for the object built -/
  | writing (o : Nat)
  /-- both guards held, about to insert (line 267) -/
  | inserting (o : Nat)
  /-- read guard held, about to return (line 268) -/
  | leaving (o : Nat)
  | returned (o : Nat)
  | panicked
deriving DecidableEq

structure State (ι : Type) where
  pc : ι → Pc
  /-- which threads hold a read guard -/
  reader : ι → Bool
  /-- which thread holds the write guard -/
  writer : Option ι
  /-- the map under the lock -/
  cache : Nat → Option Nat
  /-- identity of the next object allocated -/
  next : Nat

variable {ι : Type} [DecidableEq ι]

/-- All threads before their call, with a given map. -/
def init (ι : Type) (cache : Nat → Option Nat) (next : Nat) : State ι :=
  { pc := fun _ => .start, reader := fun _ => false, writer := none, cache := cache, next := next }

/-- Set the program counter and the read guard of a thread. -/
def State.move (s : State ι) (i : ι) (pc : Pc) (r : Bool) : State ι :=
  { s with pc := fun j => if j = i then pc else s.pc j, reader := fun j => if j = i then r else s.reader j }

/-- hall_set.rs:257-263: build and grow a hall set. -/
def build (p : Profile) (N : Nat) (preGrow : Option Nat) : Res Inner := do
  let inner ← Inner.new p N
  match preGrow with
  | some d => inner.growUp p d
  | none => inner.growUp p 1

/-- One step of one thread.  `canRead` is the policy of the lock towards readers when no writer holds it (an implementation may refuse them while a writer
waits).  A thread whose `build` diverges, or whose lock request is not granted, makes no step. -/
inductive Step (p : Profile) (width : ι → Nat) (preGrow : ι → Option Nat) (canRead : State ι → ι → Prop) : State ι → State ι → Prop
  | read (s : State ι) (i : ι) (h : s.pc i = .start) (hw : s.writer = none) (hr : canRead s i) :
      Step p width preGrow canRead s (s.move i .reading true)
  | hit (s : State ι) (i : ι) (o : Nat) (h : s.pc i = .reading) (hc : s.cache (width i) = some o) :
      Step p width preGrow canRead s (s.move i (.cloning o) true)
  | clone (s : State ι) (i : ι) (o : Nat) (h : s.pc i = .cloning o) : Step p width preGrow canRead s (s.move i (.returned o) false)
  | miss (s : State ι) (i : ι) (h : s.pc i = .reading) (hc : s.cache (width i) = none) :
      Step p width preGrow canRead s (s.move i .building true)
  | built (s : State ι) (i : ι) (inner : Inner) (h : s.pc i = .building) (hb : build p (width i) (preGrow i) = .ok inner) :
      Step p width preGrow canRead s { s.move i (.writing s.next) true with next := s.next + 1 }
  | buildPanic (s : State ι) (i : ι) (h : s.pc i = .building) (hb : build p (width i) (preGrow i) = .panic) :
      Step p width preGrow canRead s (s.move i .panicked false)
  | write (s : State ι) (i : ι) (o : Nat) (h : s.pc i = .writing o) (hw : s.writer = none) (hr : ∀ j, s.reader j = false) :
      Step p width preGrow canRead s { s.move i (.inserting o) (s.reader i) with writer := some i }
  /-- `RwLock::write` "might panic when called if the lock is already held by the current thread". -/
  | writePanic (s : State ι) (i : ι) (o : Nat) (h : s.pc i = .writing o) (hr : s.reader i = true) :
      Step p width preGrow canRead s (s.move i .panicked false)
  | insert (s : State ι) (i : ι) (o : Nat) (h : s.pc i = .inserting o) :
      Step p width preGrow canRead s
        { s.move i (.leaving o) (s.reader i) with writer := none, cache := fun w => if w = width i then some o else s.cache w }
  | leave (s : State ι) (i : ι) (o : Nat) (h : s.pc i = .leaving o) : Step p width preGrow canRead s (s.move i (.returned o) false)

/-- Any number of steps. -/
inductive Reach (p : Profile) (width : ι → Nat) (preGrow : ι → Option Nat) (canRead : State ι → ι → Prop) : State ι → State ι → Prop
  | refl (s : State ι) : Reach p width preGrow canRead s s
  | tail {s t u : State ι} : Reach p width preGrow canRead s t → Step p width preGrow canRead t u → Reach p width preGrow canRead s u

end RA.Hall.Cache
