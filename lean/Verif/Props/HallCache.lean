import Verif.Model.HallCache
import Verif.Proofs.HallSize

/-!
# C46: `get_hall_set` under every schedule
-/

namespace RA.Hall.Cache
variable {ι : Type} [DecidableEq ι]

/-- The read guard is held exactly between taking it and returning. -/
def HoldsGuard : Pc → Prop
  | .reading | .cloning _ | .building | .writing _ => True
  | _ => False

/-- What holds in every state reached from `init` with the map `c0`. -/
structure Inv (width : ι → Nat) (c0 : Nat → Option Nat) (s : State ι) : Prop where
  writer : s.writer = none
  cache : s.cache = c0
  guard : ∀ i, s.reader i = true ↔ HoldsGuard (s.pc i)
  noInsert : ∀ i o, s.pc i ≠ .inserting o
  noLeave : ∀ i o, s.pc i ≠ .leaving o
  cloning : ∀ i o, s.pc i = .cloning o → c0 (width i) = some o
  returned : ∀ i o, s.pc i = .returned o → c0 (width i) = some o
  building : ∀ i, s.pc i = .building → c0 (width i) = none
  writing : ∀ i o, s.pc i = .writing o → c0 (width i) = none
  panicked : ∀ i, s.pc i = .panicked → c0 (width i) = none

theorem inv_move {width : ι → Nat} {c0 : Nat → Option Nat} {s : State ι} (h : Inv width c0 s) (i : ι) (pc : Pc) (r : Bool)
    (hg : r = true ↔ HoldsGuard pc) (hi : ∀ o, pc ≠ .inserting o) (hl : ∀ o, pc ≠ .leaving o) (hc : ∀ o, pc = .cloning o → c0 (width i) = some o)
    (hr : ∀ o, pc = .returned o → c0 (width i) = some o) (hb : pc = .building → c0 (width i) = none)
    (hw : ∀ o, pc = .writing o → c0 (width i) = none) (hp : pc = .panicked → c0 (width i) = none) : Inv width c0 (s.move i pc r) where
  writer := h.writer
  cache := h.cache
  guard := fun j => by
    by_cases e : j = i
    · subst e; simpa [State.move] using hg
    · simpa [State.move, e] using h.guard j
  noInsert := fun j o => by
    by_cases e : j = i
    · subst e; simpa [State.move] using hi o
    · simpa [State.move, e] using h.noInsert j o
  noLeave := fun j o => by
    by_cases e : j = i
    · subst e; simpa [State.move] using hl o
    · simpa [State.move, e] using h.noLeave j o
  cloning := fun j o => by
    by_cases e : j = i
    · subst e; simpa [State.move] using hc o
    · simpa [State.move, e] using h.cloning j o
  returned := fun j o => by
    by_cases e : j = i
    · subst e; simpa [State.move] using hr o
    · simpa [State.move, e] using h.returned j o
  building := fun j => by
    by_cases e : j = i
    · subst e; simpa [State.move] using hb
    · simpa [State.move, e] using h.building j
  writing := fun j o => by
    by_cases e : j = i
    · subst e; simpa [State.move] using hw o
    · simpa [State.move, e] using h.writing j o
  panicked := fun j => by
    by_cases e : j = i
    · subst e; simpa [State.move] using hp
    · simpa [State.move, e] using h.panicked j

omit [DecidableEq ι] in
theorem inv_init (width : ι → Nat) (c0 : Nat → Option Nat) (next : Nat) : Inv width c0 (init ι c0 next) := by
  constructor <;> simp [init, HoldsGuard]

theorem inv_step {p : Profile} {width : ι → Nat} {preGrow : ι → Option Nat} {canRead : State ι → ι → Prop} {c0 : Nat → Option Nat} {s t : State ι}
    (h : Inv width c0 s) (hs : Step p width preGrow canRead s t) : Inv width c0 t := by
  cases hs with
  | read i hi hw hr => exact inv_move h i _ _ (by simp [HoldsGuard]) (by simp) (by simp) (by simp) (by simp) (by simp) (by simp) (by simp)
  | hit i o hi hc =>
    rw [h.cache] at hc
    exact inv_move h i _ _ (by simp [HoldsGuard]) (by simp) (by simp) (by simpa using hc) (by simp) (by simp) (by simp) (by simp)
  | clone i o hi =>
    have := h.cloning i o hi
    exact inv_move h i _ _ (by simp [HoldsGuard]) (by simp) (by simp) (by simp) (by simpa using this) (by simp) (by simp) (by simp)
  | miss i hi hc =>
    rw [h.cache] at hc
    exact inv_move h i _ _ (by simp [HoldsGuard]) (by simp) (by simp) (by simp) (by simp) (fun _ => hc) (by simp) (by simp)
  | built i inner hi hb =>
    have h1 := inv_move h i (.writing s.next) true (by simp [HoldsGuard]) (by simp) (by simp) (by simp) (by simp) (by simp)
      (fun _ _ => h.building i hi) (by simp)
    exact ⟨h1.writer, h1.cache, h1.guard, h1.noInsert, h1.noLeave, h1.cloning, h1.returned, h1.building, h1.writing, h1.panicked⟩
  | buildPanic i hi hb =>
    exact inv_move h i _ _ (by simp [HoldsGuard]) (by simp) (by simp) (by simp) (by simp) (by simp) (by simp) (fun _ => h.building i hi)
  | write i o hi hw hr =>
    have := (h.guard i).2 (by rw [hi]; trivial)
    rw [hr i] at this
    cases this
  | writePanic i o hi hr =>
    exact inv_move h i _ _ (by simp [HoldsGuard]) (by simp) (by simp) (by simp) (by simp) (by simp) (by simp) (fun _ => h.writing i o hi)
  | insert i o hi => exact absurd hi (h.noInsert i o)
  | leave i o hi => exact absurd hi (h.noLeave i o)

theorem inv_reach {p : Profile} {width : ι → Nat} {preGrow : ι → Option Nat} {canRead : State ι → ι → Prop} {c0 : Nat → Option Nat} {s t : State ι}
    (h : Inv width c0 s) (hr : Reach p width preGrow canRead s t) : Inv width c0 t := by
  induction hr with
  | refl => exact h
  | tail _ hs ih => exact inv_step ih hs

end RA.Hall.Cache

namespace RA
open Hall Hall.Cache

section
variable {ι : Type} [DecidableEq ι]
variable (p : Profile) (width : ι → Nat) (preGrow : ι → Option Nat) (canRead : State ι → ι → Prop)

/-- C46, full statement, in a weak form of liveness: from the state of a fresh program, whatever has happened, every thread can still return; and threads
asking for the same width get the same object. -/
def C46_get_hall_set_full : Prop :=
  ∀ s, Reach p width preGrow canRead (init ι (fun _ => none) 0) s →
    (∀ i, ∃ t o, Reach p width preGrow canRead s t ∧ t.pc i = .returned o) ∧
    (∀ i j o o', width i = width j → s.pc i = .returned o → s.pc j = .returned o' → o = o')

/-- C46.  In every execution, for any number of threads, any schedule and any policy of the lock: the cache never changes, and a thread returns only
what was in the cache to begin with. -/
theorem C46_cache_never_changes (c0 : Nat → Option Nat) (next : Nat) (s : State ι) (h : Reach p width preGrow canRead (init ι c0 next) s) :
    s.cache = c0 ∧ ∀ i o, s.pc i = .returned o → c0 (width i) = some o :=
  ⟨(inv_reach (inv_init width c0 next) h).cache, (inv_reach (inv_init width c0 next) h).returned⟩

/-- Three threads and two widths, one of them cached: the hypotheses after two steps of thread 1. -/
example (p : Profile) : ∃ s : State (Fin 3), Reach p (fun i => i.val) (fun _ => none) (fun _ _ => True) (init (Fin 3) (fun w => if w = 1 then some 7 else none) 8) s ∧
    s.pc 1 = .returned 7 ∧ s.cache 1 = some 7 := by
  have h : Reach p (fun i : Fin 3 => i.val) (fun _ => none) (fun _ _ => True) (init (Fin 3) (fun w => if w = 1 then some 7 else none) 8) _ :=
    .tail (.tail (.tail (.refl _) (.read _ 1 rfl rfl trivial)) (.hit _ 1 7 (by simp [State.move]) rfl)) (.clone _ 1 7 (by simp [State.move]))
  refine ⟨_, h, by simp [State.move], ?_⟩
  rw [(C46_cache_never_changes p _ _ _ _ _ _ h).1]
  rfl

/-- C46.  In a fresh program no call of `get_hall_set` ever returns. -/
theorem C46_never_returns (next : Nat) (s : State ι) (h : Reach p width preGrow canRead (init ι (fun _ => none) next) s) (i : ι) (o : Nat) :
    s.pc i ≠ .returned o := fun hr => by
  cases (C46_cache_never_changes p width preGrow canRead _ next s h).2 i o hr

example (p : Profile) (s : State Nat) (h : Reach p (fun i => i % 5) (fun _ => some 3) (fun _ _ => True) (init Nat (fun _ => none) 0) s) (i o : Nat) :
    s.pc i ≠ .returned o := C46_never_returns p _ _ _ 0 s h i o

/-- C46 is false as soon as there is a thread. -/
theorem C46_get_hall_set_refuted (i : ι) : ¬ C46_get_hall_set_full p width preGrow canRead := by
  intro hf
  obtain ⟨t, o, hr, ht⟩ := (hf _ (.refl _)).1 i
  exact C46_never_returns p width preGrow canRead 0 t hr i o ht

example (p : Profile) : ¬ C46_get_hall_set_full p (fun i : Fin 2 => i.val + 1) (fun _ => none) (fun _ _ => True) :=
  C46_get_hall_set_refuted p _ _ _ 0

/-- C46.  A thread that asks for a width which is not in the cache is stuck for good, or panics: once it waits for the write lock, no other thread and no
schedule can let it in. -/
theorem C46_write_never_granted (c0 : Nat → Option Nat) (next : Nat) (s : State ι) (h : Reach p width preGrow canRead (init ι c0 next) s) (i : ι) (o : Nat)
    (hi : s.pc i = .writing o) (t : State ι) (ht : Reach p width preGrow canRead s t) : t.pc i = .writing o ∨ t.pc i = .panicked := by
  have hs := inv_reach (inv_init width c0 next) h
  induction ht with
  | refl => exact .inl hi
  | tail hst hstep ih =>
    rename_i u v
    have hu := inv_reach hs hst
    have key : ∀ j pc r, (j = i → pc = .writing o ∨ pc = .panicked) → (u.move j pc r).pc i = .writing o ∨ (u.move j pc r).pc i = .panicked := by
      intro j pc r hj
      by_cases e : i = j
      · subst e; simpa [State.move] using hj rfl
      · simpa [State.move, e] using ih
    cases hstep with
    | read j hj _ _ => exact key j _ _ (fun e => by subst e; rw [hj] at ih; simp at ih)
    | hit j _ hj _ => exact key j _ _ (fun e => by subst e; rw [hj] at ih; simp at ih)
    | clone j _ hj => exact key j _ _ (fun e => by subst e; rw [hj] at ih; simp at ih)
    | miss j hj _ => exact key j _ _ (fun e => by subst e; rw [hj] at ih; simp at ih)
    | built j _ hj _ => exact key j _ true (fun e => by subst e; rw [hj] at ih; simp at ih)
    | buildPanic j hj _ => exact key j _ _ (fun e => .inr rfl)
    | write j o' hj _ hr =>
      have := (hu.guard j).2 (by rw [hj]; trivial)
      rw [hr j] at this
      cases this
    | writePanic j _ hj _ => exact key j _ _ (fun e => .inr rfl)
    | insert j o' hj => exact absurd hj (hu.noInsert j o')
    | leave j o' hj => exact absurd hj (hu.noLeave j o')

/-- C46.  With a lock that does not admit readers while a writer waits, a thread waiting for the write lock stops everyone: as long as it waits, no call that has not
begun to read yet makes any progress, whatever width it asks for and whether or not that width is in the cache. -/
theorem C46_waiting_writer_stops_all (hpref : ∀ (s : State ι) (i : ι), canRead s i → ∀ j o, s.pc j ≠ .writing o) (c0 : Nat → Option Nat) (next : Nat) (s : State ι)
    (h : Reach p width preGrow canRead (init ι c0 next) s) (i : ι) (o : Nat) (hi : s.pc i = .writing o) (t : State ι) (ht : Reach p width preGrow canRead s t)
    (hti : t.pc i = .writing o) (j : ι) (hj : s.pc j = .start) : t.pc j = .start := by
  induction ht with
  | refl => exact hj
  | tail hst hstep ih =>
    rename_i u v
    have hui : u.pc i = .writing o := by
      refine (C46_write_never_granted p width preGrow canRead c0 next s h i o hi u hst).resolve_right fun hp => ?_
      have stay : ∀ k pc r, u.pc k ≠ .panicked → (u.move k pc r).pc i = .panicked := by
        intro k pc r hk
        have : i ≠ k := fun e => hk (e ▸ hp)
        simp [State.move, this, hp]
      have : v.pc i = .panicked := by
        cases hstep with
        | read k hk _ _ => exact stay k _ _ (by simp [hk])
        | hit k _ hk _ => exact stay k _ _ (by simp [hk])
        | clone k _ hk => exact stay k _ _ (by simp [hk])
        | miss k hk _ => exact stay k _ _ (by simp [hk])
        | built k _ hk _ => exact stay k _ true (by simp [hk])
        | buildPanic k hk _ => exact stay k _ _ (by simp [hk])
        | write k _ hk _ _ => exact stay k _ (u.reader k) (by simp [hk])
        | writePanic k _ hk _ => exact stay k _ _ (by simp [hk])
        | insert k _ hk => exact stay k _ (u.reader k) (by simp [hk])
        | leave k _ hk => exact stay k _ _ (by simp [hk])
      rw [hti] at this
      cases this
    have huj := ih hui
    have stay : ∀ k pc r, u.pc k ≠ .start → (u.move k pc r).pc j = .start := by
      intro k pc r hk
      have : j ≠ k := fun e => hk (e ▸ huj)
      simp [State.move, this, huj]
    cases hstep with
    | read k _ _ hc => exact absurd hui (hpref u k hc i o)
    | hit k _ hk _ => exact stay k _ _ (by simp [hk])
    | clone k _ hk => exact stay k _ _ (by simp [hk])
    | miss k hk _ => exact stay k _ _ (by simp [hk])
    | built k _ hk _ => exact stay k _ true (by simp [hk])
    | buildPanic k hk _ => exact stay k _ _ (by simp [hk])
    | write k _ hk _ _ => exact stay k _ (u.reader k) (by simp [hk])
    | writePanic k _ hk _ => exact stay k _ _ (by simp [hk])
    | insert k _ hk => exact stay k _ (u.reader k) (by simp [hk])
    | leave k _ hk => exact stay k _ _ (by simp [hk])

/-- C46, the agreement half, which holds: in any execution from any cache, two threads that return for the same width return the same object. -/
theorem C46_agreement_partial (c0 : Nat → Option Nat) (next : Nat) (s : State ι) (h : Reach p width preGrow canRead (init ι c0 next) s) (i j : ι)
    (o o' : Nat) (hw : width i = width j) (hi : s.pc i = .returned o) (hj : s.pc j = .returned o') : o = o' := by
  have hc := (C46_cache_never_changes p width preGrow canRead c0 next s h).2
  have h1 := hc i o hi
  have h2 := hc j o' hj
  rw [hw, h2] at h1
  exact (Option.some.inj h1).symm

example (p : Profile) (s : State Nat) (o o' : Nat)
    (h : Reach p (fun i => i % 5) (fun _ => none) (fun _ _ => True) (init Nat (fun w => some (w + 1)) 9) s) (h1 : s.pc 1 = .returned o)
    (h6 : s.pc 6 = .returned o') : o = o' := C46_agreement_partial p _ _ _ _ 9 s h 1 6 o o' rfl h1 h6

theorem reach_trans {s t u : State ι} (h1 : Reach p width preGrow canRead s t) (h2 : Reach p width preGrow canRead t u) :
    Reach p width preGrow canRead s u := by
  induction h2 with
  | refl => exact h1
  | tail _ hs ih => exact .tail ih hs

/-- C46, the liveness half where it holds: if every width asked for is in the cache from the start, then every thread can always finish, whatever has
happened, and with the cached object; the lock only has to admit readers when no thread is waiting to write.  Missing: how a width gets into the cache, which
is impossible (`C46_cache_never_changes`). -/
theorem C46_hit_returns_partial (c0 : Nat → Option Nat) (next : Nat) (hc0 : ∀ i, ∃ o, c0 (width i) = some o)
    (hcan : ∀ s : State ι, ∀ i, (∀ j o, s.pc j ≠ .writing o) → canRead s i)
    (s : State ι) (h : Reach p width preGrow canRead (init ι c0 next) s) (i : ι) :
    ∃ t o, Reach p width preGrow canRead s t ∧ t.pc i = .returned o ∧ c0 (width i) = some o := by
  have hinv := inv_reach (inv_init width c0 next) h
  obtain ⟨o, ho⟩ := hc0 i
  have hclone : ∀ u : State ι, u.pc i = .cloning o → ∃ t, Reach p width preGrow canRead u t ∧ t.pc i = .returned o := fun u hu =>
    ⟨u.move i (.returned o) false, .tail (.refl u) (.clone u i o hu), by simp [State.move]⟩
  have hread : ∀ u : State ι, u.cache = c0 → u.pc i = .reading → ∃ t, Reach p width preGrow canRead u t ∧ t.pc i = .returned o := fun u hc hu => by
    obtain ⟨t, ht, hp⟩ := hclone (u.move i (.cloning o) true) (by simp [State.move])
    exact ⟨t, reach_trans p width preGrow canRead (.tail (.refl u) (.hit u i o hu (by rw [hc]; exact ho))) ht, hp⟩
  cases hpc : s.pc i with
  | start =>
    obtain ⟨t, ht, hp⟩ := hread (s.move i .reading true) hinv.cache (by simp [State.move])
    refine ⟨t, o, reach_trans p width preGrow canRead (.tail (.refl s) (.read s i hpc hinv.writer (hcan s i fun j o' hj => ?_))) ht, hp, ho⟩
    obtain ⟨o2, h2⟩ := hc0 j
    rw [hinv.writing j o' hj] at h2
    cases h2
  | reading =>
    obtain ⟨t, ht, hp⟩ := hread s hinv.cache hpc
    exact ⟨t, o, ht, hp, ho⟩
  | cloning o' =>
    have := hinv.cloning i o' hpc
    rw [ho] at this
    cases this
    obtain ⟨t, ht, hp⟩ := hclone s hpc
    exact ⟨t, o, ht, hp, ho⟩
  | building => rw [hinv.building i hpc] at ho; cases ho
  | writing o' => rw [hinv.writing i o' hpc] at ho; cases ho
  | inserting o' => exact absurd hpc (hinv.noInsert i o')
  | leaving o' => exact absurd hpc (hinv.noLeave i o')
  | returned o' => exact ⟨s, o', .refl s, hpc, hinv.returned i o' hpc⟩
  | panicked => rw [hinv.panicked i hpc] at ho; cases ho

end

end RA
