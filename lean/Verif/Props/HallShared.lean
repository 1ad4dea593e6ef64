import Verif.Props.HallObject
import Mathlib.Algebra.Order.BigOperators.Group.Finset
import Mathlib.Data.Fintype.BigOperators

/-!
# Hall set objects shared by threads: mutual exclusion and termination (C75)
-/

namespace RA
open Hall Hall.Shared

variable {ι : Type} [DecidableEq ι]

/-- C75.  While a thread is inside `grow_up` no other thread is inside a call on the same set. -/
theorem C75_exclusion (p : Profile) (N : Nat) (grow : Inner → Nat → Res (Except SetError Inner)) (canRead : State ι → ι → Prop) (script : ι → List Op) (o : Obj)
    (s : State ι) (h : Reach p N grow canRead (init script o) s) (i : ι) (d : Nat) (rest : List Op) (hi : s.pc i = .writing d rest) (j : ι) (hj : j ≠ i) :
    (∃ r, s.pc j = .ready r) ∨ ∃ r, s.pc j = .dead r := by
  have inv := sharedInv_reach p N grow canRead script o s h
  cases hpc : s.pc j with
  | ready r => exact .inl ⟨r, rfl⟩
  | dead r => exact .inr ⟨r, rfl⟩
  | reading op r => exact absurd hi ((inv.reading j op r hpc).2.1 i d rest)
  | writing d' r => exact absurd ((inv.writing i d rest hi).2 j d' r hpc) hj

/-- The steps a thread has left at most: two for a call that has not started, one for a call under way. -/
def stepsLeft : Pc → Nat
  | .ready rest => 2 * rest.length
  | .reading _ rest => 2 * rest.length + 1
  | .writing _ rest => 2 * rest.length + 1
  | .dead _ => 0

theorem stepsLeft_after (rest : List Op) (out : Outcome) : stepsLeft (afterCall rest out) ≤ 2 * rest.length := by
  cases out with
  | ok x => exact Nat.le_refl _
  | _ => exact Nat.zero_le _

theorem stepsLeft_step (p : Profile) (N : Nat) (grow : Inner → Nat → Res (Except SetError Inner)) (canRead : State ι → ι → Prop) (s t : State ι)
    (h : Step p N grow canRead s t) : ∃ i, stepsLeft (t.pc i) < stepsLeft (s.pc i) ∧ ∀ j, j ≠ i → t.pc j = s.pc j := by
  have fin : ∀ (i : ι) (op : Op) (out : Outcome) (rest : List Op), 2 * rest.length < stepsLeft (s.pc i) →
      ∃ k, stepsLeft ((s.finish i op out rest).pc k) < stepsLeft (s.pc k) ∧ ∀ j, j ≠ k → (s.finish i op out rest).pc j = s.pc j := by
    intro i op out rest hi
    refine ⟨i, ?_, fun j hj => if_neg hj⟩
    rw [show (s.finish i op out rest).pc i = afterCall rest out from if_pos rfl]
    exact Nat.lt_of_le_of_lt (stepsLeft_after rest out) hi
  have ent : ∀ (i : ι) (pc : Pc), stepsLeft pc < stepsLeft (s.pc i) →
      ∃ k, stepsLeft ((s.setPc i pc).pc k) < stepsLeft (s.pc k) ∧ ∀ j, j ≠ k → (s.setPc i pc).pc j = s.pc j := by
    intro i pc hi
    refine ⟨i, ?_, fun j hj => if_neg hj⟩
    rw [show (s.setPc i pc).pc i = pc from if_pos rfl]
    exact hi
  cases h with
  | readEnter i op rest hi => exact ent i _ (by rw [hi]; simp only [stepsLeft, List.length_cons]; omega)
  | readPoison i op rest hi => exact fin i _ _ _ (by rw [hi]; simp only [stepsLeft, List.length_cons]; omega)
  | readDone i op rest hi => exact fin i _ _ _ (by rw [hi]; simp only [stepsLeft]; omega)
  | writeEnter i d rest hi => exact ent i _ (by rw [hi]; simp only [stepsLeft, List.length_cons]; omega)
  | writePoison i d rest hi => exact fin i _ _ _ (by rw [hi]; simp only [stepsLeft, List.length_cons]; omega)
  | writeOk i d rest inner hi => exact fin i (.growUp d) (.ok (.ok .unit)) rest (by rw [hi]; simp only [stepsLeft]; omega)
  | writeErr i d rest e hi => exact fin i _ _ _ (by rw [hi]; simp only [stepsLeft]; omega)
  | writePanic i d rest hi => exact fin i (.growUp d) .panic rest (by rw [hi]; simp only [stepsLeft]; omega)

/-- A run of `n` steps. -/
inductive ReachIn (p : Profile) (N : Nat) (grow : Inner → Nat → Res (Except SetError Inner)) (canRead : State ι → ι → Prop) : Nat → State ι → State ι → Prop
  | refl (s : State ι) : ReachIn p N grow canRead 0 s s
  | tail {n : Nat} {s t u : State ι} : ReachIn p N grow canRead n s t → Step p N grow canRead t u → ReachIn p N grow canRead (n + 1) s u

theorem ReachIn.reach {p : Profile} {N : Nat} {grow : Inner → Nat → Res (Except SetError Inner)} {canRead : State ι → ι → Prop} {n : Nat} {s t : State ι}
    (h : ReachIn p N grow canRead n s t) : Reach p N grow canRead s t := by
  induction h with
  | refl => exact .refl _
  | tail _ st ih => exact .tail ih st

theorem stepsLeft_sum [Fintype ι] (p : Profile) (N : Nat) (grow : Inner → Nat → Res (Except SetError Inner)) (canRead : State ι → ι → Prop) (s t : State ι)
    (h : Step p N grow canRead s t) : ∑ i, stepsLeft (t.pc i) < ∑ i, stepsLeft (s.pc i) := by
  obtain ⟨i, hi, ho⟩ := stepsLeft_step p N grow canRead s t h
  refine Finset.sum_lt_sum (fun j _ => ?_) ⟨i, Finset.mem_univ i, hi⟩
  by_cases hj : j = i
  · rw [hj]; exact hi.le
  · rw [ho j hj]

/-- C75.  Every run ends: finitely many threads make at most two steps for each of their calls, under every schedule. -/
theorem C75_run_length [Fintype ι] (p : Profile) (N : Nat) (grow : Inner → Nat → Res (Except SetError Inner)) (canRead : State ι → ι → Prop) (script : ι → List Op)
    (o : Obj) (n : Nat) (s : State ι) (h : ReachIn p N grow canRead n (init script o) s) : n ≤ 2 * ∑ i, (script i).length := by
  have key : ∀ n (a s : State ι), ReachIn p N grow canRead n a s → n + ∑ i, stepsLeft (s.pc i) ≤ ∑ i, stepsLeft (a.pc i) := by
    intro n a s h
    induction h with
    | refl => omega
    | tail _ st ih =>
      have := stepsLeft_sum p N grow canRead _ _ st
      omega
  have := key n _ s h
  rw [Finset.mul_sum]
  exact Nat.le_trans (Nat.le_add_right _ _) this

/-- A run can be continued until every thread has panicked or has no calls left. -/
theorem reach_final [Fintype ι] (p : Profile) (N : Nat) (grow : Inner → Nat → Res (Except SetError Inner)) (canRead : State ι → ι → Prop) (script : ι → List Op)
    (o : Obj) (hg : ∀ i d, grow i d ≠ .diverge ∧ grow i d ≠ .ub)
    (hpol : ∀ (t : State ι) i, (∀ j d rest, t.pc j ≠ .ready (.growUp d :: rest)) → canRead t i) (m : Nat) (s : State ι) (hm : ∑ i, stepsLeft (s.pc i) = m)
    (h : Reach p N grow canRead (init script o) s) :
    ∃ t, Reach p N grow canRead s t ∧ ∀ i, pending (t.pc i) = [] ∨ ∃ rest, t.pc i = .dead rest := by
  induction m using Nat.strong_induction_on generalizing s with
  | _ m ih =>
    by_cases hd : ∀ i, pending (s.pc i) = [] ∨ ∃ rest, s.pc i = .dead rest
    · exact ⟨s, .refl s, hd⟩
    · push Not at hd
      obtain ⟨i, h1, h2⟩ := hd
      obtain ⟨t, ht⟩ := C75_progress p N grow canRead script o s h hg hpol i h1 h2
      obtain ⟨u, hu, hf⟩ := ih _ (hm ▸ stepsLeft_sum p N grow canRead s t ht) t rfl (.tail h ht)
      refine ⟨u, ?_, hf⟩
      have tr : ∀ {a b : State ι}, Reach p N grow canRead a b → Reach p N grow canRead s a → Reach p N grow canRead s b := by
        intro a b hab hsa
        induction hab with
        | refl => exact hsa
        | tail _ st ih => exact .tail ih st
      exact tr hu (.tail (.refl s) ht)

/-- C75.  A run that cannot go on is over: each thread has made all its calls, or made the calls up to one that panicked. -/
theorem C75_stuck_is_done (p : Profile) (N : Nat) (grow : Inner → Nat → Res (Except SetError Inner)) (canRead : State ι → ι → Prop) (script : ι → List Op)
    (o : Obj) (hg : ∀ i d, grow i d ≠ .diverge ∧ grow i d ≠ .ub)
    (hpol : ∀ (t : State ι) i, (∀ j d rest, t.pc j ≠ .ready (.growUp d :: rest)) → canRead t i) (s : State ι)
    (h : Reach p N grow canRead (init script o) s) (hs : ∀ t, ¬ Step p N grow canRead s t) (i : ι) :
    callsOf s.log i = script i ∧ (∀ r ∈ outcomesOf s.log i, ∃ x, r = .ok x) ∨
      ∃ rest a r, callsOf s.log i ++ rest = script i ∧ outcomesOf s.log i = a ++ [r] ∧ (∀ x ∈ a, ∃ y, x = .ok y) ∧ ∀ x, r ≠ .ok x := by
  have ho := (C75_linearizable p N grow canRead script o s h).2 i
  rcases lifetime_reach p N grow canRead script o s h i with ⟨h1, h2⟩ | ⟨⟨rest, _⟩, a, r, h2, h3, h4⟩
  · refine .inl ⟨?_, h2⟩
    by_cases hp : pending (s.pc i) = []
    · rwa [hp, List.append_nil] at ho
    · obtain ⟨t, ht⟩ := C75_progress p N grow canRead script o s h hg hpol i hp h1
      exact absurd ht (hs t)
  · exact .inr ⟨_, a, r, ho, h2, h3, h4⟩

/-- C75.  Any run of finitely many threads can be continued to its end. -/
theorem C75_can_finish [Fintype ι] (p : Profile) (N : Nat) (grow : Inner → Nat → Res (Except SetError Inner)) (canRead : State ι → ι → Prop) (script : ι → List Op)
    (o : Obj) (hg : ∀ i d, grow i d ≠ .diverge ∧ grow i d ≠ .ub)
    (hpol : ∀ (t : State ι) i, (∀ j d rest, t.pc j ≠ .ready (.growUp d :: rest)) → canRead t i) (s : State ι)
    (h : Reach p N grow canRead (init script o) s) :
    ∃ t, Reach p N grow canRead s t ∧ ∀ i, callsOf t.log i = script i ∨ ∃ rest, t.pc i = .dead rest := by
  obtain ⟨t, ht, hf⟩ := reach_final p N grow canRead script o hg hpol _ s rfl h
  have tr : ∀ {a b : State ι}, Reach p N grow canRead a b → Reach p N grow canRead (init script o) a → Reach p N grow canRead (init script o) b := by
    intro a b hab hsa
    induction hab with
    | refl => exact hsa
    | tail _ st ih => exact .tail ih st
  refine ⟨t, ht, fun i => ?_⟩
  rcases hf i with hi | hi
  · left
    have := (C75_linearizable p N grow canRead script o t (tr ht h)).2 i
    rwa [hi, List.append_nil] at this
  · exact .inr hi

/-! ### Examples -/

/-- Two threads with two calls and one call make at most six steps. -/
example (p : Profile) (i0 : Inner) (n : Nat) (s : State (Fin 2))
    (h : ReachIn p 2 (fun i d => i.traitGrowUp d) (fun _ _ => True) n (init (fun i => if i = 0 then [.isLetter 1, .isLetter 1] else [.growUp 3]) ⟨i0, false⟩) s) :
    n ≤ 6 := by
  have := C75_run_length p 2 _ _ _ _ n s h
  simpa using this

/-- A state in which thread 1 is inside `grow_up` is reachable, and then thread 0 is not inside a call. -/
example (p : Profile) (i0 : Inner) : ∃ s : State (Fin 2),
    Reach p 2 (fun i d => i.traitGrowUp d) (fun _ _ => True) (init (fun i => if i = 0 then [.isLetter 1] else [.growUp 3]) ⟨i0, false⟩) s ∧
      s.pc 1 = .writing 3 [] ∧ ((∃ r, s.pc 0 = .ready r) ∨ ∃ r, s.pc 0 = .dead r) := by
  have hr : Reach p 2 (fun i d => i.traitGrowUp d) (fun _ _ => True) (init (fun i : Fin 2 => if i = 0 then [.isLetter 1] else [.growUp 3]) ⟨i0, false⟩) _ :=
    .tail (.refl _) (.writeEnter _ 1 3 [] rfl (by intro i d rest h; fin_cases i <;> cases h) (by intro i d rest h; fin_cases i <;> cases h) rfl)
  exact ⟨_, hr, rfl, C75_exclusion p 2 _ _ _ _ _ hr 1 3 [] rfl 0 (by decide)⟩

end RA
