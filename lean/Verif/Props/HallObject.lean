import Verif.Model.HallObject
import Verif.Props.Hall

/-!
# Hall set objects shared by threads (C75)
-/

namespace RA
open Hall Hall.Shared

variable {ι : Type} [DecidableEq ι]

/-- One call on an object that nobody else uses: outcome and object afterwards. -/
def seqCall (p : Profile) (N : Nat) (grow : Inner → Nat → Res (Except SetError Inner)) (o : Obj) : Op → Outcome × Obj
  | .growUp d =>
    if o.poisoned then (.ok (.error .writeError), o)
    else match grow o.inner d with
      | .ok (.ok i) => (.ok (.ok .unit), { o with inner := i })
      | .ok (.error e) => (.ok (.error e), o)
      | .panic => (.panic, { o with poisoned := true })
      | .ub => (.ub, o)
      | .diverge => (.diverge, o)
  | op => if o.poisoned then (.ok (.error .readError), o) else (lookup p N o.inner op, o)

/-- The calls of one thread on its own are those of `Obj`, the model of `HallSetObject` the sequential theorems are about. -/
theorem C75_sequential (p : Profile) (N : Nat) (o : Obj) :
    (∀ op, op.isGrow = false → seqCall p N (fun i d => i.traitGrowUp d) o op = (o.read fun s => lookup p N s op, o)) ∧
      ∀ d, seqCall p N (fun i d => i.traitGrowUp d) o (.growUp d) =
        ((do let r ← (o.growUp d).1; .ok (r.map fun _ => Answer.unit)), (o.growUp d).2) := by
  refine ⟨fun op h => ?_, fun d => ?_⟩
  · cases op <;> first | (cases h; done) | (unfold seqCall Obj.read; cases o.poisoned <;> rfl)
  · unfold seqCall Obj.growUp
    cases o.poisoned <;> rfl

/-- A list of calls one after the other. -/
def seqRun (p : Profile) (N : Nat) (grow : Inner → Nat → Res (Except SetError Inner)) (o : Obj) : List Op → List Outcome × Obj
  | [] => ([], o)
  | op :: ops => ((seqCall p N grow o op).1 :: (seqRun p N grow (seqCall p N grow o op).2 ops).1, (seqRun p N grow (seqCall p N grow o op).2 ops).2)

theorem seqRun_snoc (p : Profile) (N : Nat) (grow : Inner → Nat → Res (Except SetError Inner)) (o : Obj) (ops : List Op) (op : Op) :
    seqRun p N grow o (ops ++ [op]) =
      ((seqRun p N grow o ops).1 ++ [(seqCall p N grow (seqRun p N grow o ops).2 op).1], (seqCall p N grow (seqRun p N grow o ops).2 op).2) := by
  induction ops generalizing o with
  | nil => rfl
  | cons a ops ih => rw [List.cons_append, seqRun, ih, seqRun, List.cons_append]

theorem seqCall_lookup (p : Profile) (N : Nat) (grow : Inner → Nat → Res (Except SetError Inner)) (o : Obj) (op : Op) (h : op.isGrow = false) :
    seqCall p N grow o op = if o.poisoned then (.ok (.error .readError), o) else (lookup p N o.inner op, o) := by
  cases op <;> first | rfl | cases h

/-- The operations a thread has started or not, but not finished. -/
def pending : Pc → List Op
  | .ready rest => rest
  | .reading op rest => op :: rest
  | .writing d rest => .growUp d :: rest
  | .dead rest => rest

/-- The calls of thread `i` in a log. -/
def callsOf (log : List (ι × Op × Outcome)) (i : ι) : List Op := (log.filter fun e => e.1 = i).map (·.2.1)

structure SharedInv (p : Profile) (N : Nat) (grow : Inner → Nat → Res (Except SetError Inner)) (script : ι → List Op) (o : Obj) (s : State ι) : Prop where
  seq : seqRun p N grow o (s.log.map (·.2.1)) = (s.log.map (·.2.2), ⟨s.inner, s.poisoned⟩)
  order : ∀ i, callsOf s.log i ++ pending (s.pc i) = script i
  reading : ∀ i op rest, s.pc i = .reading op rest → s.poisoned = false ∧ s.noWriter ∧ op.isGrow = false
  writing : ∀ i d rest, s.pc i = .writing d rest → s.poisoned = false ∧ ∀ j d' rest', s.pc j = .writing d' rest' → j = i

theorem callsOf_snoc (log : List (ι × Op × Outcome)) (i j : ι) (op : Op) (out : Outcome) :
    callsOf (log ++ [(i, op, out)]) j = callsOf log j ++ if i = j then [op] else [] := by
  unfold callsOf
  rw [List.filter_append, List.map_append]
  by_cases h : i = j <;> simp [h]

theorem sharedInv_step (p : Profile) (N : Nat) (grow : Inner → Nat → Res (Except SetError Inner)) (canRead : State ι → ι → Prop) (script : ι → List Op) (o : Obj)
    (s t : State ι) (h : SharedInv p N grow script o s) (hs : Step p N grow canRead s t) : SharedInv p N grow script o t := by
  obtain ⟨h1, h2, h3, h4⟩ := h
  -- a call that finishes with the outcome it would have had alone
  have fin : ∀ (i : ι) (op : Op) (out : Outcome) (rest : List Op) (o' : Obj), seqCall p N grow ⟨s.inner, s.poisoned⟩ op = (out, o') →
      pending (s.pc i) = op :: rest → (∀ j d rest, j ≠ i → s.pc j = .writing d rest → o'.poisoned = false) →
      (∀ j op rest, j ≠ i → s.pc j = .reading op rest → o'.poisoned = false) →
      SharedInv p N grow script o { s.finish i op out rest with inner := o'.inner, poisoned := o'.poisoned } := by
    intro i op out rest o' hc hp hwp hrp
    have hpc : ∀ j, ({ s.finish i op out rest with inner := o'.inner, poisoned := o'.poisoned } : State ι).pc j =
        if j = i then afterCall rest out else s.pc j := fun j => rfl
    refine ⟨?_, fun j => ?_, fun j op' rest' hj => ?_, fun j d' rest' hj => ?_⟩
    · show seqRun p N grow o ((s.log ++ [(i, op, out)]).map (·.2.1)) = ((s.log ++ [(i, op, out)]).map (·.2.2), _)
      rw [List.map_append, List.map_append]
      show seqRun p N grow o (s.log.map (·.2.1) ++ [op]) = (s.log.map (·.2.2) ++ [out], _)
      rw [seqRun_snoc, h1, hc]
    · show callsOf (s.log ++ [(i, op, out)]) j ++ _ = _
      rw [callsOf_snoc, hpc, ← h2 j]
      by_cases hij : i = j
      · subst hij
        rw [if_pos rfl, if_pos rfl, hp]
        cases out <;> simp [pending, afterCall]
      · rw [if_neg hij, if_neg (Ne.symm hij), List.append_nil]
    · rw [hpc] at hj
      by_cases hij : j = i
      · rw [if_pos hij] at hj
        cases out <;> cases hj
      · rw [if_neg hij] at hj
        refine ⟨hrp j op' rest' hij hj, fun m d r hm => ?_, (h3 j op' rest' hj).2.2⟩
        rw [hpc] at hm
        by_cases hmi : m = i
        · rw [if_pos hmi] at hm
          cases out <;> cases hm
        · rw [if_neg hmi] at hm
          exact (h3 j op' rest' hj).2.1 m d r hm
    · rw [hpc] at hj
      by_cases hij : j = i
      · rw [if_pos hij] at hj
        cases out <;> cases hj
      · rw [if_neg hij] at hj
        refine ⟨hwp j d' rest' hij hj, fun m d r hm => ?_⟩
        rw [hpc] at hm
        by_cases hmi : m = i
        · rw [if_pos hmi] at hm
          cases out <;> cases hm
        · rw [if_neg hmi] at hm
          exact (h4 j d' rest' hj).2 m d r hm
  cases hs with
  | readEnter i op rest hi hop hw hr hp =>
    have hpc : ∀ j, (s.setPc i (.reading op rest)).pc j = if j = i then .reading op rest else s.pc j := fun j => rfl
    have hnw : (s.setPc i (.reading op rest)).noWriter := by
      intro m d r hm
      rw [hpc] at hm
      by_cases hmi : m = i
      · rw [if_pos hmi] at hm; cases hm
      · rw [if_neg hmi] at hm; exact hw m d r hm
    refine ⟨h1, fun j => ?_, fun j op' rest' hj => ?_, fun j d' rest' hj => absurd hj (hnw j d' rest')⟩
    · show callsOf s.log j ++ _ = _
      rw [hpc, ← h2 j]
      by_cases hij : j = i
      · rw [if_pos hij, hij, hi]; rfl
      · rw [if_neg hij]
    · refine ⟨hp, hnw, ?_⟩
      rw [hpc] at hj
      by_cases hij : j = i
      · rw [if_pos hij] at hj; cases hj; exact hop
      · rw [if_neg hij] at hj; exact (h3 j op' rest' hj).2.2
  | readPoison i op rest hi hop hw hr hp =>
    exact fin i op (.ok (.error .readError)) rest ⟨s.inner, s.poisoned⟩ (by rw [seqCall_lookup _ _ _ _ _ hop]; simp [hp]) (by rw [hi]; rfl) (fun j d r _ hj => (h4 j d r hj).1)
      (fun j op r _ hj => (h3 j op r hj).1)
  | readDone i op rest hi hd =>
    obtain ⟨g1, g2, g3⟩ := h3 i op rest hi
    exact fin i op (lookup p N s.inner op) rest ⟨s.inner, s.poisoned⟩ (by rw [seqCall_lookup _ _ _ _ _ g3]; simp [g1]) (by rw [hi]; rfl) (fun j d r _ hj => (h4 j d r hj).1)
      (fun j op r _ hj => (h3 j op r hj).1)
  | writeEnter i d rest hi hw hr hp =>
    have hpc : ∀ j, (s.setPc i (.writing d rest)).pc j = if j = i then .writing d rest else s.pc j := fun j => rfl
    refine ⟨h1, fun j => ?_, fun j op' rest' hj => ?_, fun j d' rest' hj => ⟨hp, fun m d'' r hm => ?_⟩⟩
    · show callsOf s.log j ++ _ = _
      rw [hpc, ← h2 j]
      by_cases hij : j = i
      · rw [if_pos hij, hij, hi]; rfl
      · rw [if_neg hij]
    · rw [hpc] at hj
      by_cases hij : j = i
      · rw [if_pos hij] at hj; cases hj
      · rw [if_neg hij] at hj; exact absurd hj (hr j op' rest')
    · rw [hpc] at hj hm
      have e1 : j = i := by
        by_contra hij
        rw [if_neg hij] at hj
        exact hw j d' rest' hj
      have e2 : m = i := by
        by_contra hij
        rw [if_neg hij] at hm
        exact hw m d'' r hm
      rw [e1, e2]
  | writePoison i d rest hi hw hr hp =>
    exact fin i (.growUp d) (.ok (.error .writeError)) rest ⟨s.inner, s.poisoned⟩ (by simp [seqCall, hp]) (by rw [hi]; rfl) (fun j d r _ hj => (h4 j d r hj).1)
      (fun j op r _ hj => (h3 j op r hj).1)
  | writeOk i d rest inner hi hg =>
    obtain ⟨g1, g2⟩ := h4 i d rest hi
    have := fin i (.growUp d) (.ok (.ok .unit)) rest ⟨inner, s.poisoned⟩ (by simp [seqCall, g1, hg]) (by rw [hi]; rfl) (fun j d r _ hj => (h4 j d r hj).1)
      (fun j op r _ hj => (h3 j op r hj).1)
    exact this
  | writeErr i d rest e hi hg =>
    obtain ⟨g1, g2⟩ := h4 i d rest hi
    exact fin i (.growUp d) (.ok (.error e)) rest ⟨s.inner, s.poisoned⟩ (by simp [seqCall, g1, hg]) (by rw [hi]; rfl) (fun j d r _ hj => (h4 j d r hj).1)
      (fun j op r _ hj => (h3 j op r hj).1)
  | writePanic i d rest hi hg =>
    obtain ⟨g1, g2⟩ := h4 i d rest hi
    exact fin i (.growUp d) .panic rest ⟨s.inner, true⟩ (by simp [seqCall, g1, hg]) (by rw [hi]; rfl) (fun j d' r hji hj => absurd (g2 j d' r hj) hji)
      (fun j op r _ hj => absurd hi ((h3 j op r hj).2.1 i d rest))

theorem sharedInv_reach (p : Profile) (N : Nat) (grow : Inner → Nat → Res (Except SetError Inner)) (canRead : State ι → ι → Prop) (script : ι → List Op) (o : Obj)
    (s : State ι) (h : Reach p N grow canRead (init script o) s) : SharedInv p N grow script o s := by
  induction h with
  | refl => exact { seq := rfl, order := fun i => rfl, reading := fun i op rest hi => Pc.noConfusion hi, writing := fun i d rest hi => Pc.noConfusion hi }
  | tail _ st ih => exact sharedInv_step p N grow canRead script o _ _ ih st

/-- C75.  A Hall set object shared by any number of threads behaves, under every schedule, like one used by a single thread: the finished calls, in the order
in which they finish, have the outcomes and leave the object they would have without concurrency, and each thread's calls are in its own order. -/
theorem C75_linearizable (p : Profile) (N : Nat) (grow : Inner → Nat → Res (Except SetError Inner)) (canRead : State ι → ι → Prop) (script : ι → List Op) (o : Obj)
    (s : State ι) (h : Reach p N grow canRead (init script o) s) :
    seqRun p N grow o (s.log.map (·.2.1)) = (s.log.map (·.2.2), ⟨s.inner, s.poisoned⟩) ∧ ∀ i, callsOf s.log i ++ pending (s.pc i) = script i := by
  have inv := sharedInv_reach p N grow canRead script o s h
  exact ⟨inv.seq, inv.order⟩

theorem lookup_returns (p : Profile) (N : Nat) (s : Inner) (op : Op) : lookup p N s op ≠ .diverge := by
  have hu : ∀ {α : Type} (x : Option α), Inner.unwrap x ≠ .diverge := by intro α x; cases x <;> simp [Inner.unwrap]
  have hb : ∀ {α β : Type} (x : Res α) (f : α → Res β), x ≠ .diverge → (∀ a, f a ≠ .diverge) → (x >>= f) ≠ .diverge := by
    intro α β x f h1 h2
    cases x with
    | ok a => exact h2 a
    | panic => intro h; cases h
    | ub => intro h; cases h
    | diverge => exact absurd rfl h1
  have hdet : ∀ q, s.detailsOf q ≠ .diverge := fun q => hb _ _ (hu _) fun lr => hb _ _ (hu _) fun d => by intro h; cases h
  have hadd : ∀ a, addW p 32 a 1 ≠ .diverge := by
    intro a
    unfold addW fitW
    split
    · intro h; cases h
    · cases p <;> intro h <;> cases h
  cases op with
  | isLetter k => intro h; cases h
  | lparent k =>
    refine hb _ _ ?_ fun a => by intro h; cases h
    unfold Inner.lparentDetails
    split
    · exact hb _ _ (hdet _) fun d => by intro h; cases h
    · intro h; cases h
  | rparent k =>
    refine hb _ _ ?_ fun a => by intro h; cases h
    unfold Inner.rparentDetails
    split
    · exact hb _ _ (hdet _) fun d => by intro h; cases h
    · intro h; cases h
  | key k =>
    refine hb _ _ ?_ fun a => by intro h; cases h
    unfold Inner.keyDetails
    split
    · exact hb _ _ (hu _) fun d => by intro h; cases h
    · intro h; cases h
  | degreeRange d =>
    refine hb _ _ ?_ fun a => by intro h; cases h
    unfold Inner.degreeRange
    split
    · intro h; cases h
    · refine hb _ _ (hadd _) fun d => ?_
      split <;> intro h <;> cases h
  | growUp d => intro h; cases h

/-- C75.  No deadlock: as long as some thread has calls left and has not panicked, some thread can make a step, whatever the policy of the lock, provided it
lets readers in when nobody waits to write. -/
theorem C75_progress (p : Profile) (N : Nat) (grow : Inner → Nat → Res (Except SetError Inner)) (canRead : State ι → ι → Prop) (script : ι → List Op) (o : Obj)
    (s : State ι) (h : Reach p N grow canRead (init script o) s) (hg : ∀ i d, grow i d ≠ .diverge ∧ grow i d ≠ .ub)
    (hpol : ∀ (t : State ι) i, (∀ j d rest, t.pc j ≠ .ready (.growUp d :: rest)) → canRead t i)
    (i : ι) (hi : pending (s.pc i) ≠ []) (hd : ∀ rest, s.pc i ≠ .dead rest) : ∃ t, Step p N grow canRead s t := by
  have inv := sharedInv_reach p N grow canRead script o s h
  by_cases hr : s.noReader
  · by_cases hw : s.noWriter
    · by_cases hwait : ∀ j d rest, s.pc j ≠ .ready (.growUp d :: rest)
      · cases hpc : s.pc i with
        | ready rest =>
          cases rest with
          | nil => rw [hpc] at hi; exact absurd rfl hi
          | cons op rest =>
            have hop : op.isGrow = false := by
              cases op with
              | growUp d => exact absurd hpc (hwait i d rest)
              | _ => rfl
            cases hp : s.poisoned with
            | false => exact ⟨_, .readEnter s i op rest hpc hop hw (hpol s i hwait) hp⟩
            | true => exact ⟨_, .readPoison s i op rest hpc hop hw (hpol s i hwait) hp⟩
        | reading op rest => exact absurd hpc (hr i op rest)
        | writing d rest => exact absurd hpc (hw i d rest)
        | dead rest => exact absurd hpc (hd rest)
      · push Not at hwait
        obtain ⟨j, d, rest, hj⟩ := hwait
        cases hp : s.poisoned with
        | false => exact ⟨_, .writeEnter s j d rest hj hw hr hp⟩
        | true => exact ⟨_, .writePoison s j d rest hj hw hr hp⟩
    · unfold State.noWriter at hw
      push Not at hw
      obtain ⟨j, d, rest, hj⟩ := hw
      cases hgr : grow s.inner d with
      | ok r =>
        cases r with
        | ok inner => exact ⟨_, .writeOk s j d rest inner hj hgr⟩
        | error e => exact ⟨_, .writeErr s j d rest e hj hgr⟩
      | panic => exact ⟨_, .writePanic s j d rest hj hgr⟩
      | ub => exact absurd hgr (hg _ _).2
      | diverge => exact absurd hgr (hg _ _).1
  · unfold State.noReader at hr
    push Not at hr
    obtain ⟨j, op, rest, hj⟩ := hr
    exact ⟨_, .readDone s j op rest hj (lookup_returns p N s.inner op)⟩

theorem seqRun_tail (p : Profile) (N : Nat) (grow : Inner → Nat → Res (Except SetError Inner)) (o : Obj) (a b : List Op) (x y : List Outcome)
    (hl : a.length = x.length) (h : (seqRun p N grow o (a ++ b)).1 = x ++ y) : ∃ o', (seqRun p N grow o' b).1 = y := by
  induction a generalizing o x with
  | nil =>
    cases x with
    | nil => exact ⟨o, h⟩
    | cons _ _ => simp at hl
  | cons op a ih =>
    cases x with
    | nil => simp at hl
    | cons r x => exact ih (seqCall p N grow o op).2 x (by simpa using hl) (List.cons.inj h).2

theorem seqRun_poisoned (p : Profile) (N : Nat) (grow : Inner → Nat → Res (Except SetError Inner)) (o : Obj) (hp : o.poisoned = true) (ops : List Op) :
    ∀ r ∈ (seqRun p N grow o ops).1, r = .ok (.error .readError) ∨ r = .ok (.error .writeError) := by
  induction ops with
  | nil => intro r hr; cases hr
  | cons op ops ih =>
    have h2 : seqCall p N grow o op = (.ok (.error .readError), o) ∨ seqCall p N grow o op = (.ok (.error .writeError), o) := by
      cases op <;> simp [seqCall, hp]
    intro r hr
    rw [seqRun] at hr
    rcases h2 with h2 | h2
    all_goals
      rw [h2] at hr
      rcases List.mem_cons.mp hr with rfl | hr
      · simp
      · exact ih r hr

/-- C75, what it means with the `grow_up` of the crate: every call that finishes after a `grow_up` is an error, under every schedule. -/
theorem C75_grow_up_breaks (p : Profile) (N : Nat) (canRead : State ι → ι → Prop) (script : ι → List Op) (o : Obj)
    (s : State ι) (h : Reach p N (fun i d => i.traitGrowUp d) canRead (init script o) s) (l1 l2 : List (ι × Op × Outcome)) (i : ι) (d : Nat) (out : Outcome)
    (hl : s.log = l1 ++ (i, .growUp d, out) :: l2) : ∀ e ∈ l2, e.2.2 = .ok (.error .readError) ∨ e.2.2 = .ok (.error .writeError) := by
  have hs := (C75_linearizable p N _ canRead script o s h).1
  rw [hl, List.map_append, List.map_append, List.map_cons, List.map_cons] at hs
  obtain ⟨o', ho'⟩ := seqRun_tail p N _ o (l1.map (·.2.1)) (.growUp d :: l2.map (·.2.1)) (l1.map (·.2.2)) (out :: l2.map (·.2.2)) (by simp) (congrArg Prod.fst hs)
  have hp : (seqCall p N (fun i d => i.traitGrowUp d) o' (.growUp d)).2.poisoned = true := by
    cases hq : o'.poisoned <;> simp [seqCall, hq, Inner.traitGrowUp]
  have ht : (seqRun p N (fun i d => i.traitGrowUp d) (seqCall p N (fun i d => i.traitGrowUp d) o' (.growUp d)).2 (l2.map (·.2.1))).1 = l2.map (·.2.2) :=
    (List.cons.inj ho').2
  intro e he
  exact seqRun_poisoned p N _ _ hp (l2.map (·.2.1)) e.2.2 (by rw [ht]; exact List.mem_map.mpr ⟨e, he, rfl⟩)

/-- The outcomes of the calls of thread `i` in a log. -/
def outcomesOf (log : List (ι × Op × Outcome)) (i : ι) : List Outcome := (log.filter fun e => e.1 = i).map (·.2.2)

theorem outcomesOf_snoc (log : List (ι × Op × Outcome)) (i j : ι) (op : Op) (out : Outcome) :
    outcomesOf (log ++ [(i, op, out)]) j = outcomesOf log j ++ if i = j then [out] else [] := by
  unfold outcomesOf
  rw [List.filter_append, List.map_append]
  by_cases h : i = j <;> simp [h]

/-- A thread is dead if and only if its last call did not return, and calls before the last returned. -/
def Lifetime (s : State ι) : Prop := ∀ i, (∀ rest, s.pc i ≠ .dead rest) ∧ (∀ r ∈ outcomesOf s.log i, ∃ x, r = .ok x) ∨
  (∃ rest, s.pc i = .dead rest) ∧ ∃ a r, outcomesOf s.log i = a ++ [r] ∧ (∀ x ∈ a, ∃ y, x = .ok y) ∧ ∀ x, r ≠ .ok x

theorem lifetime_finish (s : State ι) (h : Lifetime s) (i : ι) (op : Op) (out : Outcome) (rest : List Op) (hi : ∀ rest, s.pc i ≠ .dead rest) :
    Lifetime (s.finish i op out rest) := by
  intro j
  show (∀ rest', (if j = i then afterCall rest out else s.pc j) ≠ .dead rest') ∧ (∀ r ∈ outcomesOf (s.log ++ [(i, op, out)]) j, ∃ x, r = .ok x) ∨
    (∃ rest', (if j = i then afterCall rest out else s.pc j) = .dead rest') ∧
      ∃ a r, outcomesOf (s.log ++ [(i, op, out)]) j = a ++ [r] ∧ (∀ x ∈ a, ∃ y, x = .ok y) ∧ ∀ x, r ≠ .ok x
  rw [outcomesOf_snoc]
  by_cases hj : j = i
  · subst hj
    rw [if_pos rfl, if_pos rfl]
    rcases h j with ⟨_, h2⟩ | ⟨⟨r, h1⟩, _⟩
    · cases out with
      | ok x =>
        refine .inl ⟨fun _ h => Pc.noConfusion h, fun r hr => ?_⟩
        rcases List.mem_append.1 hr with hr | hr
        · exact h2 r hr
        · exact ⟨x, List.mem_singleton.1 hr⟩
      | panic => exact .inr ⟨⟨rest, rfl⟩, _, _, rfl, h2, nofun⟩
      | ub => exact .inr ⟨⟨rest, rfl⟩, _, _, rfl, h2, nofun⟩
      | diverge => exact .inr ⟨⟨rest, rfl⟩, _, _, rfl, h2, nofun⟩
    · exact absurd h1 (hi r)
  · rw [if_neg hj, if_neg (Ne.symm hj), List.append_nil]
    exact h j

theorem lifetime_reach (p : Profile) (N : Nat) (grow : Inner → Nat → Res (Except SetError Inner)) (canRead : State ι → ι → Prop) (script : ι → List Op) (o : Obj)
    (s : State ι) (h : Reach p N grow canRead (init script o) s) : Lifetime s := by
  induction h with
  | refl => exact fun i => .inl ⟨fun _ h => Pc.noConfusion h, fun r hr => by cases hr⟩
  | @tail t u _ st ih =>
    have enter : ∀ i pc, (∀ rest, t.pc i ≠ .dead rest) → (∀ rest, pc ≠ .dead rest) → Lifetime (t.setPc i pc) := by
      intro i pc h1 h2 j
      show (∀ rest', (if j = i then pc else t.pc j) ≠ .dead rest') ∧ _ ∨ (∃ rest', (if j = i then pc else t.pc j) = .dead rest') ∧ _
      by_cases hj : j = i
      · subst hj
        rw [if_pos rfl]
        rcases ih j with ⟨_, h3⟩ | ⟨⟨r, h3⟩, _⟩
        · exact .inl ⟨h2, h3⟩
        · exact absurd h3 (h1 r)
      · rw [if_neg hj]
        exact ih j
    cases st with
    | readEnter i op rest hi => exact enter i _ (fun r h => by rw [hi] at h; cases h) (fun r h => by cases h)
    | readPoison i op rest hi => exact lifetime_finish t ih i _ _ _ (fun r h => by rw [hi] at h; cases h)
    | readDone i op rest hi => exact lifetime_finish t ih i _ _ _ (fun r h => by rw [hi] at h; cases h)
    | writeEnter i d rest hi => exact enter i _ (fun r h => by rw [hi] at h; cases h) (fun r h => by cases h)
    | writePoison i d rest hi => exact lifetime_finish t ih i _ _ _ (fun r h => by rw [hi] at h; cases h)
    | writeOk i d rest inner hi => exact lifetime_finish t ih i _ _ _ (fun r h => by rw [hi] at h; cases h)
    | writeErr i d rest e hi => exact lifetime_finish t ih i _ _ _ (fun r h => by rw [hi] at h; cases h)
    | writePanic i d rest hi => exact lifetime_finish t ih i _ _ _ (fun r h => by rw [hi] at h; cases h)

/-- C75.  A call that panics is the last of its thread: no later entry of the log is of that thread. -/
theorem C75_panic_is_last (p : Profile) (N : Nat) (grow : Inner → Nat → Res (Except SetError Inner)) (canRead : State ι → ι → Prop) (script : ι → List Op) (o : Obj)
    (s : State ι) (h : Reach p N grow canRead (init script o) s) (l1 l2 : List (ι × Op × Outcome)) (i : ι) (op : Op) (out : Outcome)
    (hl : s.log = l1 ++ (i, op, out) :: l2) (ho : ∀ x, out ≠ .ok x) : ∀ e ∈ l2, e.1 ≠ i := by
  have e1 : outcomesOf s.log i = outcomesOf l1 i ++ out :: outcomesOf l2 i := by
    rw [hl]
    unfold outcomesOf
    simp
  have e2 : outcomesOf l2 i = [] := by
    rcases lifetime_reach p N grow canRead script o s h i with ⟨_, h2⟩ | ⟨_, a, r, h2, h3, _⟩
    · obtain ⟨x, hx⟩ := h2 out (by rw [e1]; simp)
      exact absurd hx (ho x)
    · rw [e1] at h2
      by_contra hne
      obtain ⟨x, hx⟩ := h3 out (by
        obtain ⟨c, y, hy⟩ : ∃ c y, outcomesOf l2 i = c ++ [y] := ⟨_, _, (List.dropLast_append_getLast hne).symm⟩
        rw [hy, ← List.cons_append, ← List.append_assoc] at h2
        rw [← (List.append_inj' h2 rfl).1]
        simp)
      exact ho x hx
  intro e he hei
  unfold outcomesOf at e2
  rw [List.map_eq_nil_iff, List.filter_eq_nil_iff] at e2
  exact e2 e he (by simpa using hei)

/-! ### Examples: two threads, one of which grows the set -/

/-- A schedule: thread 0 enters a lookup, thread 1 waits, thread 0 finishes, thread 1 grows and panics, thread 0 finds the lock poisoned. -/
example (p : Profile) (i0 : Inner) : ∃ s : State (Fin 2),
    Reach p 2 (fun i d => i.traitGrowUp d) (fun _ _ => True) (init (fun i => if i = 0 then [.isLetter 1, .isLetter 1] else [.growUp 3]) ⟨i0, false⟩) s ∧
      s.log = [(0, .isLetter 1, .ok (.ok (.bool true))), (1, .growUp 3, .panic), (0, .isLetter 1, .ok (.error .readError))] := by
  refine ⟨_, .tail (.tail (.tail (.tail (.tail (.refl _) (.readEnter _ 0 (.isLetter 1) [.isLetter 1] rfl rfl ?_ trivial rfl)) (.readDone _ 0 (.isLetter 1) [.isLetter 1] rfl ?_))
    (.writeEnter _ 1 3 [] rfl ?_ ?_ rfl)) (.writePanic _ 1 3 [] rfl rfl)) (.readPoison _ 0 (.isLetter 1) [] rfl rfl ?_ trivial rfl), rfl⟩
  · intro i d rest h; fin_cases i <;> cases h
  · exact lookup_returns _ _ _ _
  · intro i d rest h; fin_cases i <;> cases h
  · intro i d rest h; fin_cases i <;> cases h
  · intro i d rest h; fin_cases i <;> cases h

/-- A thread whose first call panics never gets to its second. -/
example (p : Profile) (i0 : Inner) (s : State (Fin 2))
    (h : Reach p 2 (fun i d => i.traitGrowUp d) (fun _ _ => True) (init (fun _ => [.growUp 3, .isLetter 1]) ⟨i0, false⟩) s) (e : Fin 2 × Op × Outcome)
    (hl : s.log = [(1, .growUp 3, .panic), e]) : e.1 = 0 := by
  have := C75_panic_is_last p 2 _ _ _ _ s h [] [e] 1 (.growUp 3) .panic hl (nofun) e (by simp)
  omega

/-- The hypotheses of `C75_progress` on `grow` and the policy hold of the crate's `grow_up` with a lock that prefers writers. -/
example : (∀ i d, Inner.traitGrowUp i d ≠ .diverge ∧ Inner.traitGrowUp i d ≠ .ub) ∧
    ∀ (t : State (Fin 2)) (i : Fin 2), (∀ j d rest, t.pc j ≠ .ready (.growUp d :: rest)) → (fun (t : State (Fin 2)) (_ : Fin 2) => ∀ j d rest, t.pc j ≠ .ready (.growUp d :: rest)) t i :=
  ⟨fun _ _ => ⟨nofun, nofun⟩, fun _ _ h => h⟩

end RA
