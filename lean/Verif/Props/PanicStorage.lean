import Verif.Props.PanicValues

/-!
# Caught panics and the caller's memory (C118)

Where the entries of the vectors are stored makes no difference to a program whose panics are caught, not even to the vectors that a panic left half finished.
-/

namespace RA
open Spec TensorKey TensorBasis DenseAlg Fallible

section
variable {S R T α β : Type} {cl : Prop}

/-- States of a method: the vectors show the same, and the closures have the same state. -/
def SameState (cl : Prop) (s s' : Dense S × T) : Prop := SameData cl s.1 s'.1 ∧ s.2 = s'.2

/-- The two computations have the same outcome from states that show the same, and leave such states. -/
def SameU (cl : Prop) (u u' : Unw (Dense S × T) α) : Prop := ∀ s s', SameState cl s s' → (u s).1 = (u' s').1 ∧ SameState cl (u s).2 (u' s').2

namespace SameU

theorem lift (r : Res α) : SameU cl (Unw.lift r : Unw (Dense S × T) α) (Unw.lift r) := fun _ _ h => ⟨rfl, h⟩

theorem pure (a : α) : SameU cl (Pure.pure a : Unw (Dense S × T) α) (Pure.pure a) := fun _ _ h => ⟨rfl, h⟩

theorem bind {u u' : Unw (Dense S × T) α} {f f' : α → Unw (Dense S × T) β} (h : SameU cl u u') (hf : ∀ a, SameU cl (f a) (f' a)) :
    SameU cl (u >>= f) (u' >>= f') := by
  intro s s' hs
  show (Unw.bind u f s).1 = (Unw.bind u' f' s').1 ∧ SameState cl (Unw.bind u f s).2 (Unw.bind u' f' s').2
  obtain ⟨h1, h2⟩ := h s s' hs
  unfold Unw.bind
  rcases e : u s with ⟨o, t⟩
  rcases e' : u' s' with ⟨o', t'⟩
  rw [e, e'] at h1 h2
  cases (h1 : o = o')
  cases o with
  | ok a => exact hf a _ _ h2
  | panic | ub | diverge => exact ⟨rfl, h2⟩

theorem getBind {f f' : Dense S × T → Unw (Dense S × T) α} (h : ∀ s s', SameState cl s s' → SameU cl (f s) (f' s')) :
    SameU cl (Unw.get >>= f) (Unw.get >>= f') := fun s s' hs => h s s' hs s s' hs

theorem foldlM {A : Type} {f f' : β → A → Unw (Dense S × T) β} (h : ∀ b a, SameU cl (f b a) (f' b a)) (l : List A) (b : β) :
    SameU cl (l.foldlM f b) (l.foldlM f' b) := by
  induction l generalizing b with
  | nil => exact pure b
  | cons a l ih => exact bind (h b a) ih

theorem asMut : SameU cl (asMutU : Unw (Dense S × T) (List S)) asMutU := by
  intro s s' h
  refine ⟨congrArg Res.ok h.1.1, ?_, h.2⟩
  show SameData cl (s.1.makeMut.writeSlice s.1.data) (s'.1.makeMut.writeSlice s'.1.data)
  rw [← h.1.1]
  exact h.1.makeMut.write _

end SameU

theorem SameData.resizeF (F : FCoeff S R) {d d' : Dense S} (h : SameData cl d d') (n : Nat) : SameData cl (resizeF F d n) (resizeF F d' n) := by
  obtain ⟨m, a, b⟩ := d
  obtain ⟨m', a', b'⟩ := d'
  have h1 : a = a' := h.1
  subst h1
  cases m <;> cases m' <;> simp [Fallible.resizeF, SameData]

theorem SameData.grow (F : FCoeff S R) {d d' : Dense S} (h : SameData cl d d') (n : Nat) : SameData cl (grow F d n) (grow F d' n) := by
  unfold Fallible.grow
  rw [h.size]
  split
  · exact h.resizeF F n
  · exact h

theorem SameData.onSlice {d d' : Dense S} (h : SameData cl d d') (q : Res Unit × List S) :
    (onSlice d q).1 = (onSlice d' q).1 ∧ SameData cl (onSlice d q).2 (onSlice d' q).2 := ⟨rfl, h.write _⟩

variable (F : FCoeff S R) (p : Profile) (N : Nat)

theorem same_buf (upd : Update S T) (lo len : Nat) (l r : List S) : SameU cl (mulIntoBufferF upd lo len l r) (mulIntoBufferF upd lo len l r) := by
  refine .bind (.foldlM (fun _ a => .foldlM (fun ptr b => ?_) _ _) _ _) fun _ => .pure _
  rintro ⟨d, t⟩ ⟨d', t'⟩ ⟨hd, ht⟩
  dsimp only at hd ht
  subst ht
  unfold bufStepF
  dsimp only
  rw [← hd.1]
  cases (if ptr < len then d.data[lo + ptr]? else none) with
  | none => exact ⟨rfl, hd, rfl⟩
  | some o =>
    dsimp only
    rcases upd t o a b with ⟨q, x, t1⟩
    cases q <;> exact ⟨rfl, hd.write _, rfl⟩

theorem same_degree {d d' : Dense S} (h : SameData cl d d') : Dense.degree (tensorBasis p N) d = Dense.degree (tensorBasis p N) d' := by
  unfold Dense.degree
  rw [h.size]

theorem same_product {l l' r r' : Dense S} (hl : SameData cl l l') (hr : SameData cl r r') (func : ClosureU S T) (D : Option Nat) :
    SameU cl (mulAddIntoF F p N func l r D) (mulAddIntoF F p N func l' r' D) := by
  unfold mulAddIntoF
  rw [same_degree p N hl, same_degree p N hr]
  refine .bind (.lift _) fun _ => .bind (.lift _) fun _ => .bind (.lift _) fun m => .bind ?_ fun _ => .foldlM (fun _ o => ?_) _ _
  · unfold growToF
    refine .getBind ?_
    rintro ⟨d, t⟩ ⟨d', t'⟩ ⟨hd, ht⟩
    dsimp only at hd ht ⊢
    subst ht
    rw [same_degree p N hd]
    refine .bind (.lift _) fun sd => ?_
    split
    · exact .bind (.lift _) fun _ => .bind (.lift _) fun n => fun _ _ _ => ⟨rfl, hd.resizeF F n, rfl⟩
    · exact .pure _
  · refine .bind (.lift _) fun _ => .foldlM (fun _ k => ?_) _ _
    unfold mulAddStepF
    rw [hl.1, hr.1]
    exact .bind (.lift _) fun _ => .bind .asMut fun _ => .bind (.lift _) fun _ => .bind (.lift _) fun _ => .bind (.lift _) fun _ => .bind (.lift _) fun _ =>
      .bind (.lift _) fun _ => .bind (.lift _) fun _ => same_buf _ _ _ _ _

theorem same_tMulAdd {v v' l l' r r' : Dense S} (h : SameData cl v v') (hl : SameData cl l l') (hr : SameData cl r r') (func : S → Res S) (D : Option Nat) :
    (tMulAdd F p N func v l r D).1 = (tMulAdd F p N func v' l' r' D).1 ∧
      SameData cl (tMulAdd F p N func v l r D).2 (tMulAdd F p N func v' l' r' D).2 := by
  obtain ⟨h1, h2⟩ := same_product F p N hl hr (fun (t : Unit) x => (func x, t)) D (v, ()) (v', ()) ⟨h, rfl⟩
  exact ⟨h1, h2.1⟩

theorem same_temp {q q' : Res Unit × Dense S} (h : q.1 = q'.1 ∧ SameData cl q.2 q'.2) : ResRel (SameData cl) (temp q) (temp q') := by
  obtain ⟨o, d⟩ := q
  obtain ⟨o', d'⟩ := q'
  obtain ⟨h1, h2⟩ := h
  dsimp only at h1 h2
  subst h1
  cases o with
  | ok u => exact h2
  | panic | ub | diverge => trivial

theorem same_change {d d' : Dense S} (h : SameData cl d d') (w : List Nat) (f : S → S) :
    (changeEntry p N w f d).1 = (changeEntry p N w f d').1 ∧ SameData cl (changeEntry p N w f d).2 (changeEntry p N w f d').2 := by
  unfold changeEntry withArg
  cases fromLetters p N w with
  | ok k =>
    show (Unw.bind ((denseKeys (tensorBasis p N)).getMut k fun x => (.ok (), f x)) (fun _ => pure ()) d).1 =
      (Unw.bind ((denseKeys (tensorBasis p N)).getMut k fun x => (.ok (), f x)) (fun _ => pure ()) d').1 ∧ SameData cl
      (Unw.bind ((denseKeys (tensorBasis p N)).getMut k fun x => (.ok (), f x)) (fun _ => pure ()) d).2
      (Unw.bind ((denseKeys (tensorBasis p N)).getMut k fun x => (.ok (), f x)) (fun _ => pure ()) d').2
    unfold Unw.bind denseKeys
    dsimp only
    rw [← h.1]
    cases (tensorBasis p N).keyToIndex k with
    | ok i =>
      dsimp only
      cases d.data[i]? with
      | some x => exact ⟨rfl, h.write _⟩
      | none => exact ⟨rfl, h.makeMut⟩
    | panic | ub | diverge => exact ⟨rfl, h.makeMut⟩
  | panic | ub | diverge => exact ⟨rfl, h⟩

/-- One statement on registers that show the same. -/
theorem same_stmtU {σ σ' : Nat → Dense S} (h : ∀ i, SameData cl (σ i) (σ' i)) (st : PStmt S R) (hst : (∃ i, st = .clear i) → cl) :
    (runStmtU F p N σ st).1 = (runStmtU F p N σ' st).1 ∧ ∀ i, SameData cl ((runStmtU F p N σ st).2 i) ((runStmtU F p N σ' st).2 i) := by
  have hr : ∀ v : Dense S, SameData cl v v := fun v => ⟨rfl, fun _ => Iff.rfl⟩
  have hown : ∀ {v v' : Dense S}, SameData cl v v' → SameData cl (Dense.ofVec v.data) (Dense.ofVec v'.data) := fun hv => by rw [hv.1]; exact hr _
  have work : ∀ (i : Nat) {q q' : Res Unit × Dense S}, q.1 = q'.1 ∧ SameData cl q.2 q'.2 → (workReg σ i q).1 = (workReg σ' i q').1 ∧
      ∀ j, SameData cl ((workReg σ i q).2 j) ((workReg σ' i q').2 j) := fun i _ _ hq => ⟨hq.1, setReg_rel h i hq.2⟩
  have asgn : ∀ (i : Nat) {x x' : Res (Dense S)}, ResRel (SameData cl) x x' → (assignReg σ i x).1 = (assignReg σ' i x').1 ∧
      ∀ j, SameData cl ((assignReg σ i x).2 j) ((assignReg σ' i x').2 j) := by
    intro i x x' hx
    cases x <;> cases x' <;> first | exact hx.elim | exact ⟨rfl, setReg_rel h i hx⟩ | exact ⟨rfl, h⟩
  cases st with
  | zero i => exact asgn i (hr _)
  | word i w s => exact asgn i (.refl _ hr)
  | terms i l => exact asgn i (.refl _ hr)
  | copy i j => exact asgn i (hown (h j))
  | swap i j => exact ⟨rfl, setReg_rel (setReg_rel h i (h j)) j (h i)⟩
  | clear i =>
    refine work i ⟨rfl, ?_⟩
    have hc := hst ⟨i, rfl⟩
    have hi := h i
    revert hi
    generalize σ i = d
    generalize σ' i = d'
    intro hi
    obtain ⟨m, a, b⟩ := d
    obtain ⟨m', a', b'⟩ := d'
    have h1 : a = a' := hi.1
    have h2 := hi.2 hc
    subst h1
    cases m <;> cases m' <;> simp_all [dClear, SameData, Dense.writeSlice, Dense.makeMut]
  | modify i w f => exact work i (same_change p N (h i) w f)
  | erase i w => exact work i (same_change p N (h i) w _)
  | neg i =>
    refine work i ?_
    unfold dUminus
    rw [(h i).1]
    exact (h i).onSlice _
  | add i j =>
    refine work i ?_
    unfold dAdd
    dsimp only
    have hg := ((h i).makeMut).grow F (σ' j).size
    rw [(h j).size, (h j).1, hg.1]
    exact hg.onSlice _
  | sub i j =>
    refine work i ?_
    unfold dSub
    dsimp only
    have hg := (h i).grow F (σ' j).size
    rw [(h j).size, (h j).1, hg.1]
    exact hg.onSlice _
  | scale i s =>
    refine work i ?_
    unfold dMul
    rw [(h i).1]
    exact (h i).makeMut.onSlice _
  | div i r =>
    refine work i ?_
    unfold dDiv
    rw [(h i).1]
    exact (h i).onSlice _
  | mul i j k D => exact asgn i (same_temp (same_tMulAdd F p N (hr _) (h j) (h k) _ _))
  | comm i j k D =>
    exact asgn i (.bind (same_temp (same_tMulAdd F p N (hr _) (h j) (h k) _ _)) fun _ _ hv => same_temp (same_tMulAdd F p N hv (h k) (h j) _ _))
  | addMul i j k D => exact work i (same_tMulAdd F p N (h i) (h j) (h k) _ _)
  | subMul i j k D => exact work i (same_tMulAdd F p N (h i) (h j) (h k) _ _)

theorem same_caught (prog : List (PStmt S R)) (hp : ∀ i, .clear i ∈ prog → cl) {σ σ' : Nat → Dense S} (h : ∀ i, SameData cl (σ i) (σ' i)) :
    outcomes F p N σ prog = outcomes F p N σ' prog ∧
    ResRel (fun τ τ' => ∀ i, SameData cl (τ i) (τ' i)) (prog.foldlM (runCaught F p N) σ) (prog.foldlM (runCaught F p N) σ') := by
  induction prog generalizing σ σ' with
  | nil => exact ⟨rfl, h⟩
  | cons s prog ih =>
    obtain ⟨h1, h2⟩ := same_stmtU F p N h s fun ⟨i, hi⟩ => hp i (by simp [hi])
    rw [List.foldlM_cons, List.foldlM_cons]
    unfold outcomes runCaught
    rcases e : runStmtU F p N σ s with ⟨o, τ⟩
    rcases e' : runStmtU F p N σ' s with ⟨o', τ'⟩
    rw [e, e'] at h1 h2
    cases (h1 : o = o')
    have ih' := ih (fun i hi => hp i (by simp [hi])) h2
    cases o with
    | ok u => exact ⟨congrArg _ ih'.1, ih'.2⟩
    | panic => exact ⟨congrArg _ ih'.1, ih'.2⟩
    | ub | diverge => exact ⟨rfl, trivial⟩

/-- C118.  Take the same program on registers that show the same entries, stored in any way (owned, in a shared buffer, in an exclusive buffer), with coefficients that
may panic anywhere, and catch every panic.  If the program does not call `clear`, the same statements panic, the two runs end the same way, and if they return, the
registers show the same entries, bit for bit, also those that a panic left half finished. -/
theorem C118_same (prog : List (PStmt S R)) (hp : ∀ i, .clear i ∉ prog) (σ σ' : Nat → Dense S) (h : ∀ i, (σ i).data = (σ' i).data) :
    outcomes F p N σ prog = outcomes F p N σ' prog ∧
    ResRel (fun τ τ' => ∀ i, (τ i).data = (τ' i).data) (prog.foldlM (runCaught F p N) σ) (prog.foldlM (runCaught F p N) σ') := by
  obtain ⟨h1, this⟩ := same_caught F p N prog (cl := False) (fun i hi => hp i hi) (σ := σ) (σ' := σ') fun i => ⟨h i, nofun⟩
  refine ⟨h1, ?_⟩
  cases h1 : prog.foldlM (runCaught F p N) σ <;> cases h2 : prog.foldlM (runCaught F p N) σ' <;> rw [h1, h2] at this <;>
    first | exact fun i => (this i).1 | exact this

/-- C118.  With `clear` allowed the same holds if the two runs have their exclusive views in the same registers. -/
theorem C118_same_clear (prog : List (PStmt S R)) (σ σ' : Nat → Dense S) (h : ∀ i, (σ i).data = (σ' i).data)
    (hm : ∀ i, (σ i).mode = .borrowedMut ↔ (σ' i).mode = .borrowedMut) :
    outcomes F p N σ prog = outcomes F p N σ' prog ∧
    ResRel (fun τ τ' => ∀ i, (τ i).data = (τ' i).data ∧ ((τ i).mode = .borrowedMut ↔ (τ' i).mode = .borrowedMut))
      (prog.foldlM (runCaught F p N) σ) (prog.foldlM (runCaught F p N) σ') := by
  obtain ⟨h1, this⟩ := same_caught F p N prog (cl := True) (fun _ _ => trivial) (σ := σ) (σ' := σ') fun i => ⟨h i, fun _ => hm i⟩
  refine ⟨h1, ?_⟩
  cases h1 : prog.foldlM (runCaught F p N) σ <;> cases h2 : prog.foldlM (runCaught F p N) σ' <;> rw [h1, h2] at this <;>
    first | exact fun i => ⟨(this i).1, (this i).2 trivial⟩ | exact this

/-- C118, memory safety.  `C115_safe` for registers stored in any way, exclusive views included: if each product is allowed in the program, and in every program got
from it by striking out arithmetic statements, the run with caught panics has no undefined behaviour and ends, and each register then stores all words up to some
degree. -/
theorem C118_safe (hF : F.OnlyPanics) (h2 : 2 ≤ N) (hN : N < 2 ^ 32) {D : Nat} (hm : D ≤ maxDepth N) (hq : N ^ (D + 1) < 2 ^ 64) (prog : List (PStmt S R))
    (hs : ∀ s ∈ prog, s.Within N D) (hp : ∀ i, .clear i ∉ prog) {σ : Nat → Dense S} {l : Nat → Nat} (h : ∀ i, (σ i).size = geomSum N (l i)) (hl : ∀ i, l i ≤ D + 1)
    (ha : ∀ prog', Struck prog prog' → allowedProg l prog' = true) :
    ∃ τ prog', prog.foldlM (runCaught F p N) σ = .ok τ ∧ Struck prog prog' ∧ ∀ i, (τ i).size = geomSum N (levelsAfter l prog' i) := by
  obtain ⟨τ', prog', h3, h4, h5⟩ := C115_safe F p N hF h2 hN hm hq prog hs (σ := fun i => .ofVec (σ i).data) (l := l) (fun i => ⟨nofun, h i⟩) hl ha
  have := (C118_same F p N prog hp σ (fun i => .ofVec (σ i).data) fun _ => rfl).2
  rw [h3] at this
  cases h6 : prog.foldlM (runCaught F p N) σ with
  | ok τ =>
    rw [h6] at this
    exact ⟨τ, prog', rfl, h4, fun i => (congrArg List.length (this i)).trans (h5 i).2⟩
  | panic | ub | diverge => rw [h6] at this; exact this.elim

/-- C118.  A buffer of the caller that is still lent to a register at the end holds what the same program, with the same panics caught, computes without `clear` when every
register is an owned copy of what it showed at the start. -/
theorem C118_in_place {ι : Type} [DecidableEq ι] (prog : List (PStmt S R)) (hp : ∀ i, .clear i ∉ prog) (m m' : Memory ι S) (hm : m.Lawful)
    (h : prog.foldlM (runMemCaught F p N) m = .ok m') : ∃ τ, prog.foldlM (runCaught F p N) (fun i => .ofVec (m.reg i).data) = .ok τ ∧
      ∀ i b, (m'.reg i).mode ≠ .owned → m'.tag i = some b → m'.buf b = (τ i).data := by
  have h1 := runMemCaught_reg F p N prog m
  rw [h] at h1
  have h2 := (C118_same F p N prog hp m.reg (fun i => .ofVec (m.reg i).data) fun _ => rfl).2
  rw [← h1] at h2
  cases h3 : prog.foldlM (runCaught F p N) (fun i => .ofVec (m.reg i).data) with
  | ok τ =>
    rw [h3] at h2
    refine ⟨τ, rfl, fun i b hi hb => ?_⟩
    obtain ⟨b', hb', hd⟩ := (C115_memory F p N prog m m' hm h).1.view i hi
    rw [hb] at hb'
    cases hb'
    rw [← hd]
    exact h2 i
  | panic | ub | diverge => rw [h3] at h2; exact h2.elim

end

/-! ## A program on the caller's buffers -/

/-- With `x_0` an exclusive view of `1`, `x_1` a shared view of `2 + e1 + 3 e2`: the first statement panics at the last entry, and the last one as well, whose result is dropped. -/
def lentProg : List (PStmt Int Int) := [.addMul 0 1 1 2, .add 0 1, .copy 2 0, .neg 1, .mul 3 1 1 2]

theorem lentProg_outcomes (p : Profile) : outcomes (rangeInt (-8) 7) p 2 viewRegs lentProg = [false, true, true, true, false] := by
  cases p <;> decide +kernel

/-- The program of the owned copies has the same panics and leaves the same entries. -/
example (p : Profile) : outcomes (rangeInt (-8) 7) p 2 ownedRegs lentProg = [false, true, true, true, false] := by
  rw [← (C118_same (rangeInt (-8) 7) p 2 lentProg (by intro i; simp [lentProg]) viewRegs ownedRegs fun _ => rfl).1]
  exact lentProg_outcomes p

/-- C118, a run: the buffer lent exclusively holds part of the product and the later sum, the shared buffer what it held before. -/
theorem C118_half_written (p : Profile) : showBufs (lentProg.foldlM (runMemCaught (rangeInt (-8) 7) p 2) viewMemory) = .ok ([3, 1, 3, 1, 3, 3, 0], [2, 1, 3]) ∧
    showRegs (lentProg.foldlM (runCaught (rangeInt (-8) 7) p 2) ownedRegs) = .ok [[3, 1, 3, 1, 3, 3, 0], [-2, -1, -3], [3, 1, 3, 1, 3, 3, 0]] := by
  cases p <;> decide +kernel

example (p : Profile) (m' : Memory Bool Int) (h : lentProg.foldlM (runMemCaught (rangeInt (-8) 7) p 2) viewMemory = .ok m') :=
  C118_in_place (rangeInt (-8) 7) p 2 lentProg (by intro i; simp [lentProg]) viewMemory m' viewMemory_lawful h

theorem lentProg_within : ∀ s ∈ lentProg, s.Within 2 2 := by
  intro s hs
  simp only [lentProg, List.mem_cons, List.not_mem_nil, or_false] at hs
  rcases hs with rfl | rfl | rfl | rfl | rfl <;> simp [PStmt.Within]

/-- The run is safe whatever the coefficients do. -/
example (p : Profile) := C118_safe (rangeInt (-8) 7) p 2 (C103_only_panics _ _).1 (by omega) (by omega) (D := 2) (by decide +kernel) (by decide) lentProg lentProg_within
  (by intro i; simp [lentProg]) (σ := viewRegs) (l := fun i => if i = 0 then 3 else if i = 1 then 2 else 0)
  (fun i => by unfold viewRegs; split_ifs <;> rfl) (fun i => by split_ifs <;> omega) ((C115_check _ _).1 (by decide))

example (p : Profile) := C118_same_clear (rangeInt (-8) 7) p 2 (.clear 1 :: .clear 0 :: lentProg) viewRegs
  (fun i => if i = 1 then .ofVec [2, 1, 3] else viewRegs i) (fun i => by split <;> simp_all [viewRegs, Dense.ofVec, Dense.ofBorrowed])
  (fun i => by split <;> simp_all [viewRegs, Dense.ofVec, Dense.ofBorrowed])

end RA
