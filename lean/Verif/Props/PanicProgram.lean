import Verif.Props.CheckedProg
import Verif.Props.StorageProgram

/-!
# Programs whose panics are caught (C115)

The coefficient arithmetic may panic in the middle of a statement, and the caller may catch the panic and go on with the registers as they are then.
-/

namespace RA
open Spec TensorKey TensorBasis Fallible

section
variable {S R : Type} (F : FCoeff S R) (p : Profile) (N : Nat)

/-- `x_i = v`: the old vector is replaced only if the new one has been computed. -/
def assignReg (σ : Nat → Dense S) (i : Nat) : Res (Dense S) → Res Unit × (Nat → Dense S)
  | .ok v => (.ok (), setReg σ i v)
  | .panic => (.panic, σ)
  | .ub => (.ub, σ)
  | .diverge => (.diverge, σ)

/-- A method on `&mut x_i`: the register holds what the method left there, also when it panicked. -/
def workReg (σ : Nat → Dense S) (i : Nat) (q : Res Unit × Dense S) : Res Unit × (Nat → Dense S) := (q.1, setReg σ i q.2)

/-- `if let Some(x) = v.get_mut(k) { *x = f(x) }`. -/
def changeEntry (w : List Nat) (f : S → S) (d : Dense S) : Res Unit × Dense S := withArg (fromLetters p N w) (fun k => do
  let _ ← (denseKeys (tensorBasis p N)).getMut k (fun x => (.ok (), f x))
  return ()) d

/-- A statement, executed with the methods of the crate: the outcome, and the registers at that moment. -/
def runStmtU (σ : Nat → Dense S) : PStmt S R → Res Unit × (Nat → Dense S)
  | .zero i => assignReg σ i (.ok .new)
  | .word i w s => assignReg σ i (do
    let k ← fromLetters p N w
    dFromKeyScalar F (tensorBasis p N) k s)
  | .terms i items => assignReg σ i (do
    let keys ← items.mapM (fun e => (fun k => (k, e.2)) <$> fromLetters p N e.1)
    fromIteratorF F (tensorBasis p N) keys)
  | .copy i j => assignReg σ i (σ j).toOwned
  | .swap i j => (.ok (), setReg (setReg σ i (σ j)) j (σ i))
  | .clear i => workReg σ i (.ok (), dClear F (σ i))
  | .modify i w f => workReg σ i (changeEntry p N w f (σ i))
  | .erase i w => workReg σ i (changeEntry p N w (fun _ => F.zero) (σ i))
  | .neg i => workReg σ i (dUminus F (σ i))
  | .add i j => workReg σ i (dAdd F (σ i) (σ j))
  | .sub i j => workReg σ i (dSub F (σ i) (σ j))
  | .scale i s => workReg σ i (dMul F (σ i) s)
  | .div i r => workReg σ i (dDiv F (σ i) r)
  | .mul i j k D => assignReg σ i (tMultiply F p N (σ j) (σ k) (some D))
  | .comm i j k D => assignReg σ i (tCommutator F p N (σ j) (σ k) (some D))
  | .addMul i j k D => workReg σ i (tAddMul F p N (σ i) (σ j) (σ k) (some D))
  | .subMul i j k D => workReg σ i (tSubMul F p N (σ i) (σ j) (σ k) (some D))

/-- A statement whose panic is caught. -/
def runCaught (σ : Nat → Dense S) (st : PStmt S R) : Res (Nat → Dense S) :=
  match runStmtU F p N σ st with
  | (.ok (), τ) => .ok τ
  | (.panic, τ) => .ok τ
  | (.ub, _) => .ub
  | (.diverge, _) => .diverge

theorem temp_assign (σ : Nat → Dense S) (i : Nat) (r : Res (Dense S)) : temp (assignReg σ i r) = r >>= fun v => pure (setReg σ i v) := by
  cases r <;> rfl

theorem temp_work (σ : Nat → Dense S) (i : Nat) (q : Res Unit × Dense S) : temp (workReg σ i q) = temp q >>= fun v => pure (setReg σ i v) := by
  obtain ⟨o, d⟩ := q
  cases o <;> rfl

theorem temp_change (w : List Nat) (f : S → S) (d : Dense S) : temp (changeEntry p N w f d) = (do
    let k ← fromLetters p N w
    let r ← Dense.getMut (tensorBasis p N) d k f
    return r.2) := by
  unfold changeEntry withArg
  cases fromLetters p N w with
  | ok k =>
    show temp (Unw.bind ((denseKeys (tensorBasis p N)).getMut k fun x => (.ok (), f x)) (fun _ => pure ()) d) = _
    unfold Unw.bind denseKeys Dense.getMut
    dsimp only [Res.bind_ok]
    cases (tensorBasis p N).keyToIndex k with
    | ok i =>
      by_cases h : i < d.data.length
      · simp [h, temp, List.modify_eq_set_getElem?, pure]
      · simp [h, temp, pure]
    | panic | ub | diverge => rfl
  | panic | ub | diverge => rfl

/-- C115.  If the statement returns, it has done what it does in C103. -/
theorem C115_returns (σ : Nat → Dense S) (st : PStmt S R) : temp (runStmtU F p N σ st) = runStmtF F p N σ st := by
  cases st with
  | swap i j | zero i | clear i => rfl
  | word i w s | terms i l =>
    refine (temp_assign _ _ _).trans ?_
    rw [bind_assoc]
    rfl
  | copy i j => rfl
  | modify i w f =>
    refine (temp_work _ _ _).trans ?_
    rw [temp_change, bind_assoc]
    refine congrArg (_ >>= ·) (funext fun k => ?_)
    rw [bind_assoc]
    rfl
  | erase i w =>
    refine (temp_work _ _ _).trans ?_
    rw [temp_change, bind_assoc]
    rfl
  | neg i | add i j | sub i j | scale i s | div i r | addMul i j k D | subMul i j k D => exact temp_work _ _ _
  | mul i j k D | comm i j k D => exact temp_assign _ _ _

/-! ## What a panic leaves behind -/

/-- The statement computes a new vector and stores it. -/
def Spec.PStmt.assigns : PStmt S R → Bool
  | .zero _ | .word _ _ _ | .terms _ _ | .copy _ _ | .mul _ _ _ _ | .comm _ _ _ _ => true
  | _ => false

theorem assign_panic {σ τ : Nat → Dense S} {i : Nat} {r : Res (Dense S)} (h : assignReg σ i r = (.panic, τ)) : τ = σ := by
  cases r <;> cases h
  rfl

/-- C115.  A statement that panics has changed no register but the one it works on, and none at all if it is an assignment. -/
theorem C115_frame (σ τ : Nat → Dense S) (st : PStmt S R) (h : runStmtU F p N σ st = (.panic, τ)) :
    (∀ j, j ≠ st.dest → τ j = σ j) ∧ (st.assigns = true → τ = σ) := by
  have work : ∀ {i : Nat} {q : Res Unit × Dense S}, workReg σ i q = (.panic, τ) → ∀ j, j ≠ i → τ j = σ j := by
    intro i q hq j hj
    obtain ⟨o, d⟩ := q
    cases hq
    unfold setReg
    rw [if_neg hj]
  cases st with
  | zero i | copy i j | swap i j => cases h
  | word i w s | terms i l | mul i j k D | comm i j k D => exact ⟨fun j _ => by rw [assign_panic h], fun _ => assign_panic h⟩
  | clear i | modify i w f | erase i w | neg i | add i j | sub i j | scale i s | div i r | addMul i j k D | subMul i j k D =>
    exact ⟨work h, nofun⟩

/-! ### The storage of a vector -/

/-- The computation keeps the vector to its storage rules, however it ends. -/
def KeepsU {T α : Type} (x : Unw (Dense S × T) α) : Prop := ∀ st, Keeps st.1 (x st).2.1

namespace KeepsU
variable {T α β : Type}

theorem lift (r : Res α) : KeepsU (Unw.lift r : Unw (Dense S × T) α) := fun st => .refl st.1

theorem bind {x : Unw (Dense S × T) α} {g : α → Unw (Dense S × T) β} (hx : KeepsU x) (hg : ∀ a, KeepsU (g a)) : KeepsU (x >>= g) := by
  intro st
  show Keeps st.1 (Unw.bind x g st).2.1
  unfold Unw.bind
  have := hx st
  rcases hq : x st with ⟨o, t⟩
  rw [hq] at this
  cases o
  · exact this.trans (hg _ t)
  · exact this
  · exact this
  · exact this

theorem pure (a : α) : KeepsU (Pure.pure a : Unw (Dense S × T) α) := fun st => .refl st.1

theorem foldlM {g : α → β → Unw (Dense S × T) α} (hg : ∀ a b, KeepsU (g a b)) (l : List β) (a : α) : KeepsU (l.foldlM g a) := by
  induction l generalizing a with
  | nil => exact pure a
  | cons b l ih =>
    rw [List.foldlM_cons]
    exact bind (hg a b) fun c => ih c

theorem asMut : KeepsU (DenseAlg.asMutU : Unw (Dense S × T) (List S)) := by
  intro st
  exact (Keeps.makeMut st.1).trans (.write _ _ (by simp))

theorem bufStep (upd : Update S T) (lo len : Nat) (a : S) (ptr : Nat) (b : S) : KeepsU (bufStepF upd lo len a ptr b) := by
  intro st
  unfold bufStepF
  split
  · exact .refl _
  · split <;> exact .write _ _ (by simp)

theorem grow_eq (m : Nat) (st : Dense S × T) : growToF F p N m st =
    match Dense.degree (tensorBasis p N) st.1 with
    | .ok sd =>
      if sd < m then
        match addW p 32 m 1 >>= startOfDegree p N with
        | .ok n => (.ok (), (resizeF F st.1 n, st.2))
        | .panic => (.panic, st)
        | .ub => (.ub, st)
        | .diverge => (.diverge, st)
      else (.ok (), st)
    | .panic => (.panic, st)
    | .ub => (.ub, st)
    | .diverge => (.diverge, st) := by
  unfold growToF
  show Unw.bind (Unw.lift (Dense.degree (tensorBasis p N) st.1)) _ st = _
  unfold Unw.bind Unw.lift
  cases Dense.degree (tensorBasis p N) st.1 with
  | ok sd =>
    dsimp only
    split
    · cases addW p 32 m 1 with
      | ok d =>
        show Unw.bind (Unw.lift (startOfDegree p N d)) _ st = _
        unfold Unw.bind Unw.lift
        rw [Res.bind_ok]
        cases startOfDegree p N d <;> rfl
      | panic | ub | diverge => rfl
    · rfl
  | panic | ub | diverge => rfl

theorem resizeF_keeps (d : Dense S) (n : Nat) : Keeps d (resizeF F d n) := by
  obtain ⟨m, a, b⟩ := d
  constructor <;> intro h <;> cases m <;> simp_all [resizeF]

theorem grow (m : Nat) : KeepsU (growToF F p N m : Unw (Dense S × T) Unit) := by
  intro st
  rw [grow_eq]
  repeat' split
  all_goals first | exact .refl _ | exact resizeF_keeps F _ _

theorem product (func : S → Res S) (v lhs rhs : Dense S) (d : Option Nat) : Keeps v (tMulAdd F p N func v lhs rhs d).2 := by
  have : KeepsU (mulAddIntoF F p N (fun (t : Unit) x => (func x, t)) lhs rhs d) := by
    unfold mulAddIntoF
    refine .bind (.lift _) fun _ => .bind (.lift _) fun _ => .bind (.lift _) fun _ => .bind (grow F p N _) fun _ => .foldlM (fun _ _ => ?_) _ _
    unfold mulAddDegreeF
    refine .bind (.lift _) fun _ => .foldlM (fun _ _ => ?_) _ _
    unfold mulAddStepF
    refine .bind (.lift _) fun _ => .bind asMut fun _ => .bind (.lift _) fun _ => .bind (.lift _) fun _ => .bind (.lift _) fun _ => .bind (.lift _) fun _ =>
      .bind (.lift _) fun _ => .bind (.lift _) fun _ => ?_
    unfold mulIntoBufferF
    exact .bind (.foldlM (fun _ _ => .foldlM (fun _ _ => bufStep _ _ _ _ _ _) _ _) _ _) fun _ => pure ()
  exact this (v, ())

end KeepsU

theorem zipLoop_length {A : Type} (g : S → A → Res Unit × S) (xs : List S) (ys : List A) : (zipLoop g xs ys).2.length = xs.length := by
  induction xs generalizing ys with
  | nil => rfl
  | cons x xs ih =>
    cases ys with
    | nil => rfl
    | cons y ys =>
      unfold zipLoop
      split <;> simp [ih]

theorem slice_keeps {d : Dense S} {q : Res Unit × List S} (h : q.2.length = d.data.length) : Keeps d (onSlice d q).2 := .write _ _ h

theorem grow_keeps (d : Dense S) (n : Nat) : Keeps d (grow F d n) := by
  unfold grow
  split
  · exact KeepsU.resizeF_keeps F d n
  · exact .refl d

theorem change_keeps (w : List Nat) (f : S → S) (d : Dense S) : Keeps d (changeEntry p N w f d).2 := by
  unfold changeEntry withArg
  cases fromLetters p N w with
  | ok k =>
    show Keeps d (Unw.bind ((denseKeys (tensorBasis p N)).getMut k fun x => (.ok (), f x)) (fun _ => pure ()) d).2
    unfold Unw.bind denseKeys
    dsimp only
    cases (tensorBasis p N).keyToIndex k with
    | ok i =>
      dsimp only
      cases d.data[i]? with
      | none => exact .makeMut d
      | some x => exact .write _ _ (by simp)
    | panic | ub | diverge => exact .makeMut d
  | panic | ub | diverge => exact .refl d

theorem clear_keeps (d : Dense S) : Keeps d (dClear F d) := by
  obtain ⟨m, a, b⟩ := d
  cases m
  · constructor <;> simp [dClear]
  · constructor <;> simp [dClear]
  · exact .write _ _ (by simp)

/-- What a statement has done to the registers, however it ended. -/
theorem stmtU_effect (σ : Nat → Dense S) (st : PStmt S R) :
    (st.assigns = false ∧ (∀ i j, st ≠ .swap i j) ∧ ∃ r, (runStmtU F p N σ st).2 = setReg σ st.dest r ∧ Keeps (σ st.dest) r) ∨
    (st.assigns = true ∧ ((∃ r, runStmtU F p N σ st = (.ok (), setReg σ st.dest r) ∧ r.mode = .owned) ∨
      ((runStmtU F p N σ st).1 ≠ .ok () ∧ (runStmtU F p N σ st).2 = σ))) ∨
    ∃ j, st = .swap st.dest j := by
  have asg : ∀ (i : Nat) (r : Res (Dense S)), (∀ v, r = .ok v → v.mode = .owned) →
      ((∃ v, assignReg σ i r = (.ok (), setReg σ i v) ∧ v.mode = .owned) ∨ ((assignReg σ i r).1 ≠ .ok () ∧ (assignReg σ i r).2 = σ)) := by
    intro i r hr
    cases r with
    | ok v => exact .inl ⟨v, rfl, hr v rfl⟩
    | panic | ub | diverge => exact .inr ⟨nofun, rfl⟩
  have tmp : ∀ {q : Res Unit × Dense S} {v : Dense S}, temp q = .ok v → q.2 = v := by
    intro q v h
    obtain ⟨o, d⟩ := q
    cases o <;> cases h
    rfl
  cases st with
  | zero i => exact .inr (.inl ⟨rfl, .inl ⟨_, rfl, rfl⟩⟩)
  | word i w s =>
    refine .inr (.inl ⟨rfl, asg _ _ fun v h => ?_⟩)
    obtain ⟨_, _, h⟩ := bind_inv h
    unfold dFromKeyScalar at h
    obtain ⟨_, _, h⟩ := bind_inv h
    obtain ⟨_, _, h⟩ := bind_inv h
    obtain ⟨_, _, h⟩ := bind_inv h
    cases h
    rfl
  | terms i l =>
    refine .inr (.inl ⟨rfl, asg _ _ fun v h => ?_⟩)
    obtain ⟨_, _, h⟩ := bind_inv h
    unfold fromIteratorF at h
    obtain ⟨_, _, h⟩ := bind_inv h
    split at h
    · cases h; rfl
    · obtain ⟨_, _, h⟩ := bind_inv h
      obtain ⟨_, _, h⟩ := bind_inv h
      cases h
      rfl
  | copy i j => exact .inr (.inl ⟨rfl, .inl ⟨_, rfl, rfl⟩⟩)
  | swap i j => exact .inr (.inr ⟨j, rfl⟩)
  | clear i => exact .inl ⟨rfl, nofun, _, rfl, clear_keeps F _⟩
  | modify i w f => exact .inl ⟨rfl, nofun, _, rfl, change_keeps p N _ _ _⟩
  | erase i w => exact .inl ⟨rfl, nofun, _, rfl, change_keeps p N _ _ _⟩
  | neg i => exact .inl ⟨rfl, nofun, _, rfl, slice_keeps (zipLoop_length _ _ _)⟩
  | add i j => exact .inl ⟨rfl, nofun, _, rfl, ((Keeps.makeMut _).trans (grow_keeps F _ _)).trans (slice_keeps (zipLoop_length _ _ _))⟩
  | sub i j => exact .inl ⟨rfl, nofun, _, rfl, (grow_keeps F _ _).trans (slice_keeps (zipLoop_length _ _ _))⟩
  | scale i s => exact .inl ⟨rfl, nofun, _, rfl, (Keeps.makeMut _).trans (slice_keeps (by rw [Dense.makeMut_data]; exact zipLoop_length _ _ _))⟩
  | div i r => exact .inl ⟨rfl, nofun, _, rfl, slice_keeps (zipLoop_length _ _ _)⟩
  | mul i j k D => exact .inr (.inl ⟨rfl, asg _ _ fun v h => tmp h ▸ (KeepsU.product F p N _ _ _ _ _).owned rfl⟩)
  | comm i j k D =>
    refine .inr (.inl ⟨rfl, asg _ _ fun v h => ?_⟩)
    obtain ⟨u, hu, h⟩ := bind_inv h
    exact tmp h ▸ (KeepsU.product F p N _ _ _ _ _).owned (tmp hu ▸ (KeepsU.product F p N _ _ _ _ _).owned rfl)
  | addMul i j k D => exact .inl ⟨rfl, nofun, _, rfl, KeepsU.product F p N _ _ _ _ _⟩
  | subMul i j k D => exact .inl ⟨rfl, nofun, _, rfl, KeepsU.product F p N _ _ _ _ _⟩

/-- A statement with the memory of the caller; its panic is caught.  After a panic in an assignment the register still holds the old vector. -/
def runMemCaught {ι : Type} [DecidableEq ι] (m : Memory ι S) (st : PStmt S R) : Res (Memory ι S) :=
  let q := runStmtU F p N m.reg st
  let tag := match q.1 with
    | .ok () => st.retag m.tag
    | _ => m.tag
  let m' : Memory ι S := ⟨q.2, tag, fun b => if tag st.dest = some b then (q.2 st.dest).lent else m.buf b⟩
  match q.1 with
  | .ok () => .ok m'
  | .panic => .ok m'
  | .ub => .ub
  | .diverge => .diverge

/-- The registers of such a run are those of `runCaught`. -/
theorem runMemCaught_reg {ι : Type} [DecidableEq ι] (prog : List (PStmt S R)) (m : Memory ι S) :
    Memory.reg <$> prog.foldlM (runMemCaught F p N) m = prog.foldlM (runCaught F p N) m.reg := by
  induction prog generalizing m with
  | nil => rfl
  | cons s prog ih =>
    rw [List.foldlM_cons, List.foldlM_cons]
    unfold runMemCaught runCaught at ih ⊢
    rcases runStmtU F p N m.reg s with ⟨o, τ⟩
    cases o with
    | ok u => exact ih _
    | panic => exact ih _
    | ub | diverge => rfl

/-- C115.  Any coefficients with any panics, any program, every panic caught and the program continued with what is in the registers: no buffer of the caller
changes its length, a buffer that was not lent exclusively does not change at all, every register that is still a view shows the content of its buffer, and no
vector shares a buffer with an exclusive view. -/
theorem C115_memory {ι : Type} [DecidableEq ι] (prog : List (PStmt S R)) (m m' : Memory ι S) (hm : m.Lawful)
    (h : prog.foldlM (runMemCaught F p N) m = .ok m') :
    m'.Lawful ∧ (∀ b, (m'.buf b).length = (m.buf b).length) ∧ ∀ b, ¬ m.Exclusive b → m'.buf b = m.buf b := by
  have step : ∀ (x : Memory ι S) st (x' : Memory ι S), x.Lawful → runMemCaught F p N x st = .ok x' →
      x'.Lawful ∧ (∀ b, (x'.buf b).length = (x.buf b).length) ∧ ∀ b, ¬ x.Exclusive b → x'.buf b = x.buf b ∧ ¬ x'.Exclusive b := by
    intro x st x' hx hs
    unfold runMemCaught at hs
    dsimp only at hs
    have heff := stmtU_effect F p N x.reg st
    have htag : st.assigns = false → (∀ i j, st ≠ .swap i j) → st.retag x.tag = x.tag := by
      intro h1 h2
      cases st <;> first | rfl | exact absurd rfl (h2 _ _) | cases h1
    have htag' : st.assigns = true → st.retag x.tag = setReg x.tag st.dest none := by
      intro h1
      cases st <;> first | rfl | cases h1
    have same : x.reg = setReg x.reg st.dest (x.reg st.dest) := by
      funext j
      unfold setReg
      split_ifs with hj
      · rw [hj]
      · rfl
    rcases heff with ⟨ha, hsw, r, hr, hk⟩ | ⟨ha, ⟨r, hr, hk⟩ | ⟨hne, hr⟩⟩ | ⟨j, hj⟩
    · rw [htag ha hsw] at hs
      have ht : (match (runStmtU F p N x.reg st).1 with | .ok () => x.tag | _ => x.tag) = x.tag := by split <;> rfl
      rw [ht] at hs
      refine mem_effect hx (.inl ⟨r, hr, hk, rfl⟩) ?_
      split at hs <;> cases hs <;> rfl
    · rw [hr] at hs
      cases hs
      exact mem_effect hx (.inr (.inl ⟨r, rfl, hk, htag' ha⟩)) rfl
    · refine mem_effect hx (i := st.dest) (.inl ⟨_, hr.trans same, .refl _, rfl⟩) ?_
      split at hs
      · rename_i h1; exact absurd h1 hne
      · rename_i h1; rw [h1] at hs; cases hs; rfl
      · cases hs
      · cases hs
    · generalize st.dest = i at hj
      subst hj
      cases hs
      exact mem_effect hx (.inr (.inr ⟨j, rfl, rfl⟩)) rfl
  have key := foldlM_keep (fun x : Memory ι S => x.Lawful ∧ (∀ b, (x.buf b).length = (m.buf b).length) ∧
    ∀ b, ¬ m.Exclusive b → x.buf b = m.buf b ∧ ¬ x.Exclusive b) _ (fun x st x' hx hs => ?_) prog m m' ⟨hm, fun _ => rfl, fun _ hb => ⟨rfl, hb⟩⟩ h
  · exact ⟨key.1, key.2.1, fun b hb => (key.2.2 b hb).1⟩
  · obtain ⟨a, b, c⟩ := step x st x' hx.1 hs
    exact ⟨a, fun i => (b i).trans (hx.2.1 i), fun i hi => ⟨(c i (hx.2.2 i hi).2).1.trans (hx.2.2 i hi).1, (c i (hx.2.2 i hi).2).2⟩⟩

/-! ## Memory safety with caught panics -/

/-- The computation keeps the size of the vector, however it ends. -/
def SizeU {T α : Type} (x : Unw (Dense S × T) α) : Prop := ∀ st, (x st).2.1.size = st.1.size

namespace SizeU
variable {T α β : Type}

theorem lift (r : Res α) : SizeU (Unw.lift r : Unw (Dense S × T) α) := fun _ => rfl

theorem bind {x : Unw (Dense S × T) α} {g : α → Unw (Dense S × T) β} (hx : SizeU x) (hg : ∀ a, SizeU (g a)) : SizeU (x >>= g) := by
  intro st
  show (Unw.bind x g st).2.1.size = st.1.size
  unfold Unw.bind
  have := hx st
  rcases hq : x st with ⟨o, t⟩
  rw [hq] at this
  cases o
  · exact (hg _ t).trans this
  · exact this
  · exact this
  · exact this

theorem pure (a : α) : SizeU (Pure.pure a : Unw (Dense S × T) α) := fun _ => rfl

theorem foldlM {g : α → β → Unw (Dense S × T) α} (hg : ∀ a b, SizeU (g a b)) (l : List β) (a : α) : SizeU (l.foldlM g a) := by
  induction l generalizing a with
  | nil => exact pure a
  | cons b l ih =>
    rw [List.foldlM_cons]
    exact bind (hg a b) fun c => ih c

theorem asMut : SizeU (DenseAlg.asMutU : Unw (Dense S × T) (List S)) := by
  intro st
  show (DenseAlg.asMut st.1).size = _
  unfold Dense.size
  rw [DenseAlg.asMut_data]

theorem bufStep (upd : Update S T) (lo len : Nat) (a : S) (ptr : Nat) (b : S) : SizeU (bufStepF upd lo len a ptr b) := by
  intro st
  unfold bufStepF
  split
  · rfl
  · split <;> simp [Dense.size, Dense.writeSlice_data]

theorem degrees (upd : Update S T) (lhs rhs : Dense S) (a b : Nat) (L : List Nat) : SizeU (L.foldlM (mulAddDegreeF p N upd lhs rhs a b) ()) := by
  refine .foldlM (fun _ _ => ?_) _ _
  unfold mulAddDegreeF
  refine .bind (.lift _) fun _ => .foldlM (fun _ _ => ?_) _ _
  unfold mulAddStepF
  refine .bind (.lift _) fun _ => .bind asMut fun _ => .bind (.lift _) fun _ => .bind (.lift _) fun _ => .bind (.lift _) fun _ => .bind (.lift _) fun _ =>
    .bind (.lift _) fun _ => .bind (.lift _) fun _ => ?_
  unfold mulIntoBufferF
  exact .bind (.foldlM (fun _ _ => .foldlM (fun _ _ => bufStep _ _ _ _ _ _) _ _) _ _) fun _ => pure ()

end SizeU

theorem resizeF_size (d : Dense S) (n : Nat) : (resizeF F d n).size = n := by
  obtain ⟨m, a, b⟩ := d
  cases m <;> exact vecResize_length _ _ _

/-- The size of the target of a product, however it ended: as before, or large enough for the product. -/
theorem product_size (h2 : 2 ≤ N) {D D' : Nat} (hp : N ^ (D + 1) < 2 ^ 64) (hD : D' ≤ D) (func : S → Res S) {v a b : Dense S} {lv la lb : Nat}
    (hv : v.size = geomSum N lv) (ha : a.size = geomSum N la) (hb : b.size = geomSum N lb) (hlv : lv ≤ D + 1) (hla : la ≤ D + 1) (hlb : lb ≤ D + 1) :
    (tMulAdd F p N func v a b (some D')).2.size = geomSum N lv ∨
    (tMulAdd F p N func v a b (some D')).2.size = geomSum N (max lv (prodDeg D' la lb + 1)) := by
  have deg : ∀ (x : Dense S) l, x.size = geomSum N l → l ≤ D + 1 → Dense.degree (tensorBasis p N) x = .ok (l - 1) := by
    intro x l hx hl
    refine DenseAlg.degree_ok p N h2 x (l - 1) ?_ (pow_lt64_mono h2 (by omega) hp)
    unfold DenseAlg.DegIs
    unfold Dense.size at hx
    rcases Nat.eq_zero_or_pos l with h0 | h0
    · subst h0; exact .inl ⟨hx, rfl⟩
    · right
      rw [hx, Nat.sub_add_cancel h0]
      exact ⟨geomSum_strict (by omega) (by omega), le_rfl⟩
  have hD64 := deg_lt64 h2 hp
  have hm : DenseAlg.maxDeg p (some D') (la - 1) (lb - 1) = .ok (prodDeg D' la lb) := by
    unfold DenseAlg.maxDeg
    rw [addW_ok (by omega)]
    rfl
  unfold tMulAdd mulAddIntoF
  dsimp only
  rw [deg a la ha hla, deg b lb hb hlb]
  show (Unw.bind (Unw.lift (DenseAlg.maxDeg p (some D') (la - 1) (lb - 1))) _ (v, ())).2.1.size = _ ∨ (Unw.bind (Unw.lift (DenseAlg.maxDeg p (some D') (la - 1) (lb - 1))) _ (v, ())).2.1.size = _
  rw [hm]
  show (Unw.bind (growToF F p N (prodDeg D' la lb)) _ (v, ())).2.1.size = _ ∨ (Unw.bind (growToF F p N (prodDeg D' la lb)) _ (v, ())).2.1.size = _
  unfold Unw.bind
  rw [KeepsU.grow_eq, deg v lv hv hlv]
  have hle : prodDeg D' la lb ≤ D := (Nat.min_le_left _ _).trans hD
  dsimp only
  split_ifs with hlt
  · rw [addW_ok (by omega), Res.bind_ok, startOfDegree_ok p N h2 _ (pow_lt64_mono h2 (by omega) hp)]
    right
    refine (SizeU.degrees p N _ _ _ _ _ _ _).trans ?_
    rw [resizeF_size, Nat.max_eq_right (by omega)]
  · exact .inl ((SizeU.degrees p N _ _ _ _ _ _ _).trans hv)

/-- The statement does arithmetic on coefficients. -/
def Spec.PStmt.arith : PStmt S R → Bool
  | .zero _ | .word _ _ _ | .copy _ _ | .swap _ _ | .clear _ | .modify _ _ _ | .erase _ _ => false
  | _ => true

/-- The second program is the first one without some of its arithmetic statements. -/
inductive Struck : List (PStmt S R) → List (PStmt S R) → Prop
  | nil : Struck [] []
  | keep (s) {l l'} : Struck l l' → Struck (s :: l) (s :: l')
  | strike (s) {l l'} : s.arith = true → Struck l l' → Struck (s :: l) l'

theorem Struck.refl (l : List (PStmt S R)) : Struck l l := by
  induction l with
  | nil => exact .nil
  | cons s l ih => exact .keep s ih

/-- The numbers of levels after a program. -/
def levelsAfter (l : Nat → Nat) (prog : List (PStmt S R)) : Nat → Nat := prog.foldl (fun l s => s.levels l) l

/-- No register is an exclusive view, and each stores exactly the words of fewer than `l i` letters. -/
def Shaped (σ : Nat → Dense S) (l : Nat → Nat) : Prop := ∀ i, (σ i).mode ≠ .borrowedMut ∧ (σ i).size = geomSum N (l i)

/-- The same coefficients with an equality test that returns. -/
def noEq : FCoeff S R := { F with eq := fun _ _ => .ok true }

theorem runStmtF_noEq (σ : Nat → Dense S) (st : PStmt S R) : runStmtF F p N σ st = runStmtF (noEq F) p N σ st := by
  cases st <;> rfl

theorem forgetRef : FRef F.OnlyPanics (fun _ _ => True) (fun _ _ => True) (noEq F) (.ofCoeff (zeroOnly F.zero)) := by
  have one : ∀ {A B : Type} {x : Res A} (b : B), (F.OnlyPanics → x.ReturnsOrPanics) → ResRef F.OnlyPanics (fun _ _ => True) x (.ok b) := by
    intro A B x b h
    cases x with
    | ok a => exact ⟨b, rfl, trivial⟩
    | panic => trivial
    | ub => exact fun hz => absurd rfl (h hz).1
    | diverge => exact fun hz => absurd rfl (h hz).2
  refine ⟨trivial, trivial, trivial, fun _ _ _ _ _ _ => ⟨true, rfl, rfl⟩, fun x _ _ => one _ fun h => h.uminus x, fun x _ y _ _ _ => one _ fun h => h.mul x y,
    fun x _ y _ _ _ => one _ fun h => h.div x y, fun x _ y _ _ _ => one _ fun h => h.addIn x y, fun x _ y _ _ _ => one _ fun h => h.subIn x y,
    fun x _ y _ _ _ => one _ fun h => h.mulIn x y, fun x _ y _ _ _ => one _ fun h => h.divIn x y⟩

/-- The statement without its scalars. -/
theorem forgetStmt (st : PStmt S R) : ∃ st' : PStmt S Unit, StmtRel (fun _ _ => True) (fun _ _ => True) st st' ∧ (∀ N D, st.Within N D → st'.Within N D) ∧
    (∀ l, st'.levels l = st.levels l) ∧ (∀ l, st'.allowed l = st.allowed l) ∧
    (st.arith = false → ∀ p N σ, runStmtF F p N σ st = runStmtF (.ofCoeff (zeroOnly F.zero)) p N σ st') := by
  cases st with
  | zero i => exact ⟨.zero i, .zero i, fun _ _ h => h, fun _ => rfl, fun _ => rfl, fun _ _ _ _ => rfl⟩
  | word i w s => exact ⟨.word i w s, .word i w _ _ trivial, fun _ _ h => h, fun _ => rfl, fun _ => rfl, fun _ _ _ _ => rfl⟩
  | terms i l => exact ⟨.terms i l, .terms i _ _ (List.forall₂_same.2 fun _ _ => ⟨rfl, trivial⟩), fun _ _ h => h, fun _ => rfl, fun _ => rfl, nofun⟩
  | copy i j => exact ⟨.copy i j, .copy i j, fun _ _ h => h, fun _ => rfl, fun _ => rfl, fun _ _ _ _ => rfl⟩
  | swap i j => exact ⟨.swap i j, .swap i j, fun _ _ h => h, fun _ => rfl, fun _ => rfl, fun _ _ _ _ => rfl⟩
  | clear i => exact ⟨.clear i, .clear i, fun _ _ h => h, fun _ => rfl, fun _ => rfl, fun _ _ _ _ => rfl⟩
  | modify i w f => exact ⟨.modify i w f, .modify i w _ _ fun _ _ _ => trivial, fun _ _ h => h, fun _ => rfl, fun _ => rfl, fun _ _ _ _ => rfl⟩
  | erase i w => exact ⟨.erase i w, .erase i w, fun _ _ h => h, fun _ => rfl, fun _ => rfl, fun _ _ _ _ => rfl⟩
  | neg i => exact ⟨.neg i, .neg i, fun _ _ h => h, fun _ => rfl, fun _ => rfl, nofun⟩
  | add i j => exact ⟨.add i j, .add i j, fun _ _ h => h, fun _ => rfl, fun _ => rfl, nofun⟩
  | sub i j => exact ⟨.sub i j, .sub i j, fun _ _ h => h, fun _ => rfl, fun _ => rfl, nofun⟩
  | scale i s => exact ⟨.scale i s, .scale i _ _ trivial, fun _ _ h => h, fun _ => rfl, fun _ => rfl, nofun⟩
  | div i r => exact ⟨.div i (), .div i _ _ trivial, fun _ _ h => h, fun _ => rfl, fun _ => rfl, nofun⟩
  | mul i j k D => exact ⟨.mul i j k D, .mul i j k D, fun _ _ h => h, fun _ => rfl, fun _ => rfl, nofun⟩
  | comm i j k D => exact ⟨.comm i j k D, .comm i j k D, fun _ _ h => h, fun _ => rfl, fun _ => rfl, nofun⟩
  | addMul i j k D => exact ⟨.addMul i j k D, .addMul i j k D, fun _ _ h => h, fun _ => rfl, fun _ => rfl, nofun⟩
  | subMul i j k D => exact ⟨.subMul i j k D, .subMul i j k D, fun _ _ h => h, fun _ => rfl, fun _ => rfl, nofun⟩

/-- How a statement ends, by the numbers of levels: if it is allowed it returns or panics, otherwise it does not return. -/
theorem stmtF_ends (hF : F.OnlyPanics) (h2 : 2 ≤ N) (hN : N < 2 ^ 32) {D : Nat} (hm : D ≤ maxDepth N) (hp : N ^ (D + 1) < 2 ^ 64) (st : PStmt S R)
    (hs : st.Within N D) {σ : Nat → Dense S} {l : Nat → Nat} (h : Shaped N σ l) (hl : ∀ i, l i ≤ D + 1) :
    (st.allowed l = true → (∃ τ, runStmtF F p N σ st = .ok τ ∧ Shaped N τ (st.levels l)) ∨ (st.arith = true ∧ runStmtF F p N σ st = .panic)) ∧
    (st.allowed l = false → runStmtF F p N σ st = .panic ∨ runStmtF F p N σ st = .ub) := by
  obtain ⟨st', hrel, hw, hlev, hall, hpure⟩ := forgetStmt F st
  have hh : ∀ i, Holds N (σ i) ⟨l i, stored N (σ i)⟩ := fun i => ⟨(h i).1, (h i).2, fun _ _ => rfl⟩
  obtain ⟨s1, s2⟩ := runStmt_step (zeroOnly F.zero) p h2 hN hm hp st' (hw _ _ hs) (τ := fun i => ⟨l i, stored N (σ i)⟩) hh hl
  have hdrel : ∀ i, DRel (fun _ _ => True) (σ i) (σ i) := fun i => ⟨rfl, forall₂_true rfl, forall₂_true rfl⟩
  have href := runStmtF_ref p N (forgetRef F) hdrel hrel
  rw [← runStmtF_noEq, ← runStmtF_total] at href
  rw [hall] at s1 s2
  constructor
  · intro ha
    obtain ⟨τ', hτ', hsh⟩ := s1 ha
    have hsh' : Shaped N τ' (st.levels l) := by
      intro i
      refine ⟨(hsh i).1, (hsh i).2.1.trans ?_⟩
      rw [levels_eval, hlev]
    cases hx : runStmtF F p N σ st with
    | ok τ =>
      rw [hx] at href
      obtain ⟨b, hb, hrel'⟩ := href
      cases hτ'.symm.trans hb
      exact .inl ⟨τ, rfl, fun i => ⟨(hrel' i).mode ▸ (hsh' i).1, (hrel' i).data.length_eq.trans (hsh' i).2⟩⟩
    | panic =>
      right
      refine ⟨?_, rfl⟩
      by_contra hc
      have := hpure (by simpa using hc) p N σ
      rw [hx, ← runStmtF_total, hτ'] at this
      cases this
    | ub =>
      rw [hx] at href
      cases hτ'.symm.trans (href hF)
    | diverge =>
      rw [hx] at href
      cases hτ'.symm.trans (href hF)
  · intro ha
    have hub := s2 ha
    cases hx : runStmtF F p N σ st with
    | ok τ =>
      rw [hx] at href
      obtain ⟨b, hb, _⟩ := href
      cases hub.symm.trans hb
    | panic => exact .inl rfl
    | ub => exact .inr rfl
    | diverge =>
      rw [hx] at href
      cases hub.symm.trans (href hF)

/-- The sizes a panic leaves behind: those before the statement or those after it. -/
theorem panic_levels (h2 : 2 ≤ N) {D : Nat} (hp : N ^ (D + 1) < 2 ^ 64) (st : PStmt S R)
    (hs : st.Within N D) {σ τ : Nat → Dense S} {l : Nat → Nat} (h : Shaped N σ l) (hl : ∀ i, l i ≤ D + 1) (ha : st.arith = true)
    (hq : runStmtU F p N σ st = (.panic, τ)) : Shaped N τ l ∨ Shaped N τ (st.levels l) := by
  have set : ∀ {i : Nat} {v : Dense S} {n : Nat}, Keeps (σ i) v → v.size = geomSum N n → Shaped N (setReg σ i v) (setReg l i n) := by
    intro i v n hk hv j
    unfold setReg
    split_ifs with hj
    · exact ⟨(hk.other (h i).1).2, hv⟩
    · exact h j
  have same : ∀ i, setReg l i (l i) = l := by
    intro i
    funext j
    unfold setReg
    split_ifs with hj
    · rw [hj]
    · rfl
  have hτ : τ = (runStmtU F p N σ st).2 := by rw [hq]
  have hgrow : ∀ (d : Dense S) {a b : Nat}, d.size = geomSum N a → (grow F d (geomSum N b)).size = geomSum N (max a b) := by
    intro d a b hd
    unfold grow
    rw [← geomSum_max, ← hd]
    split_ifs with hc
    · rw [resizeF_size]; omega
    · omega
  have hzip : ∀ {A : Type} (g : S → A → Res Unit × S) (d : Dense S) (ys : List A), (onSlice d (zipLoop g d.data ys)).2.size = d.size := by
    intro A g d ys
    show (d.writeSlice _).data.length = d.data.length
    rw [Dense.writeSlice_data, zipLoop_length]
  cases st with
  | zero i | word i w s | copy i j | swap i j | clear i | modify i w f | erase i w => cases ha
  | terms i l' | mul i j k D | comm i j k D => exact .inl (by rw [(C115_frame F p N σ τ _ hq).2 rfl]; exact h)
  | neg i =>
    subst hτ
    have := set (i := i) (n := l i) (v := (dUminus F (σ i)).2) (slice_keeps (zipLoop_length _ _ _)) ((hzip _ _ _).trans (h i).2)
    rw [same] at this
    exact .inl this
  | div i r =>
    subst hτ
    have := set (i := i) (n := l i) (v := (dDiv F (σ i) r).2) (slice_keeps (zipLoop_length _ _ _)) ((hzip _ _ _).trans (h i).2)
    rw [same] at this
    exact .inl this
  | scale i s =>
    subst hτ
    have := set (i := i) (n := l i) (v := (dMul F (σ i) s).2) ((Keeps.makeMut _).trans (slice_keeps (by rw [Dense.makeMut_data]; exact zipLoop_length _ _ _))) (by
      show ((σ i).makeMut.writeSlice _).data.length = _
      rw [Dense.writeSlice_data]
      exact (zipLoop_length _ _ _).trans (h i).2)
    rw [same] at this
    exact .inl this
  | add i j =>
    subst hτ
    refine .inr (set (((Keeps.makeMut _).trans (grow_keeps F _ _)).trans (slice_keeps (zipLoop_length _ _ _))) ((hzip _ _ _).trans ?_))
    rw [(h j).2]
    refine hgrow _ ?_
    unfold Dense.size
    rw [Dense.makeMut_data]
    exact (h i).2
  | sub i j =>
    subst hτ
    refine .inr (set ((grow_keeps F _ _).trans (slice_keeps (zipLoop_length _ _ _))) ((hzip _ _ _).trans ?_))
    rw [(h j).2]
    exact hgrow _ (h i).2
  | addMul i j k D' =>
    subst hτ
    rcases product_size F p N h2 hp hs .ok (h i).2 (h j).2 (h k).2 (hl i) (hl j) (hl k) with e | e
    · have := set (KeepsU.product F p N _ _ _ _ _) e
      rw [same] at this
      exact .inl this
    · exact .inr (set (KeepsU.product F p N _ _ _ _ _) e)
  | subMul i j k D' =>
    subst hτ
    rcases product_size F p N h2 hp hs F.uminus (h i).2 (h j).2 (h k).2 (hl i) (hl j) (hl k) with e | e
    · have := set (KeepsU.product F p N _ _ _ _ _) e
      rw [same] at this
      exact .inl this
    · exact .inr (set (KeepsU.product F p N _ _ _ _ _) e)

/-- C115.  One statement on complete tensors: if its product is allowed it returns or panics, and only arithmetic can panic; either way the registers are complete
tensors again, with the numbers of levels from before or from after the statement. -/
theorem C115_step (hF : F.OnlyPanics) (h2 : 2 ≤ N) (hN : N < 2 ^ 32) {D : Nat} (hm : D ≤ maxDepth N) (hp : N ^ (D + 1) < 2 ^ 64) (st : PStmt S R)
    (hs : st.Within N D) {σ : Nat → Dense S} {l : Nat → Nat} (h : Shaped N σ l) (hl : ∀ i, l i ≤ D + 1) (ha : st.allowed l = true) :
    ∃ τ, (runStmtU F p N σ st = (.ok (), τ) ∧ Shaped N τ (st.levels l)) ∨
      (st.arith = true ∧ runStmtU F p N σ st = (.panic, τ) ∧ (Shaped N τ l ∨ Shaped N τ (st.levels l))) := by
  have hret := C115_returns F p N σ st
  rcases hq : runStmtU F p N σ st with ⟨o, τ⟩
  rw [hq] at hret
  refine ⟨τ, ?_⟩
  rcases (stmtF_ends F p N hF h2 hN hm hp st hs h hl).1 ha with ⟨τ', e, hsh⟩ | ⟨har, e⟩
  · rw [e] at hret
    cases o <;> cases hret
    exact .inl ⟨rfl, hsh⟩
  · rw [e] at hret
    cases o <;> cases hret
    exact .inr ⟨har, rfl, panic_levels F p N h2 hp st hs h hl har hq⟩

/-- C115.  A product that is not allowed does not return: it panics or it is undefined behaviour. -/
theorem C115_not_allowed (hF : F.OnlyPanics) (h2 : 2 ≤ N) (hN : N < 2 ^ 32) {D : Nat} (hm : D ≤ maxDepth N) (hp : N ^ (D + 1) < 2 ^ 64) (st : PStmt S R)
    (hs : st.Within N D) {σ : Nat → Dense S} {l : Nat → Nat} (h : Shaped N σ l) (hl : ∀ i, l i ≤ D + 1) (ha : st.allowed l = false) :
    (runStmtU F p N σ st).1 = .panic ∨ (runStmtU F p N σ st).1 = .ub := by
  have hret := C115_returns F p N σ st
  rcases hq : runStmtU F p N σ st with ⟨o, τ⟩
  rw [hq] at hret
  rcases (stmtF_ends F p N hF h2 hN hm hp st hs h hl).2 ha with e | e <;> rw [e] at hret <;> cases o <;> cases hret
  · exact .inl rfl
  · exact .inr rfl

/-- C115, memory safety.  Coefficients that may panic anywhere, a program, every panic caught: if each product is allowed in the program, and in every program
got from it by striking out arithmetic statements, then the run has no undefined behaviour and ends.  The registers then have the sizes they have after one of these
programs, so each stores all words up to some degree. -/
theorem C115_safe (hF : F.OnlyPanics) (h2 : 2 ≤ N) (hN : N < 2 ^ 32) {D : Nat} (hm : D ≤ maxDepth N) (hp : N ^ (D + 1) < 2 ^ 64) (prog : List (PStmt S R))
    (hs : ∀ s ∈ prog, s.Within N D) {σ : Nat → Dense S} {l : Nat → Nat} (h : Shaped N σ l) (hl : ∀ i, l i ≤ D + 1)
    (ha : ∀ prog', Struck prog prog' → allowedProg l prog' = true) :
    ∃ τ prog', prog.foldlM (runCaught F p N) σ = .ok τ ∧ Struck prog prog' ∧ Shaped N τ (levelsAfter l prog') := by
  induction prog generalizing σ l with
  | nil => exact ⟨σ, [], rfl, .nil, h⟩
  | cons s prog ih =>
    have hall : s.allowed l = true := by
      have := ha _ (.keep s (.refl prog))
      simp only [allowedProg, Bool.and_eq_true] at this
      exact this.1
    have keep : ∀ prog', Struck prog prog' → allowedProg (s.levels l) prog' = true := by
      intro prog' hk
      have := ha _ (.keep s hk)
      simp only [allowedProg, Bool.and_eq_true] at this
      exact this.2
    have hl' := levels_le s (hs s (by simp)) l hl
    have hs' : ∀ t ∈ prog, t.Within N D := fun t ht => hs t (by simp [ht])
    rw [List.foldlM_cons]
    obtain ⟨τ, ⟨hr, hsh⟩ | ⟨har, hr, hsh | hsh⟩⟩ := C115_step F p N hF h2 hN hm hp s (hs s (by simp)) h hl hall
    · obtain ⟨τ', prog', e, hk, hfin⟩ := ih hs' hsh hl' keep
      refine ⟨τ', s :: prog', ?_, .keep s hk, hfin⟩
      unfold runCaught at e ⊢
      rw [hr]
      exact e
    · obtain ⟨τ', prog', e, hk, hfin⟩ := ih hs' hsh hl fun q hq => ha q (.strike s har hq)
      refine ⟨τ', prog', ?_, .strike s har hk, hfin⟩
      unfold runCaught at e ⊢
      rw [hr]
      exact e
    · obtain ⟨τ', prog', e, hk, hfin⟩ := ih hs' hsh hl' keep
      refine ⟨τ', s :: prog', ?_, .keep s hk, hfin⟩
      unfold runCaught at e ⊢
      rw [hr]
      exact e

end

theorem Struck.cons_inv {S R : Type} {s : PStmt S R} {l q : List (PStmt S R)} (h : Struck (s :: l) q) :
    (∃ l', q = s :: l' ∧ Struck l l') ∨ (s.arith = true ∧ Struck l q) := by
  cases h with
  | keep _ h => exact .inl ⟨_, rfl, h⟩
  | strike _ ha h => exact .inr ⟨ha, h⟩

/-- What has to be checked, as a function. -/
def allowedStruck {S R : Type} (l : Nat → Nat) : List (PStmt S R) → Bool
  | [] => true
  | s :: prog => s.allowed l && allowedStruck (s.levels l) prog && (!s.arith || allowedStruck l prog)

/-- C115.  The condition of `C115_safe` can be computed from word lengths and truncation degrees. -/
theorem C115_check {S R : Type} (l : Nat → Nat) (prog : List (PStmt S R)) :
    allowedStruck l prog = true ↔ ∀ prog', Struck prog prog' → allowedProg l prog' = true := by
  induction prog generalizing l with
  | nil => exact ⟨fun _ q h => by cases h; rfl, fun _ => rfl⟩
  | cons s prog ih =>
    simp only [allowedStruck, Bool.and_eq_true, Bool.or_eq_true, Bool.not_eq_true', ih]
    constructor
    · rintro ⟨⟨h1, h3⟩, h4⟩ q hq
      rcases hq.cons_inv with ⟨l', rfl, hk⟩ | ⟨ha, hk⟩
      · simp only [allowedProg, h1, h3 _ hk, Bool.and_self]
      · rcases h4 with h4 | h4
        · rw [ha] at h4; cases h4
        · exact h4 _ hk
    · intro h
      have keep : ∀ q, Struck prog q → s.allowed l = true ∧ allowedProg (s.levels l) q = true := fun q hq => by
        have := h _ (.keep s hq)
        simpa only [allowedProg, Bool.and_eq_true] using this
      refine ⟨⟨(keep _ (.refl prog)).1, fun q hq => (keep q hq).2⟩, ?_⟩
      cases ha : s.arith with
      | false => exact .inl rfl
      | true => exact .inr fun q hq => h q (.strike s ha hq)

/-! ## Examples: integers from -8 to 7 -/


/-- `x = 2 e1; y = 3 e2; z = 1; x += y`; `y += x * x` overflows at the last word of degree two and has added the products before it; `x *= 3` overflows at the second
letter and has scaled what comes before it; `z = x y - y x` overflows and is not stored; `x = -x` returns. -/
def panicProg : List (PStmt Int Int) := [.word 0 [1] 2, .word 1 [2] 3, .word 2 [] 1, .add 0 1, .addMul 1 0 0 2, .scale 0 3, .comm 2 0 1 3, .neg 0]

example (p : Profile) : showRegs (panicProg.foldlM (runCaught (rangeInt (-8) 7) p 2) fun _ => .new) =
    .ok [[0, -6, -3], [0, 0, 3, 4, 6, 6, 0], [1]] := by cases p <;> decide +kernel

theorem panicProg_within : ∀ s ∈ panicProg, s.Within 2 3 := by
  intro s hs
  simp only [panicProg, List.mem_cons, List.not_mem_nil, or_false] at hs
  rcases hs with rfl | rfl | rfl | rfl | rfl | rfl | rfl | rfl <;> simp [PStmt.Within, ValidWord]

theorem panicProg_allowed : ∀ prog', Struck panicProg prog' → allowedProg (fun _ => 0) prog' = true := (C115_check _ _).1 (by decide +kernel)

theorem shaped_new {S : Type} (N : Nat) : Shaped N (fun _ => (Dense.new : Dense S)) fun _ => 0 := fun _ => ⟨by simp [Dense.new, Dense.ofVec], rfl⟩

example (p : Profile) := C115_safe (rangeInt (-8) 7) p 2 (C103_only_panics _ _).1 (by omega) (by omega) (by decide +kernel) (by decide) panicProg panicProg_within
  (shaped_new 2) (fun _ => Nat.zero_le _) panicProg_allowed

/-- The condition matters.  Here every product is allowed, but `x = y y` overflows, the caller catches the panic, and then `z = x x` multiplies an empty vector. -/
theorem C115_unsafe_after_panic (p : Profile) :
    allowedProg (fun _ => 0) ([.word 1 [1] 3, .mul 0 1 1 2, .mul 2 0 0 2] : List (PStmt Int Int)) = true ∧
    showRegs (([.word 1 [1] 3, .mul 0 1 1 2, .mul 2 0 0 2] : List (PStmt Int Int)).foldlM (runCaught (rangeInt (-8) 7) p 2) fun _ => .new) = .ub ∧
    showRegs (([.word 1 [1] 2, .mul 0 1 1 2, .mul 2 0 0 2] : List (PStmt Int Int)).foldlM (runCaught (rangeInt (-8) 7) p 2) fun _ => .new) =
      .ok [[0, 0, 0, 4, 0, 0, 0], [0, 2, 0], [0, 0, 0, 0, 0, 0, 0]] := by
  cases p <;> decide +kernel

example (p : Profile) :=
  C115_not_allowed (rangeInt (-8) 7) p 2 (C103_only_panics _ _).1 (by omega) (by omega) (D := 2) (by decide +kernel) (by decide) (.mul 2 0 0 2) (Nat.le_refl 2)
    (shaped_new 2) (fun _ => Nat.zero_le _) (by decide)

example (p : Profile) := C115_step (rangeInt (-8) 7) p 2 (C103_only_panics _ _).1 (by omega) (by omega) (D := 2) (by decide +kernel) (by decide) (.addMul 2 0 1 2)
  (Nat.le_refl 2) (σ := fun i => if i ≤ 1 then .ofVec [0, 2, 3] else .new) (l := fun i => if i ≤ 1 then 2 else 0)
  (fun i => by by_cases h : i ≤ 1 <;> simp [h, Dense.ofVec, Dense.new, Dense.size, geomSum]) (fun i => by split_ifs <;> omega) (by decide)

/-- The statement panics and leaves `[0, 0, 0, 4, 6, 6, 0]`. -/
example (p : Profile) (τ : Nat → Dense Int)
    (h : runStmtU (rangeInt (-8) 7) p 2 (fun i => if i ≤ 1 then .ofVec [0, 2, 3] else .new) (.addMul 2 0 1 2) = (.panic, τ)) : τ 1 = .ofVec [0, 2, 3] :=
  (C115_frame _ p 2 _ τ _ h).1 1 (by decide)

example (p : Profile) : (runStmtU (rangeInt (-8) 7) p 2 (fun i => if i ≤ 1 then .ofVec [0, 2, 3] else .new) (.addMul 2 0 1 2)).1 = .panic ∧
    ((runStmtU (rangeInt (-8) 7) p 2 (fun i => if i ≤ 1 then .ofVec [0, 2, 3] else .new) (.addMul 2 0 1 2)).2 2).data = [0, 0, 0, 4, 6, 6, 0] := by
  cases p <;> decide +kernel

/-- On the buffers of the caller: the panic in `x += y y` has written part of the product into the buffer lent exclusively, and nothing into the shared one. -/
example (p : Profile) : showBufs (([.addMul 0 1 1 2, .neg 1, .mul 0 1 1 2] : List (PStmt Int Int)).foldlM (runMemCaught (rangeInt (-8) 7) p 2) viewMemory) =
    .ok ([1, 0, 0, 1, 3, 3, 0], [2, 1, 3]) := by cases p <;> decide +kernel

example (p : Profile) (m' : Memory Bool Int)
    (h : ([.addMul 0 1 1 2, .neg 1, .mul 0 1 1 2] : List (PStmt Int Int)).foldlM (runMemCaught (rangeInt (-8) 7) p 2) viewMemory = .ok m') :
    m'.Lawful ∧ (m'.buf true).length = 7 :=
  have := C115_memory (rangeInt (-8) 7) p 2 _ viewMemory m' viewMemory_lawful h
  ⟨this.1, this.2.1 true⟩

end RA
