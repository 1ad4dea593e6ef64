import Verif.Props.PanicProgram

/-!
# What the registers hold after caught panics (C116)

A statement that panics half way leaves the register it works on with part of its work done.  Such a register is spoilt, and so is every register
computed from it.  All the others hold what the statements that returned say.
-/

namespace RA
open Spec TensorKey TensorBasis Fallible

section spec
variable {S R : Type}

/-- The registers whose contents the statement uses.  (`swap` uses none: it exchanges them.) -/
def Spec.PStmt.reads : PStmt S R → List Nat
  | .zero _ | .word _ _ _ | .terms _ _ | .swap _ _ => []
  | .copy _ j => [j]
  | .clear i | .modify i _ _ | .erase i _ | .neg i | .scale i _ | .div i _ => [i]
  | .add i j | .sub i j => [i, j]
  | .mul _ j k _ | .comm _ j k _ => [j, k]
  | .addMul i j k _ | .subMul i j k _ => [i, j, k]

/-- The registers that are spoilt after a statement which returned (`true`) or panicked (`false`). -/
def Spec.PStmt.spoil (T : Nat → Bool) : PStmt S R → Bool → Nat → Bool
  | .swap i j, true => setReg (setReg T i (T j)) j (T i)
  | s, true => setReg T s.dest (s.reads.any T)
  | s, false => if s.assigns then T else setReg T s.dest true

/-- The registers that are spoilt at the end, for a program with a note at each statement whether it returned. -/
def spoilt (T : Nat → Bool) (l : List (PStmt S R × Bool)) : Nat → Bool := l.foldl (fun T e => e.1.spoil T e.2) T

/-- The statements that returned. -/
def returned (l : List (PStmt S R × Bool)) : List (PStmt S R) := (l.filter (·.2)).map (·.1)

end spec

section
variable {S R : Type} (F : FCoeff S R) (p : Profile) (N : Nat)

/-- For each statement of a program whose panics are caught, whether it returned. -/
def outcomes (σ : Nat → Dense S) : List (PStmt S R) → List Bool
  | [] => []
  | s :: prog => match runStmtU F p N σ s with
    | (.ok (), τ) => true :: outcomes τ prog
    | (.panic, τ) => false :: outcomes τ prog
    | (.ub, _) | (.diverge, _) => []

/-- A statement other than `swap` computes a vector from the registers that it reads, and stores it. -/
theorem stmt_local (s : PStmt S R) (hs : ∀ i j, s ≠ .swap i j) : ∃ g : (Nat → Dense S) → Res (Dense S),
    (∀ σ σ', (∀ i ∈ s.reads, σ i = σ' i) → g σ = g σ') ∧ ∀ σ, runStmtF F p N σ s = g σ >>= fun v => .ok (setReg σ s.dest v) := by
  cases s with
  | swap i j => exact absurd rfl (hs i j)
  | zero i => exact ⟨fun _ => .ok .new, fun _ _ _ => rfl, fun _ => rfl⟩
  | word i w s =>
    refine ⟨fun _ => fromLetters p N w >>= fun k => dFromKeyScalar F (tensorBasis p N) k s, fun _ _ _ => rfl, fun σ => ?_⟩
    rw [bind_assoc]; rfl
  | terms i l =>
    refine ⟨fun _ => (l.mapM fun e => (fun k => (k, e.2)) <$> fromLetters p N e.1) >>= fun k => fromIteratorF F (tensorBasis p N) k, fun _ _ _ => rfl, fun σ => ?_⟩
    rw [bind_assoc]; rfl
  | copy i j => exact ⟨fun σ => (σ j).toOwned, fun σ σ' h => by beta_reduce; rw [h j (by simp [PStmt.reads])], fun _ => rfl⟩
  | clear i => exact ⟨fun σ => .ok (dClear F (σ i)), fun σ σ' h => by beta_reduce; rw [h i (by simp [PStmt.reads])], fun _ => rfl⟩
  | modify i w f =>
    refine ⟨fun σ => fromLetters p N w >>= fun k => Dense.getMut (tensorBasis p N) (σ i) k f >>= fun r => .ok r.2,
      fun σ σ' h => by beta_reduce; rw [h i (by simp [PStmt.reads])], fun σ => ?_⟩
    rw [bind_assoc]
    refine congrArg (_ >>= ·) (funext fun k => ?_)
    rw [bind_assoc]; rfl
  | erase i w =>
    refine ⟨fun σ => fromLetters p N w >>= fun k => dErase F (tensorBasis p N) (σ i) k, fun σ σ' h => by beta_reduce; rw [h i (by simp [PStmt.reads])], fun σ => ?_⟩
    rw [bind_assoc]; rfl
  | neg i => exact ⟨fun σ => temp (dUminus F (σ i)), fun σ σ' h => by beta_reduce; rw [h i (by simp [PStmt.reads])], fun _ => rfl⟩
  | scale i s => exact ⟨fun σ => temp (dMul F (σ i) s), fun σ σ' h => by beta_reduce; rw [h i (by simp [PStmt.reads])], fun _ => rfl⟩
  | div i r => exact ⟨fun σ => temp (dDiv F (σ i) r), fun σ σ' h => by beta_reduce; rw [h i (by simp [PStmt.reads])], fun _ => rfl⟩
  | add i j => exact ⟨fun σ => temp (dAdd F (σ i) (σ j)), fun σ σ' h => by beta_reduce; rw [h i (by simp [PStmt.reads]), h j (by simp [PStmt.reads])], fun _ => rfl⟩
  | sub i j => exact ⟨fun σ => temp (dSub F (σ i) (σ j)), fun σ σ' h => by beta_reduce; rw [h i (by simp [PStmt.reads]), h j (by simp [PStmt.reads])], fun _ => rfl⟩
  | mul i j k D =>
    exact ⟨fun σ => tMultiply F p N (σ j) (σ k) (some D), fun σ σ' h => by beta_reduce; rw [h j (by simp [PStmt.reads]), h k (by simp [PStmt.reads])], fun _ => rfl⟩
  | comm i j k D =>
    exact ⟨fun σ => tCommutator F p N (σ j) (σ k) (some D), fun σ σ' h => by beta_reduce; rw [h j (by simp [PStmt.reads]), h k (by simp [PStmt.reads])], fun _ => rfl⟩
  | addMul i j k D =>
    exact ⟨fun σ => temp (tAddMul F p N (σ i) (σ j) (σ k) (some D)),
      fun σ σ' h => by beta_reduce; rw [h i (by simp [PStmt.reads]), h j (by simp [PStmt.reads]), h k (by simp [PStmt.reads])], fun _ => rfl⟩
  | subMul i j k D =>
    exact ⟨fun σ => temp (tSubMul F p N (σ i) (σ j) (σ k) (some D)),
      fun σ σ' h => by beta_reduce; rw [h i (by simp [PStmt.reads]), h j (by simp [PStmt.reads]), h k (by simp [PStmt.reads])], fun _ => rfl⟩

/-- The same for the meaning of a statement. -/
theorem value_local [CommRing S] (s : PStmt S R) (hs : ∀ i j, s ≠ .swap i j) (ha : s.Algebraic) : ∃ g : (Nat → List Nat → S) → List Nat → S,
    (∀ ρ ρ', (∀ i ∈ s.reads, ρ i = ρ' i) → g ρ = g ρ') ∧ ∀ ρ, s.value ρ = setReg ρ s.dest (g ρ) := by
  refine ⟨fun ρ => s.value ρ s.dest, fun ρ ρ' h => ?_, fun ρ => ?_⟩
  · cases s with
    | swap i j => exact absurd rfl (hs i j)
    | modify i w f | div i r => exact ha.elim
    | _ => simp_all [PStmt.reads, PStmt.value, PStmt.dest, setReg]
  · cases s with
    | swap i j => exact absurd rfl (hs i j)
    | modify i w f | div i r => exact ha.elim
    | _ =>
      funext j
      simp only [PStmt.value, PStmt.dest, setReg]
      split_ifs <;> simp_all

/-- The program in which spoilt registers are emptied. -/
def cleanStmt (T : Nat → Bool) : PStmt S R → Bool → List (PStmt S R)
  | .swap i j, true => [.swap i j]
  | s, true => if s.reads.any T then [.zero s.dest] else [s]
  | s, false => if s.assigns then [] else [.zero s.dest]

def cleanProg (T : Nat → Bool) : List (PStmt S R × Bool) → List (PStmt S R)
  | [] => []
  | e :: l => cleanStmt T e.1 e.2 ++ cleanProg (e.1.spoil T e.2) l

/-- The registers agree where they are not spoilt. -/
def AgreeOff {V : Type} (T : Nat → Bool) (σ σ' : Nat → V) : Prop := ∀ i, T i = false → σ i = σ' i

theorem any_false {s : PStmt S R} {T : Nat → Bool} (h : s.reads.any T = false) {i : Nat} (hi : i ∈ s.reads) : T i = false := by
  cases e : T i with
  | false => rfl
  | true => rw [List.any_eq_true.2 ⟨i, hi, e⟩] at h; cases h

theorem agree_set {V : Type} {T : Nat → Bool} {σ σ' : Nat → V} (h : AgreeOff T σ σ') (i : Nat) {b : Bool} {v v' : V} (hv : b = false → v = v') :
    AgreeOff (setReg T i b) (setReg σ i v) (setReg σ' i v') := by
  intro j hj
  unfold setReg at hj ⊢
  split_ifs at hj ⊢
  exacts [hv hj, h j hj]

theorem agree_swap {V : Type} {T : Nat → Bool} {σ σ' : Nat → V} (h : AgreeOff T σ σ') (i j : Nat) :
    AgreeOff (setReg (setReg T i (T j)) j (T i)) (setReg (setReg σ i (σ j)) j (σ i)) (setReg (setReg σ' i (σ' j)) j (σ' i)) :=
  agree_set (agree_set h i (h j)) j (h i)

theorem spoil_returned (T : Nat → Bool) (s : PStmt S R) (hs : ∀ i j, s ≠ .swap i j) : s.spoil T true = setReg T s.dest (s.reads.any T) := by
  cases s <;> first | rfl | exact absurd rfl (hs _ _)

theorem clean_returned (T : Nat → Bool) (s : PStmt S R) (hs : ∀ i j, s ≠ .swap i j) :
    cleanStmt T s true = if s.reads.any T then [.zero s.dest] else [s] := by
  cases s with
  | swap i j => exact absurd rfl (hs i j)
  | _ => rfl

theorem swap_or (s : PStmt S R) : (∃ i j, s = .swap i j) ∨ ∀ i j, s ≠ .swap i j := by
  cases s <;> first | exact .inl ⟨_, _, rfl⟩ | exact .inr fun _ _ h => by cases h

theorem ret_step {σ τ σ' : Nat → Dense S} {T : Nat → Bool} {s : PStmt S R} (h : AgreeOff T σ σ') (hr : runStmtF F p N σ s = .ok τ) :
    ∃ τ', (cleanStmt T s true).foldlM (runStmtF F p N) σ' = .ok τ' ∧ AgreeOff (s.spoil T true) τ τ' := by
  obtain ⟨i, j, rfl⟩ | hs := swap_or s
  · cases hr
    exact ⟨_, rfl, agree_swap h i j⟩
  · obtain ⟨g, hg, hrun⟩ := stmt_local F p N s hs
    rw [hrun] at hr
    cases hv : g σ with
    | ok v =>
      rw [hv] at hr
      cases hr
      rw [clean_returned T s hs, spoil_returned T s hs]
      cases ha : s.reads.any T with
      | true => exact ⟨setReg σ' s.dest .new, rfl, agree_set h _ nofun⟩
      | false =>
        refine ⟨setReg σ' s.dest v, ?_, agree_set h _ fun _ => rfl⟩
        have : g σ' = .ok v := by rw [← hv]; exact (hg _ _ fun i hi => h i (any_false ha hi)).symm
        simp [hrun, this]
    | panic | ub | diverge => rw [hv] at hr; cases hr

theorem panic_step {σ τ σ' : Nat → Dense S} {T : Nat → Bool} {s : PStmt S R} (h : AgreeOff T σ σ') (hr : runStmtU F p N σ s = (.panic, τ)) :
    ∃ τ', (cleanStmt T s false).foldlM (runStmtF F p N) σ' = .ok τ' ∧ AgreeOff (s.spoil T false) τ τ' := by
  obtain ⟨hf, ha⟩ := C115_frame F p N σ τ s hr
  have e1 : s.spoil T false = if s.assigns then T else setReg T s.dest true := by cases s <;> rfl
  have e2 : cleanStmt T s false = if s.assigns then [] else [.zero s.dest] := by cases s <;> rfl
  rw [e1, e2]
  cases hs : s.assigns with
  | true => exact ⟨σ', rfl, by rw [ha hs]; exact h⟩
  | false =>
    refine ⟨setReg σ' s.dest .new, rfl, fun j hj => ?_⟩
    simp only [Bool.false_eq_true, if_false, setReg] at hj ⊢
    split_ifs at hj ⊢ with hd
    rw [hf j hd]
    exact h j hj

theorem caught_clean (prog : List (PStmt S R)) {σ τ σ' : Nat → Dense S} {T : Nat → Bool} (h : AgreeOff T σ σ')
    (hr : prog.foldlM (runCaught F p N) σ = .ok τ) :
    (outcomes F p N σ prog).length = prog.length ∧ ∃ τ', (cleanProg T (prog.zip (outcomes F p N σ prog))).foldlM (runStmtF F p N) σ' = .ok τ' ∧
      AgreeOff (spoilt T (prog.zip (outcomes F p N σ prog))) τ τ' := by
  induction prog generalizing σ σ' T with
  | nil => cases hr; exact ⟨rfl, σ', rfl, h⟩
  | cons s prog ih =>
    rw [List.foldlM_cons] at hr
    have hret := C115_returns F p N σ s
    unfold runCaught at hr
    unfold outcomes
    rcases e : runStmtU F p N σ s with ⟨o, τ1⟩
    rw [e] at hr hret
    cases o with
    | ok u =>
      obtain ⟨σ1, h1, h2⟩ := ret_step F p N h hret.symm
      obtain ⟨h3, τ', h4, h5⟩ := ih h2 hr
      refine ⟨by simp [h3], τ', ?_, h5⟩
      simp only [List.zip_cons_cons, cleanProg, List.foldlM_append]
      rw [h1]
      exact h4
    | panic =>
      obtain ⟨σ1, h1, h2⟩ := panic_step F p N h e
      obtain ⟨h3, τ', h4, h5⟩ := ih h2 hr
      refine ⟨by simp [h3], τ', ?_, h5⟩
      simp only [List.zip_cons_cons, cleanProg, List.foldlM_append]
      rw [h1]
      exact h4
    | ub | diverge => cases hr

/-- C116.  Panics that are caught do not reach the other registers: if the statements that returned also return when the program consists of them alone, then
every register that is not spoilt holds the same vector as after that program, bit for bit and in the same storage. -/
theorem C116_same (prog : List (PStmt S R)) {σ τ τ' : Nat → Dense S} (hr : prog.foldlM (runCaught F p N) σ = .ok τ)
    (h' : (returned (prog.zip (outcomes F p N σ prog))).foldlM (runStmtF F p N) σ = .ok τ') :
    ∀ i, spoilt (fun _ => false) (prog.zip (outcomes F p N σ prog)) i = false → τ i = τ' i := by
  suffices H : ∀ (prog : List (PStmt S R)) (σ σ' : Nat → Dense S) (T : Nat → Bool), AgreeOff T σ σ' → prog.foldlM (runCaught F p N) σ = .ok τ →
      (returned (prog.zip (outcomes F p N σ prog))).foldlM (runStmtF F p N) σ' = .ok τ' → AgreeOff (spoilt T (prog.zip (outcomes F p N σ prog))) τ τ' from
    H prog σ σ _ (fun _ _ => rfl) hr h'
  clear hr h' σ prog
  intro prog
  induction prog with
  | nil =>
    intro σ σ' T h hr h'
    cases hr
    cases h'
    exact h
  | cons s prog ih =>
    intro σ σ' T h hr h'
    rw [List.foldlM_cons] at hr
    have hret := C115_returns F p N σ s
    unfold runCaught at hr
    unfold outcomes at h' ⊢
    rcases e : runStmtU F p N σ s with ⟨o, τ1⟩
    rw [e] at hr hret h'
    cases o with
    | ok u =>
      have hret : runStmtF F p N σ s = .ok τ1 := hret.symm
      have h' : (runStmtF F p N σ' s >>= fun σ1 => (returned (prog.zip (outcomes F p N τ1 prog))).foldlM (runStmtF F p N) σ1) = .ok τ' := h'
      cases e' : runStmtF F p N σ' s with
      | ok σ1 =>
        rw [e'] at h'
        refine ih τ1 σ1 _ ?_ hr h'
        obtain ⟨i, j, rfl⟩ | hs := swap_or s
        · cases hret
          cases e'
          exact agree_swap h i j
        · obtain ⟨g, hg, hrun⟩ := stmt_local F p N s hs
          rw [hrun] at hret e'
          show AgreeOff (s.spoil T true) τ1 σ1
          rw [spoil_returned T s hs]
          cases hv : g σ with
          | ok v =>
            cases hv' : g σ' with
            | ok v' =>
              rw [hv] at hret
              rw [hv'] at e'
              cases hret
              cases e'
              refine agree_set h _ fun ha => ?_
              have := hg _ _ fun i hi => h i (any_false ha hi)
              rw [hv, hv'] at this
              cases this
              rfl
            | panic | ub | diverge => rw [hv'] at e'; cases e'
          | panic | ub | diverge => rw [hv] at hret; cases hret
      | panic | ub | diverge => rw [e'] at h'; cases h'
    | panic =>
      have hp : AgreeOff (s.spoil T false) τ1 σ' := by
        obtain ⟨hf, ha⟩ := C115_frame F p N σ τ1 s e
        have e1 : s.spoil T false = if s.assigns then T else setReg T s.dest true := by cases s <;> rfl
        rw [e1]
        cases hs : s.assigns with
        | true => rw [ha hs]; exact h
        | false =>
          intro j hj
          simp only [Bool.false_eq_true, if_false, setReg] at hj
          split_ifs at hj with hd
          rw [hf j hd]
          exact h j hj
      exact ih τ1 σ' _ hp hr h'
    | ub | diverge => cases hr

/-- C116.  If no statement panics, no register is spoilt and all statements count. -/
theorem C116_no_panic (prog : List (PStmt S R)) : spoilt (fun _ => false) (prog.zip (prog.map fun _ => true)) = (fun _ => false) ∧
    returned (prog.zip (prog.map fun _ => true)) = prog := by
  constructor
  · induction prog with
    | nil => rfl
    | cons s prog ih =>
      have : s.spoil (fun _ => false) true = fun _ => false := by
        obtain ⟨i, j, rfl⟩ | hs := swap_or s
        · funext k
          simp [PStmt.spoil, setReg]
        · rw [spoil_returned _ s hs]
          funext k
          simp [setReg]
      simp only [List.map_cons, List.zip_cons_cons, spoilt, List.foldl_cons, this]
      exact ih
  · induction prog with
    | nil => rfl
    | cons s prog ih =>
      simp only [returned, List.map_cons, List.zip_cons_cons, List.filter_cons_of_pos] at ih ⊢
      rw [ih]

end

section values
variable {S R : Type}

theorem value_clean [CommRing S] (l : List (PStmt S R × Bool)) (hl : ∀ e ∈ l, e.1.Algebraic) {ρ ρ' : Nat → List Nat → S} {T : Nat → Bool} (h : AgreeOff T ρ ρ')
    (hsw : ∀ e ∈ l, e.2 = false → ∀ i j, e.1 ≠ .swap i j) :
    AgreeOff (spoilt T l) ((returned l).foldl PStmt.value ρ) ((cleanProg T l).foldl PStmt.value ρ') := by
  induction l generalizing ρ ρ' T with
  | nil => exact h
  | cons e l ih =>
    obtain ⟨s, b⟩ := e
    have ih := fun {ρ ρ' : Nat → List Nat → S} {T : Nat → Bool} (h : AgreeOff T ρ ρ') =>
      ih (fun e he => hl e (List.mem_cons_of_mem _ he)) h fun e he => hsw e (List.mem_cons_of_mem _ he)
    cases b with
    | true =>
      show AgreeOff (spoilt (s.spoil T true) l) ((returned l).foldl PStmt.value (s.value ρ)) ((cleanStmt T s true ++ cleanProg (s.spoil T true) l).foldl PStmt.value ρ')
      rw [List.foldl_append]
      refine ih ?_
      obtain ⟨i, j, rfl⟩ | hs := swap_or s
      · exact agree_swap h i j
      · obtain ⟨g, hg, hv⟩ := value_local s hs (hl _ (List.mem_cons_self ..))
        rw [spoil_returned T s hs, clean_returned T s hs, hv]
        cases ha : s.reads.any T with
        | true => exact agree_set h _ nofun
        | false =>
          show AgreeOff _ _ (s.value ρ')
          rw [hv]
          exact agree_set h _ fun _ => hg _ _ fun i hi => h i (any_false ha hi)
    | false =>
      show AgreeOff (spoilt (s.spoil T false) l) ((returned l).foldl PStmt.value ρ) ((cleanStmt T s false ++ cleanProg (s.spoil T false) l).foldl PStmt.value ρ')
      rw [List.foldl_append]
      refine ih ?_
      have e1 : s.spoil T false = if s.assigns then T else setReg T s.dest true := by cases s <;> rfl
      have e2 : cleanStmt T s false = if s.assigns then [] else [.zero s.dest] := by cases s <;> rfl
      rw [e1, e2]
      cases s.assigns with
      | true => exact h
      | false =>
        intro j hj
        simp only [Bool.false_eq_true, if_false, setReg] at hj
        split_ifs at hj with hd
        simp only [Bool.false_eq_true, if_false, List.foldl_cons, List.foldl_nil, PStmt.value, setReg, if_neg hd]
        exact h j hj

theorem clean_sub {Q : PStmt S R → Prop} (hz : ∀ i, Q (.zero i)) (l : List (PStmt S R × Bool)) (hl : ∀ e ∈ l, Q e.1) (T : Nat → Bool) : ∀ s ∈ cleanProg T l, Q s := by
  induction l generalizing T with
  | nil => simp [cleanProg]
  | cons e l ih =>
    obtain ⟨s, b⟩ := e
    intro t ht
    rcases List.mem_append.1 ht with h | h
    · have hs := hl _ (List.mem_cons_self ..)
      have : t = s ∨ t = .zero s.dest := by
        cases b with
        | true =>
          obtain ⟨i, j, rfl⟩ | hsw := swap_or s
          · exact .inl (List.mem_singleton.1 h)
          · have h : t ∈ cleanStmt T s true := h
            rw [clean_returned T s hsw] at h
            split_ifs at h
            exacts [.inr (List.mem_singleton.1 h), .inl (List.mem_singleton.1 h)]
        | false =>
          have e2 : cleanStmt T s false = if s.assigns then [] else [.zero s.dest] := by cases s <;> rfl
          have h : t ∈ cleanStmt T s false := h
          rw [e2] at h
          split_ifs at h
          exacts [absurd h (List.not_mem_nil), .inr (List.mem_singleton.1 h)]
      rcases this with rfl | rfl
      exacts [hs, hz _]
    · exact ih (fun e he => hl e (List.mem_cons_of_mem _ he)) _ t h

end values

section
variable {S S' R R' : Type} {P : R → R' → Prop} {φ : S → S'} {F : FCoeff S R} {C : Coeff S' R'} (p : Profile) (N : Nat)

theorem clean_rel {Q : S → S' → Prop} {prog : List (PStmt S R)} {prog' : List (PStmt S' R')} (h : List.Forall₂ (StmtRel Q P) prog prog') (b : List Bool) (T : Nat → Bool) :
    List.Forall₂ (StmtRel Q P) (cleanProg T (prog.zip b)) (cleanProg T (prog'.zip b)) ∧ spoilt T (prog.zip b) = spoilt T (prog'.zip b) := by
  induction h generalizing b T with
  | nil => exact ⟨.nil, rfl⟩
  | @cons s s' prog prog' h1 h2 ih =>
    cases b with
    | nil => exact ⟨.nil, rfl⟩
    | cons b bs =>
      have e1 : s.spoil T b = s'.spoil T b := by cases h1 <;> cases b <;> rfl
      have e2 : List.Forall₂ (StmtRel Q P) (cleanStmt T s b) (cleanStmt T s' b) := by
        cases b with
        | true =>
          have hd : s.dest = s'.dest := by cases h1 <;> rfl
          have hr : s.reads = s'.reads := by cases h1 <;> rfl
          obtain ⟨i, j, rfl⟩ | hs := swap_or s
          · cases h1
            exact .cons (.swap i j) .nil
          · have hs' : ∀ i j, s' ≠ .swap i j := by
              intro i j hc
              subst hc
              cases h1
              exact hs i j rfl
            rw [clean_returned T s hs, clean_returned T s' hs', hr, hd]
            split_ifs
            exacts [.cons (.zero _) .nil, .cons h1 .nil]
        | false =>
          cases h1 <;> first | exact .nil | exact .cons (.zero _) .nil
      obtain ⟨h3, h4⟩ := ih bs (s.spoil T b)
      constructor
      · show List.Forall₂ _ (cleanStmt T s b ++ cleanProg (s.spoil T b) (prog.zip bs)) (cleanStmt T s' b ++ cleanProg (s'.spoil T b) (prog'.zip bs))
        rw [← e1]
        exact List.rel_append e2 h3
      · show spoilt (s.spoil T b) (prog.zip bs) = spoilt (s'.spoil T b) (prog'.zip bs)
        rw [← e1]
        exact h4

theorem outcomes_swap (F : FCoeff S R) (prog : List (PStmt S R)) (σ : Nat → Dense S) :
    ∀ e ∈ prog.zip (outcomes F p N σ prog), e.2 = false → ∀ i j, e.1 ≠ .swap i j := by
  induction prog generalizing σ with
  | nil => simp
  | cons s prog ih =>
    unfold outcomes
    rcases e : runStmtU F p N σ s with ⟨o, τ1⟩
    cases o with
    | ok u =>
      intro x hx
      rcases List.mem_cons.1 hx with rfl | hx
      exacts [nofun, ih τ1 x hx]
    | panic =>
      intro x hx
      rcases List.mem_cons.1 hx with rfl | hx
      · intro _ i j hc
        cases hc
        cases e
      · exact ih τ1 x hx
    | ub | diverge => simp

/-- C116.  With coefficients whose operations are exact or panic: after a program whose panics were caught, every register that is not spoilt holds exactly the
element that the statements which returned describe. -/
theorem C116_values [CommRing S'] (hC : C.IsRing) (hF : F.ExactFor φ P C) (h2 : 2 ≤ N) (hN : N < 2 ^ 32) (D : Nat) (hm : D ≤ maxDepth N)
    (hp : N ^ (D + 1) < 2 ^ 64) (prog : List (PStmt S R)) (hs : ∀ s ∈ prog, s.Within N D ∧ s.Algebraic) (prog' : List (PStmt S' R'))
    (h : List.Forall₂ (StmtRel (Img φ) P) prog prog') (τ : Nat → Dense S) (hr : prog.foldlM (runCaught F p N) (fun _ => .new) = .ok τ) :
    (outcomes F p N (fun _ => .new) prog).length = prog.length ∧
    ∀ i, spoilt (fun _ => false) (prog.zip (outcomes F p N (fun _ => .new) prog)) i = false →
      ∀ w k, ValidWord N w → w.length ≤ maxDepth N → fromLetters p N w = .ok k →
        ∃ x, Dense.get (tensorBasis p N) (τ i) k = .ok x ∧
          φ (x.getD F.zero) = valueProg (returned (prog'.zip (outcomes F p N (fun _ => .new) prog))) i w := by
  obtain ⟨hlen, τ', h1, h3⟩ := caught_clean F p N prog (T := fun _ => false) (σ' := fun _ => .new) (fun _ _ => rfl) hr
  refine ⟨hlen, fun i hi w k hv hl hk => ?_⟩
  have hsw := outcomes_swap p N F prog fun _ => .new
  generalize outcomes F p N (fun _ => .new) prog = b at *
  obtain ⟨h4, h5⟩ := clean_rel h b fun _ => false
  have hcl := clean_sub (Q := fun s => s.Within N D ∧ s.Algebraic) (fun _ => ⟨trivial, trivial⟩) (prog.zip b) (fun e he => hs _ (List.of_mem_zip he).1) fun _ => false
  obtain ⟨x, x1, x2⟩ := C103_program_values p N hC hF h2 hN D hm hp _ hcl _ h4 τ' h1 i w k hv hl hk
  have hs' : ∀ s ∈ prog', s.Within N D ∧ s.Algebraic := by
    clear hr h1 h3 hi hsw h4 h5 hcl hlen x2
    induction h with
    | nil => simp
    | cons h1 _ ih =>
      intro s hmem
      rcases List.mem_cons.1 hmem with rfl | hmem
      · exact stmtRel_within N h1 (hs _ (List.mem_cons_self ..))
      · exact ih (fun s h => hs s (List.mem_cons_of_mem _ h)) s hmem
  have hsw' : ∀ e ∈ prog'.zip b, e.2 = false → ∀ i j, e.1 ≠ .swap i j := by
    clear hr h1 h3 hi h4 h5 hcl hlen hs hs' x2
    induction h generalizing b with
    | nil => simp
    | cons h1 _ ih =>
      cases b with
      | nil => simp
      | cons c bs =>
        intro e he hc i j heq
        rcases List.mem_cons.1 he with rfl | he
        · subst heq
          cases h1
          exact hsw _ (List.mem_cons_self ..) hc i j rfl
        · exact ih bs (fun e he => hsw e (List.mem_cons_of_mem _ he)) e he hc i j heq
  have hval := value_clean (prog'.zip b) (fun e he => (hs' _ (List.of_mem_zip he).1).2) (ρ := fun _ _ => 0) (ρ' := fun _ _ => 0) (T := fun _ => false) (fun _ _ => rfl) hsw'
  refine ⟨x, by rw [h3 i hi]; exact x1, x2.trans ?_⟩
  exact (congrFun (hval i (by rw [← h5]; exact hi)) w).symm

end

/-! ## Examples: integers from -8 to 7 -/

/-- `x = 2 e1; y = 3 e2; z = 1; x += y`; `x *= 3` overflows; `u = y`; `u += z`; `z = u x` is computed from `x`; `v = y y` overflows and is not stored; `x = y` -/
def mixedProg : List (PStmt Int Int) :=
  [.word 0 [1] 2, .word 1 [2] 3, .word 2 [] 1, .add 0 1, .scale 0 3, .copy 3 1, .add 3 2, .mul 2 3 0 1, .mul 4 1 1 2, .swap 0 5, .copy 0 1]

theorem mixedProg_outcomes (p : Profile) : outcomes (rangeInt (-8) 7) p 2 (fun _ => .new) mixedProg =
    [true, true, true, true, false, true, true, true, false, true, true] := by cases p <;> decide +kernel

/-- The half-scaled vector is in `x_5` after the exchange, and `x_2` was computed from it; the others are sound. -/
example : (List.range 7).map (spoilt (fun _ => false) (mixedProg.zip [true, true, true, true, false, true, true, true, false, true, true])) =
    [false, false, true, false, false, true, false] := by decide +kernel

theorem mixedProg_regs (p : Profile) : showRegs (mixedProg.foldlM (runCaught (rangeInt (-8) 7) p 2) fun _ => .new) =
    .ok [[0, 0, 3], [0, 0, 3], [0, 6, 3]] := by cases p <;> decide +kernel

theorem mixedProg_within : ∀ s ∈ mixedProg, s.Within 2 2 ∧ s.Algebraic := by
  intro s hs
  simp only [mixedProg, List.mem_cons, List.not_mem_nil, or_false] at hs
  rcases hs with rfl | rfl | rfl | rfl | rfl | rfl | rfl | rfl | rfl | rfl | rfl <;> simp [PStmt.Within, PStmt.Algebraic, ValidWord]

theorem stmtRel_refl {S R : Type} (s : PStmt S R) : StmtRel (Img id) Eq s s := by
  cases s with
  | terms i l => exact .terms i l l (List.forall₂_same.2 fun _ _ => ⟨rfl, rfl⟩)
  | modify i w f => exact .modify i w f f fun a b h => congrArg f h
  | _ => constructor <;> rfl

/-- `x_3` of the program is `1 + 3 e2`, whatever happened in between. -/
example (p : Profile) (τ : Nat → Dense Int) (h : mixedProg.foldlM (runCaught (rangeInt (-8) 7) p 2) (fun _ => .new) = .ok τ) (k : TensorKey)
    (hk : fromLetters p 2 [2] = .ok k) : ∃ x, Dense.get (tensorBasis p 2) (τ 3) k = .ok x ∧ x.getD 0 = 3 := by
  have := (C116_values p 2 truncCoeff_isRing (C103_integers (-8) 7) (by omega) (by omega) 2 (by decide +kernel) (by decide) mixedProg mixedProg_within mixedProg
    (List.forall₂_same.2 fun _ _ => stmtRel_refl _) τ h).2
  rw [mixedProg_outcomes] at this
  obtain ⟨x, h1, h2⟩ := this 3 (by decide +kernel) [2] k (by simp [ValidWord]) (by decide +kernel) hk
  exact ⟨x, h1, h2.trans (by decide +kernel)⟩

def spoiltProg : List (PStmt Int Int) := [.word 0 [1] 2, .word 2 [2] 3, .add 0 2, .scale 0 3, .copy 1 0, .neg 1]

/-- C116.  Spoilt registers are another matter: `x *= 3` has panicked at the second letter of `x = 2 e1 + 3 e2` and leaves `6 e1 + 3 e2`, which is neither the old
element nor the new one, and what is computed from it returns without a sign of this. -/
theorem C116_spoilt (p : Profile) :
    outcomes (rangeInt (-8) 7) p 2 (fun _ => .new) spoiltProg = [true, true, true, false, true, true] ∧
    showRegs (spoiltProg.foldlM (runCaught (rangeInt (-8) 7) p 2) fun _ => .new) =
      .ok [[0, 6, 3], [0, -6, -3], [0, 0, 3]] ∧
    spoilt (fun _ => false) (spoiltProg.zip [true, true, true, false, true, true]) 1 = true := by
  cases p <;> decide +kernel

/-- `C116_same` on a program: the statements that returned also return alone. -/
example (p : Profile) (τ τ' : Nat → Dense Int) (h : mixedProg.foldlM (runCaught (rangeInt (-8) 7) p 2) (fun _ => .new) = .ok τ)
    (h' : (returned (mixedProg.zip (outcomes (rangeInt (-8) 7) p 2 (fun _ => .new) mixedProg))).foldlM (runStmtF (rangeInt (-8) 7) p 2) (fun _ => .new) = .ok τ') :
    τ 0 = τ' 0 := C116_same _ p 2 mixedProg h h' 0 (by rw [mixedProg_outcomes]; decide +kernel)

example (p : Profile) : showRegs ((returned (mixedProg.zip (outcomes (rangeInt (-8) 7) p 2 (fun _ => .new) mixedProg))).foldlM (runStmtF (rangeInt (-8) 7) p 2)
    fun _ => .new) = .ok [[0, 0, 3], [0, 0, 3], [0, 2, 3]] := by cases p <;> decide +kernel

end RA
