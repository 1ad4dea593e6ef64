import Verif.Props.PanicValues
import Verif.Props.SparseChecked
import Verif.Props.HashOrder

/-!
# Linear programs with caught overflows, on dense and sparse vectors (C117)

For linear programs with checked integers, exact arithmetic alone says which registers are spoilt by caught overflows; the others hold what the program says.
Dense and sparse vectors do the same, in whatever order the hash maps are visited.
-/

namespace RA
open Spec TensorKey TensorBasis Fallible

/-! ## Specification -/

section spec
variable {S R : Type} [CommRing S] (ok : S → Prop) (N D : Nat)

/-- The registers spoilt after a statement, from the exact elements before it: the register that it writes, if one of those that it reads is spoilt or if one of
the numbers that it computes is not in order. -/
def Spec.PStmt.spoils (ρ : Nat → List Nat → S) (T : Nat → Prop) (s : PStmt S R) : Nat → Prop :=
  setReg T s.dest ((∃ i ∈ s.reads, T i) ∨ ¬ ∀ w, ValidWord N w → w.length ≤ D → s.NumbersIn ok ρ w)

/-- The registers spoilt after a program. -/
def spoiltBy (ρ : Nat → List Nat → S) (T : Nat → Prop) : List (PStmt S R) → Nat → Prop
  | [] => T
  | s :: prog => spoiltBy (s.value ρ) (s.spoils ok N D ρ T) prog

end spec

/-! ## Statements read few registers -/

section
variable {S R : Type}

theorem linear_swap {s : PStmt S R} (h : Linear s) : ∀ i j, s ≠ .swap i j := by
  rintro i j rfl
  exact h

theorem numbers_local [CommRing S] (ok : S → Prop) (s : PStmt S R) (hl : Linear s) {ρ ρ' : Nat → List Nat → S} (h : ∀ i ∈ s.reads, ρ i = ρ' i) (w : List Nat) :
    s.NumbersIn ok ρ w ↔ s.NumbersIn ok ρ' w := by
  cases s with
  | zero | word | clear | terms => exact Iff.rfl
  | neg i | scale i x => dsimp only [PStmt.NumbersIn]; rw [h i (by simp [PStmt.reads])]
  | add i j | sub i j => dsimp only [PStmt.NumbersIn]; rw [h i (by simp [PStmt.reads]), h j (by simp [PStmt.reads])]
  | _ => exact hl.elim

theorem numbers_append [CommRing S] (ok : S → Prop) (N D : Nat) (a b : List (PStmt S R)) (ρ : Nat → List Nat → S) :
    NumbersIn ok N D ρ (a ++ b) ↔ NumbersIn ok N D ρ a ∧ NumbersIn ok N D (a.foldl PStmt.value ρ) b := by
  induction a generalizing ρ with
  | nil => exact ⟨fun h => ⟨trivial, h⟩, fun h => h.2⟩
  | cons s a ih =>
    show (_ ∧ NumbersIn ok N D (s.value ρ) (a ++ b)) ↔ (_ ∧ NumbersIn ok N D (s.value ρ) a) ∧ NumbersIn ok N D (a.foldl PStmt.value (s.value ρ)) b
    rw [ih, and_assoc]

theorem zipLoop_ends {A : Type} {g : S → A → Res Unit × S} (hg : ∀ x y, (g x y).1.ReturnsOrPanics) (xs : List S) (ys : List A) : (zipLoop g xs ys).1.ReturnsOrPanics := by
  induction xs generalizing ys with
  | nil => exact ⟨nofun, nofun⟩
  | cons x xs ih =>
    cases ys with
    | nil => exact ⟨nofun, nofun⟩
    | cons y ys =>
      unfold zipLoop
      have := hg x y
      rcases e : g x y with ⟨o, v⟩
      rw [e] at this
      cases o with
      | ok u => exact ih ys
      | panic => exact ⟨nofun, nofun⟩
      | ub => exact (this.1 rfl).elim
      | diverge => exact (this.2 rfl).elim

theorem assign_ends {f : S → Res S} (hf : ∀ x, (f x).ReturnsOrPanics) (x : S) : (assign f x).1.ReturnsOrPanics := by
  unfold assign
  have := hf x
  cases e : f x with
  | ok v => exact ⟨nofun, nofun⟩
  | panic => exact ⟨nofun, nofun⟩
  | ub => exact (this.1 e).elim
  | diverge => exact (this.2 e).elim

theorem ends_cases {x : Res Unit} (h : x.ReturnsOrPanics) : x = .ok () ∨ x = .panic := by
  cases x with
  | ok u => exact .inl rfl
  | panic => exact .inr rfl
  | ub => exact (h.1 rfl).elim
  | diverge => exact (h.2 rfl).elim

/-- A linear statement that reads registers returns or panics, whatever they hold. -/
theorem dense_reads_end {F : FCoeff S R} (hF : F.OnlyPanics) (p : Profile) (N : Nat) {s : PStmt S R} (hl : Linear s) (hr : s.reads ≠ []) (σ : Nat → Dense S) :
    (runStmtU F p N σ s).1.ReturnsOrPanics := by
  cases s with
  | zero | word | terms => exact (hr rfl).elim
  | clear i => exact ⟨nofun, nofun⟩
  | neg i => exact zipLoop_ends (fun x _ => assign_ends hF.uminus x) _ _
  | add i j => exact zipLoop_ends (fun x y => hF.addIn x y) _ _
  | sub i j => exact zipLoop_ends (fun x y => hF.subIn x y) _ _
  | scale i x => exact zipLoop_ends (fun y _ => hF.mulIn y x) _ _
  | _ => exact hl.elim

/-- A statement other than `swap` changes no register but the one it writes, whether it returns or panics. -/
theorem dense_only_dest {F : FCoeff S R} (p : Profile) (N : Nat) {s : PStmt S R} (hs : ∀ i j, s ≠ .swap i j) {σ τ : Nat → Dense S} (h : runCaught F p N σ s = .ok τ)
    (j : Nat) (hj : j ≠ s.dest) : τ j = σ j := by
  have hret := C115_returns F p N σ s
  unfold runCaught at h
  rcases e : runStmtU F p N σ s with ⟨o, τ1⟩
  rw [e] at h hret
  cases o with
  | ok u =>
    cases h
    obtain ⟨g, -, hrun⟩ := stmt_local F p N s hs
    rw [hrun] at hret
    cases hv : g σ with
    | ok v =>
      rw [hv] at hret
      cases hret
      exact if_neg hj
    | panic | ub | diverge => rw [hv] at hret; cases hret
  | panic =>
    cases h
    exact (C115_frame F p N σ _ s e).1 j hj
  | ub | diverge => cases h

end

/-! ## Dense vectors -/

section
variable (p : Profile) (N : Nat)

/-- C117.  A linear program on dense tensors with checked integers whose overflows are caught runs to its end, and every register that is not spoilt holds exactly
what the program says. -/
theorem C117_dense {lo hi : Int} (hlo : lo ≤ -1) (hhi : 1 ≤ hi) (h2 : 2 ≤ N) (hN : N < 2 ^ 32) (D : Nat) (hm : D ≤ maxDepth N) (hp : N ^ (D + 1) < 2 ^ 64)
    (prog : List (PStmt Int Int)) (hs : ∀ s ∈ prog, s.Within N D ∧ Linear s) (hr : ∀ s ∈ prog, s.Scalars (Between lo hi)) :
    ∃ τ, prog.foldlM (runCaught (rangeInt lo hi) p N) (fun _ => .new) = .ok τ ∧
      ∀ i, ¬ spoiltBy (Between lo hi) N D (fun _ _ => 0) (fun _ => False) prog i → ∀ w k, ValidWord N w → w.length ≤ maxDepth N → fromLetters p N w = .ok k →
        ∃ x, Dense.get (tensorBasis p N) (τ i) k = .ok x ∧ x.getD 0 = valueProg prog i w := by
  have hF := (C103_only_panics lo hi).1
  suffices H : ∀ (prog c : List (PStmt Int Int)) (σ σ' : Nat → Dense Int) (ρ : Nat → List Nat → Int) (T : Nat → Prop),
      (∀ s ∈ prog, (s.Within N D ∧ Linear s) ∧ s.Scalars (Between lo hi)) → (∀ s ∈ c, (s.Within N D ∧ Linear s) ∧ s.Scalars (Between lo hi)) →
      runProgF (rangeInt lo hi) p N c = .ok σ' → (∀ i, ¬ T i → σ i = σ' i ∧ ρ i = valueProg c i) →
      ∃ τ, prog.foldlM (runCaught (rangeInt lo hi) p N) σ = .ok τ ∧ ∃ c' τ', (∀ s ∈ c', (s.Within N D ∧ Linear s) ∧ s.Scalars (Between lo hi)) ∧
        runProgF (rangeInt lo hi) p N c' = .ok τ' ∧
        ∀ i, ¬ spoiltBy (Between lo hi) N D ρ T prog i → τ i = τ' i ∧ prog.foldl PStmt.value ρ i = valueProg c' i by
    obtain ⟨τ, h3, c, τ', h4, h5, h6⟩ := H prog [] _ _ (fun _ _ => 0) (fun _ => False) (fun s h => ⟨hs s h, hr s h⟩) (by simp) rfl fun _ _ => ⟨rfl, rfl⟩
    refine ⟨τ, h3, fun i hi' w k hv hl hk => ?_⟩
    obtain ⟨x, x1, x2⟩ := C103_program_values p N truncCoeff_isRing (C103_integers lo hi) h2 hN D hm hp c (fun s h => ⟨(h4 s h).1.1, linear_algebraic (h4 s h).1.2⟩) c
      (List.forall₂_same.2 fun _ _ => stmtRel_refl _) τ' h5 i w k hv hl hk
    refine ⟨x, by rw [(h6 i hi').1]; exact x1, ?_⟩
    show x.getD 0 = prog.foldl PStmt.value (fun _ _ => 0) i w
    rw [(h6 i hi').2]
    exact x2
  intro prog
  induction prog with
  | nil => exact fun c σ σ' ρ T _ hc hσ h => ⟨σ, rfl, c, σ', hc, hσ, h⟩
  | cons s prog ih =>
    intro c σ σ' ρ T hsp hc hσ h
    obtain ⟨⟨hw, hlin⟩, hsc⟩ := hsp s (by simp)
    have hsw := linear_swap hlin
    have hsp' := fun t ht => hsp t (List.mem_cons_of_mem _ ht)
    have app : ∀ t, runProgF (rangeInt lo hi) p N (c ++ [t]) = runStmtF (rangeInt lo hi) p N σ' t := by
      intro t
      unfold runProgF at hσ ⊢
      rw [List.foldlM_append, hσ, Res.bind_ok, List.foldlM_cons]
      cases runStmtF (rangeInt lo hi) p N σ' t <;> rfl
    have good : ∀ t : PStmt Int Int, ((t.Within N D ∧ Linear t) ∧ t.Scalars (Between lo hi)) → ∀ u ∈ c ++ [t], (u.Within N D ∧ Linear u) ∧ u.Scalars (Between lo hi) := by
      intro t ht u hu
      rcases List.mem_append.1 hu with hu | hu
      · exact hc u hu
      · rw [List.mem_singleton.1 hu]
        exact ht
    have vapp : ∀ t : PStmt Int Int, valueProg (c ++ [t]) = t.value (valueProg c) := fun t => by unfold valueProg; rw [List.foldl_append]; rfl
    obtain ⟨gv, hgv, hval⟩ := value_local s hsw (linear_algebraic hlin)
    -- the register that the statement writes becomes spoilt
    have lost : s.spoils (Between lo hi) N D ρ T s.dest → (runStmtU (rangeInt lo hi) p N σ s).1.ReturnsOrPanics →
        ∃ τ, (s :: prog).foldlM (runCaught (rangeInt lo hi) p N) σ = .ok τ ∧ ∃ c' τ', (∀ s ∈ c', (s.Within N D ∧ Linear s) ∧ s.Scalars (Between lo hi)) ∧
          runProgF (rangeInt lo hi) p N c' = .ok τ' ∧
          ∀ i, ¬ spoiltBy (Between lo hi) N D ρ T (s :: prog) i → τ i = τ' i ∧ (s :: prog).foldl PStmt.value ρ i = valueProg c' i := by
      intro hsp hend
      have hcaught : ∃ τ1, runCaught (rangeInt lo hi) p N σ s = .ok τ1 := by
        unfold runCaught
        rcases e : runStmtU (rangeInt lo hi) p N σ s with ⟨o, τ1⟩
        rw [e] at hend
        rcases ends_cases hend with rfl | rfl <;> exact ⟨τ1, rfl⟩
      obtain ⟨τ1, h1⟩ := hcaught
      rw [List.foldlM_cons, h1]
      refine ih (c ++ [.zero s.dest]) τ1 _ _ _ hsp' (good (.zero s.dest) ⟨⟨trivial, trivial⟩, trivial⟩) (app _) fun i hi' => ?_
      have hd : i ≠ s.dest := by
        rintro rfl
        exact hi' hsp
      have hT : ¬ T i := by
        unfold PStmt.spoils setReg at hi'
        rwa [if_neg hd] at hi'
      rw [dense_only_dest p N hsw h1 i hd, vapp, hval]
      simp only [PStmt.value, setReg, if_neg hd]
      exact h i hT
    by_cases ht : ∃ i ∈ s.reads, T i
    · refine lost ?_ (dense_reads_end hF p N hlin ?_ σ)
      · unfold PStmt.spoils setReg
        rw [if_pos rfl]
        exact .inl ht
      · obtain ⟨i, hi', -⟩ := ht
        exact List.ne_nil_of_mem hi'
    · have hread : ∀ i ∈ s.reads, ¬ T i := fun i hi' hT => ht ⟨i, hi', hT⟩
      have hnum := fun w => numbers_local (Between lo hi) s hlin (fun i hi' => (h i (hread i hi')).2) w
      obtain ⟨g, hg, hrun⟩ := stmt_local (rangeInt lo hi) p N s hsw
      have hgσ : g σ = g σ' := hg _ _ fun i hi' => (h i (hread i hi')).1
      have hgd := good s ⟨⟨hw, hlin⟩, hsc⟩
      have hex := C105_exact_signed p N hlo hhi h2 hN D hm hp (c ++ [s]) (fun u hu => ⟨(hgd u hu).1.1, linear_algebraic (hgd u hu).1.2⟩)
        (linear_allowed _ (fun u hu => (hgd u hu).1.2) _) fun u hu => (hgd u hu).2
      have hcn : NumbersIn (Between lo hi) N D (fun _ _ => 0) c :=
        (C105_exact_signed p N hlo hhi h2 hN D hm hp c (fun u hu => ⟨(hc u hu).1.1, linear_algebraic (hc u hu).1.2⟩)
          (linear_allowed _ (fun u hu => (hc u hu).1.2) _) fun u hu => (hc u hu).2).1.1 ⟨_, hσ⟩
      have hiff : NumbersIn (Between lo hi) N D (fun _ _ => 0) (c ++ [s]) ↔ ∀ w, ValidWord N w → w.length ≤ D → s.NumbersIn (Between lo hi) ρ w := by
        rw [numbers_append]
        exact ⟨fun hq w hv hd => (hnum w).2 (hq.2.1 w hv hd), fun hq => ⟨hcn, fun w hv hd => (hnum w).1 (hq w hv hd), trivial⟩⟩
      rw [app, hiff] at hex
      have hret := C115_returns (rangeInt lo hi) p N σ s
      by_cases hq : ∀ w, ValidWord N w → w.length ≤ D → s.NumbersIn (Between lo hi) ρ w
      · obtain ⟨σ1, h1⟩ := hex.1.2 hq
        have h1' := h1
        rw [hrun] at h1
        cases hv : g σ' with
        | ok v =>
          rw [hv] at h1
          cases h1
          rw [hrun, hgσ, hv] at hret
          have hcaught : runCaught (rangeInt lo hi) p N σ s = .ok (setReg σ s.dest v) := by
            unfold runCaught
            rcases e : runStmtU (rangeInt lo hi) p N σ s with ⟨o, τ1⟩
            rw [e] at hret
            cases o <;> cases hret
            rfl
          rw [List.foldlM_cons, hcaught]
          refine ih (c ++ [s]) _ _ _ _ hsp' hgd ((app s).trans h1') fun i hi' => ?_
          rw [vapp, hval, hval]
          by_cases hd : i = s.dest
          · subst hd
            simp only [setReg, if_true, true_and]
            exact hgv _ _ fun i hi' => (h i (hread i hi')).2
          · simp only [setReg, if_neg hd]
            refine h i ?_
            unfold PStmt.spoils setReg at hi'
            rwa [if_neg hd] at hi'
        | panic | ub | diverge => rw [hv] at h1; cases h1
      · have h1 := hex.2.2 hq
        have h1 : runStmtF (rangeInt lo hi) p N σ s = .panic := by
          rw [hrun] at h1 ⊢
          rw [hgσ]
          cases hv : g σ' with
          | ok v => rw [hv] at h1; cases h1
          | panic => rfl
          | ub | diverge => rw [hv] at h1; cases h1
        refine lost ?_ ?_
        · unfold PStmt.spoils setReg
          rw [if_pos rfl]
          exact .inr hq
        · rw [h1] at hret
          rcases e : runStmtU (rangeInt lo hi) p N σ s with ⟨o, τ1⟩
          rw [e] at hret
          cases o <;> cases hret
          exact ⟨nofun, nofun⟩

end

/-! ## Sparse vectors -/

section
variable {S R : Type} (F : FCoeff S R) (p : Profile) (N : Nat)

/-- A statement on registers holding sparse vectors: the outcome, and the registers at that moment (simple_sparse_vector.rs:142-199).  All statements but the arithmetic
ones panic, if they do, before they write: in the construction of a key or of a vector, or as `todo!()`. -/
def runSparseStmtU (σ : Nat → Sparse TensorKey S) : PStmt S R → Res Unit × (Nat → Sparse TensorKey S)
  | .neg i => let q := sUminus F (σ i); (q.1, setReg σ i q.2)
  | .add i j => let q := sAdd F (σ i) (σ j); (q.1, setReg σ i q.2)
  | .sub i j => let q := sSub F (σ i) (σ j); (q.1, setReg σ i q.2)
  | .scale i s => let q := sMul F (σ i) s; (q.1, setReg σ i q.2)
  | .div i r => let q := sDiv F (σ i) r; (q.1, setReg σ i q.2)
  | st => match runSparseStmtF F p N σ st with
    | .ok τ => (.ok (), τ)
    | .panic => (.panic, σ)
    | .ub => (.ub, σ)
    | .diverge => (.diverge, σ)

/-- A program with caught panics.  The hash maps may be visited in another order at each statement. -/
inductive SparseCaught : (Nat → Sparse TensorKey S) → List (PStmt S R) → (Nat → Sparse TensorKey S) → Prop
  | done (σ τ) : (∀ i, (σ i).entries.Perm (τ i).entries) → SparseCaught σ [] τ
  | step (σ σ' s o σ1 prog τ) : (∀ i, (σ i).entries.Perm (σ' i).entries) → runSparseStmtU F p N σ' s = (o, σ1) → (o = .ok () ∨ o = .panic) →
      SparseCaught σ1 prog τ → SparseCaught σ (s :: prog) τ

/-- C117.  If the statement returns, it has done what it does in C109. -/
theorem C117_sparse_returns (σ : Nat → Sparse TensorKey S) (st : PStmt S R) : temp (runSparseStmtU F p N σ st) = runSparseStmtF F p N σ st := by
  have work : ∀ (i : Nat) (q : Res Unit × Sparse TensorKey S), temp (q.1, setReg σ i q.2) = temp q >>= fun v => pure (setReg σ i v) := by
    rintro i ⟨o, d⟩
    cases o <;> rfl
  cases st with
  | neg i | add i j | sub i j | scale i s | div i r => exact work _ _
  | zero i | word i w s | terms i l | copy i j | swap i j | clear i | modify i w f | erase i w | mul i j k D | comm i j k D | addMul i j k D | subMul i j k D =>
    dsimp only [runSparseStmtU]
    cases runSparseStmtF F p N σ _ <;> rfl

variable {F p N}

theorem sparse_local (s : PStmt S R) (hs : Linear s) : ∃ g : (Nat → Sparse TensorKey S) → Res (Sparse TensorKey S),
    (∀ σ σ', (∀ i ∈ s.reads, σ i = σ' i) → g σ = g σ') ∧ ∀ σ, runSparseStmtF F p N σ s = g σ >>= fun v => .ok (setReg σ s.dest v) := by
  cases s with
  | zero i => exact ⟨fun _ => .ok Sparse.new, fun _ _ _ => rfl, fun _ => rfl⟩
  | word i w s =>
    refine ⟨fun _ => fromLetters p N w >>= fun k => Sparse.fromKeyScalar k s, fun _ _ _ => rfl, fun σ => ?_⟩
    rw [bind_assoc]; rfl
  | terms i l =>
    refine ⟨fun _ => (l.mapM fun e => (fun k => (k, e.2)) <$> fromLetters p N e.1) >>= fun k => Sparse.fromIterator k, fun _ _ _ => rfl, fun σ => ?_⟩
    rw [bind_assoc]; rfl
  | clear i => exact ⟨fun σ => Sparse.clear (σ i), fun σ σ' h => by beta_reduce; rw [h i (by simp [PStmt.reads])], fun _ => rfl⟩
  | neg i => exact ⟨fun σ => temp (sUminus F (σ i)), fun σ σ' h => by beta_reduce; rw [h i (by simp [PStmt.reads])], fun _ => rfl⟩
  | scale i s => exact ⟨fun σ => temp (sMul F (σ i) s), fun σ σ' h => by beta_reduce; rw [h i (by simp [PStmt.reads])], fun _ => rfl⟩
  | add i j => exact ⟨fun σ => temp (sAdd F (σ i) (σ j)), fun σ σ' h => by beta_reduce; rw [h i (by simp [PStmt.reads]), h j (by simp [PStmt.reads])], fun _ => rfl⟩
  | sub i j => exact ⟨fun σ => temp (sSub F (σ i) (σ j)), fun σ σ' h => by beta_reduce; rw [h i (by simp [PStmt.reads]), h j (by simp [PStmt.reads])], fun _ => rfl⟩
  | _ => exact hs.elim

/-- A linear statement changes no register but the one it writes. -/
theorem sparse_only_dest {s : PStmt S R} (hs : Linear s) {σ τ : Nat → Sparse TensorKey S} {o : Res Unit} (h : runSparseStmtU F p N σ s = (o, τ)) (j : Nat)
    (hj : j ≠ s.dest) : τ j = σ j := by
  have other : ∀ {t : PStmt S R}, Linear t → j ≠ t.dest → (match runSparseStmtF F p N σ t with
      | .ok τ => ((.ok (), τ) : Res Unit × (Nat → Sparse TensorKey S))
      | .panic => (.panic, σ)
      | .ub => (.ub, σ)
      | .diverge => (.diverge, σ)) = (o, τ) → τ j = σ j := by
    intro t ht hj h
    obtain ⟨g, -, hrun⟩ := sparse_local (F := F) (p := p) (N := N) t ht
    rw [hrun] at h
    cases hv : g σ with
    | ok v => rw [hv] at h; cases h; exact if_neg hj
    | panic | ub | diverge => rw [hv] at h; cases h; rfl
  cases s with
  | neg i | add i k | sub i k | scale i x => cases h; exact if_neg hj
  | zero i | word i w s | terms i l | clear i => exact other hs hj h
  | _ => exact hs.elim

theorem sEach_keys {K : Type} (g : S → Res Unit × S) (a : Sparse K S) : (sEach g a).2.entries.map (·.1) = a.entries.map (·.1) := by
  show (((a.entries.map (·.1)).zip (eachLoop g (a.entries.map (·.2))).2).map (·.1)) = _
  refine List.map_fst_zip ?_
  unfold eachLoop
  rw [zipLoop_length]
  simp

/-- No statement leaves a key twice, not even when it panics. -/
theorem sparse_nodup {s : PStmt S R} (hs : Linear s) {σ τ : Nat → Sparse TensorKey S} {o : Res Unit} (hσ : ∀ i, Sparse.NoDup (σ i).entries)
    (hnew : ∀ τ, s.reads = [] → runSparseStmtF F p N σ s = .ok τ → Sparse.NoDup (τ s.dest).entries) (h : runSparseStmtU F p N σ s = (o, τ)) :
    ∀ i, Sparse.NoDup (τ i).entries := by
  intro j
  by_cases hj : j = s.dest
  swap
  · rw [sparse_only_dest hs h j hj]
    exact hσ j
  subst hj
  have each : ∀ (g : S → Res Unit × S) (a : Sparse TensorKey S), Sparse.NoDup a.entries → Sparse.NoDup (sEach g a).2.entries := by
    intro g a ha
    unfold Sparse.NoDup
    rw [sEach_keys]
    exact ha
  have fresh : ∀ {t : PStmt S R}, (∀ τ, runSparseStmtF F p N σ t = .ok τ → Sparse.NoDup (τ t.dest).entries) → (match runSparseStmtF F p N σ t with
      | .ok τ => ((.ok (), τ) : Res Unit × (Nat → Sparse TensorKey S))
      | .panic => (.panic, σ)
      | .ub => (.ub, σ)
      | .diverge => (.diverge, σ)) = (o, τ) → Sparse.NoDup (τ t.dest).entries := by
    intro t ht h
    cases hv : runSparseStmtF F p N σ t with
    | ok v => rw [hv] at h; cases h; exact ht _ hv
    | panic | ub | diverge => rw [hv] at h; cases h; exact hσ _
  cases s with
  | neg i =>
    cases h
    simp only [PStmt.dest, setReg, if_true]
    exact each _ _ (hσ i)
  | add i k =>
    cases h
    simp only [PStmt.dest, setReg, if_true]
    exact (C100_sparse_add F _ _ (hσ i) (hσ k) _ _ (.inl ⟨rfl, rfl⟩)).1
  | sub i k =>
    cases h
    simp only [PStmt.dest, setReg, if_true]
    exact (C100_sparse_add F _ _ (hσ i) (hσ k) _ _ (.inr ⟨rfl, rfl⟩)).1
  | scale i x =>
    cases h
    simp only [PStmt.dest, setReg, if_true]
    unfold sMul
    split
    exacts [List.nodup_nil, each _ _ (hσ i), hσ i, hσ i, hσ i]
  | zero i | word i w s | terms i l => exact fresh (fun τ => hnew τ rfl) h
  | clear i =>
    cases h
    simp only [PStmt.dest, setReg, if_true]
    exact List.nodup_nil
  | _ => exact hs.elim

theorem foldlM_ends {A σ : Type} {g : Unit → A → Unw σ Unit} (hg : ∀ a m, (g () a m).1.ReturnsOrPanics) (l : List A) (m : σ) :
    (l.foldlM g () m).1.ReturnsOrPanics := by
  induction l generalizing m with
  | nil => exact ⟨nofun, nofun⟩
  | cons a l ih =>
    have := hg a m
    rw [List.foldlM_cons]
    show (Unw.bind (g () a) (fun u => l.foldlM g u) m).1.ReturnsOrPanics
    unfold Unw.bind
    rcases e : g () a m with ⟨o, m1⟩
    rw [e] at this
    cases o with
    | ok u => exact ih m1
    | panic => exact ⟨nofun, nofun⟩
    | ub => exact (this.1 rfl).elim
    | diverge => exact (this.2 rfl).elim

theorem sUpdate_ends (hF : F.OnlyPanics) {g : Res Unit × S} (hg : g.1.ReturnsOrPanics) (k : TensorKey) (m : List (TensorKey × S)) :
    (sUpdate F g k m).1.ReturnsOrPanics := by
  unfold sUpdate
  rcases g with ⟨o, v⟩
  cases o with
  | ok u =>
    have := hF.eq v F.zero
    dsimp only
    cases e : F.eq v F.zero with
    | ok b => cases b <;> exact ⟨nofun, nofun⟩
    | panic => exact ⟨nofun, nofun⟩
    | ub => exact (this.1 e).elim
    | diverge => exact (this.2 e).elim
  | panic => exact ⟨nofun, nofun⟩
  | ub => exact (hg.1 rfl).elim
  | diverge => exact (hg.2 rfl).elim

/-- A linear statement that reads registers returns or panics, whatever they hold. -/
theorem sparse_reads_end (hF : F.OnlyPanics) {s : PStmt S R} (hl : Linear s) (hr : s.reads ≠ []) (σ : Nat → Sparse TensorKey S) :
    (runSparseStmtU F p N σ s).1.ReturnsOrPanics := by
  cases s with
  | zero | word | terms => exact (hr rfl).elim
  | clear i => exact ⟨nofun, nofun⟩
  | neg i => exact zipLoop_ends (fun x _ => assign_ends hF.uminus x) _ _
  | add i j =>
    show ((σ j).entries.foldlM (sAddStep F) () (σ i).entries).1.ReturnsOrPanics
    refine foldlM_ends (fun e m => ?_) _ _
    unfold sAddStep
    split
    · exact sUpdate_ends hF (hF.addIn _ _) _ _
    · exact ⟨nofun, nofun⟩
  | sub i j =>
    show ((σ j).entries.foldlM (sSubStep F) () (σ i).entries).1.ReturnsOrPanics
    refine foldlM_ends (fun e m => ?_) _ _
    unfold sSubStep
    split
    · exact sUpdate_ends hF (hF.subIn _ _) _ _
    · have := hF.uminus e.2
      cases e' : F.uminus e.2 with
      | ok y => exact ⟨nofun, nofun⟩
      | panic => exact ⟨nofun, nofun⟩
      | ub => exact (this.1 e').elim
      | diverge => exact (this.2 e').elim
  | scale i x =>
    show (sMul F (σ i) x).1.ReturnsOrPanics
    have := hF.eq x F.zero
    unfold sMul
    cases e : F.eq x F.zero with
    | ok b =>
      cases b with
      | true => exact ⟨nofun, nofun⟩
      | false => exact zipLoop_ends (fun y _ => hF.mulIn y x) _ _
    | panic => exact ⟨nofun, nofun⟩
    | ub => exact (this.1 e).elim
    | diverge => exact (this.2 e).elim
  | _ => exact hl.elim

theorem SparseHolds.perm [CommRing S] {ok : S → Prop} {D : Nat} {a b : Sparse TensorKey S} {f : List Nat → S} (h : SparseHolds ok N D a f)
    (hp : a.entries.Perm b.entries) : SparseHolds ok N D b f := by
  have hr : Sparse.Reordered a b := ⟨h.nodup, hp⟩
  exact ⟨hr.wf_right, fun e he => h.keys e (hp.mem_iff.2 he), fun w hw hl => by rw [← hr.find]; exact h.coef w hw hl, h.good⟩

open Classical in
/-- One statement, on registers of which some are spoilt. -/
theorem sparse_caught_step [CommRing S] {ok : S → Prop} {D : Nat} (hF : F.Guards ok) (he : ∀ x y, ∃ b, F.eq x y = .ok b) (h0 : ok 0) (h1 : 1 ≤ N) (hN : N < 2 ^ 32)
    (hm : D ≤ maxDepth N) (s : PStmt S R) (hs : s.Within N D) (hlin : Linear s) (hr : s.Scalars ok) {σ τ : Nat → Sparse TensorKey S} {ρ : Nat → List Nat → S}
    {T : Nat → Prop} (hσ : ∀ i, ¬ T i → SparseHolds ok N D (σ i) (ρ i)) {o : Res Unit} (h : runSparseStmtU F p N σ s = (o, τ)) (ho : o = .ok () ∨ o = .panic) :
    ∀ i, ¬ s.spoils ok N D ρ T i → SparseHolds ok N D (τ i) (s.value ρ i) := by
  intro i hi
  obtain ⟨gv, hgv, hval⟩ := value_local s (linear_swap hlin) (linear_algebraic hlin)
  rw [hval]
  by_cases hd : i = s.dest
  swap
  · rw [sparse_only_dest hlin h i hd]
    unfold PStmt.spoils setReg at hi
    rw [if_neg hd] at hi
    unfold setReg
    rw [if_neg hd]
    exact hσ i hi
  subst hd
  unfold PStmt.spoils setReg at hi
  rw [if_pos rfl, not_or, not_not] at hi
  have hread : ∀ i ∈ s.reads, ¬ T i := fun i hi' hT => hi.1 ⟨i, hi', hT⟩
  have hmask : ∀ i, SparseHolds ok N D ((fun i => if T i then Sparse.new else σ i) i) ((fun i => if T i then fun _ => 0 else ρ i) i) := by
    intro i
    by_cases hT : T i
    · simp only [if_pos hT]
      exact sparseHolds_new h0
    · simp only [if_neg hT]
      exact hσ i hT
  have hρ : ∀ i ∈ s.reads, (fun i => if T i then fun _ => 0 else ρ i) i = ρ i := fun i hi' => if_neg (hread i hi')
  obtain ⟨g, hg, hrun⟩ := sparse_local (F := F) (p := p) (N := N) s hlin
  have hgσ := hg (fun i => if T i then Sparse.new else σ i) σ fun i hi' => if_neg (hread i hi')
  rcases sparse_stepF p hF he h0 h1 hN hm s hs hlin hr hmask with ⟨-, σ', a2, a3⟩ | ⟨a1, -⟩
  · rw [hrun, hgσ] at a2
    have hret := C117_sparse_returns F p N σ s
    rw [h, hrun] at hret
    cases hv : g σ with
    | ok v =>
      rw [hv] at a2 hret
      cases a2
      rcases ho with rfl | rfl
      · cases hret
        have := a3 s.dest
        rw [hval, hgv _ _ hρ] at this
        simpa [setReg] using this
      · cases hret
    | panic | ub | diverge => rw [hv] at a2; cases a2
  · exact (a1 fun w hw hl => (numbers_local ok s hlin hρ w).2 (hi.2 w hw hl)).elim

end

section
variable (p : Profile) (N : Nat)

/-- C117.  A linear program on sparse vectors with checked integers whose overflows are caught, in whatever order the hash maps are visited: no register ever holds a key twice, and
every register that is not spoilt holds exactly what the program says. -/
theorem C117_sparse {lo hi : Int} (hlo : lo ≤ 0) (hhi : 0 ≤ hi) (h1 : 1 ≤ N) (hN : N < 2 ^ 32) (D : Nat) (hm : D ≤ maxDepth N)
    (prog : List (PStmt Int Int)) (hs : ∀ s ∈ prog, s.Within N D ∧ Linear s) (hr : ∀ s ∈ prog, s.Scalars (Between lo hi)) (τ : Nat → Sparse TensorKey Int)
    (h : SparseCaught (rangeInt lo hi) p N (fun _ => Sparse.new) prog τ) :
    (∀ i, (τ i).WF) ∧ ∀ i, ¬ spoiltBy (Between lo hi) N D (fun _ _ => 0) (fun _ => False) prog i → ∀ w k, ValidWord N w → w.length ≤ maxDepth N →
      fromLetters p N w = .ok k → ∃ x, Sparse.get (τ i) k = .ok x ∧ x.getD 0 = valueProg prog i w := by
  have h0 : Between lo hi 0 := ⟨hlo, hhi⟩
  suffices H : ∀ (prog : List (PStmt Int Int)) (σ : Nat → Sparse TensorKey Int) (ρ : Nat → List Nat → Int) (T : Nat → Prop),
      (∀ s ∈ prog, (s.Within N D ∧ Linear s) ∧ s.Scalars (Between lo hi)) → (∀ i, Sparse.NoDup (σ i).entries) →
      (∀ i, ¬ T i → SparseHolds (Between lo hi) N D (σ i) (ρ i)) → SparseCaught (rangeInt lo hi) p N σ prog τ →
      (∀ i, Sparse.NoDup (τ i).entries) ∧
        ∀ i, ¬ spoiltBy (Between lo hi) N D ρ T prog i → SparseHolds (Between lo hi) N D (τ i) (prog.foldl PStmt.value ρ i) by
    obtain ⟨h3, h4⟩ := H prog (fun _ => Sparse.new) (fun _ _ => 0) (fun _ => False) (fun s hm => ⟨hs s hm, hr s hm⟩) (fun _ => List.nodup_nil) (fun _ _ => sparseHolds_new h0) h
    refine ⟨h3, fun i hi' w k hv hl hk => ⟨_, rfl, ?_⟩⟩
    cases (fromLetters_ok p N h1 hN w hv hl).symm.trans hk
    exact (h4 i hi').coef w hv hl
  clear h hs hr prog
  intro prog
  induction prog with
  | nil =>
    intro σ ρ T _ hn hσ h
    cases h with
    | done _ _ hp => exact ⟨fun i => ((hp i).map Prod.fst).nodup_iff.1 (hn i), fun i hi' => (hσ i hi').perm (hp i)⟩
  | cons s prog ih =>
    intro σ ρ T hs hn hσ h
    cases h with
    | step _ σ' _ o σ1 _ _ hp hrun ho hrest =>
      obtain ⟨⟨hw, hlin⟩, hsc⟩ := hs s (by simp)
      have hn' : ∀ i, Sparse.NoDup (σ' i).entries := fun i => ((hp i).map Prod.fst).nodup_iff.1 (hn i)
      have hσ' : ∀ i, ¬ T i → SparseHolds (Between lo hi) N D (σ' i) (ρ i) := fun i hi' => (hσ i hi').perm (hp i)
      refine ih σ1 (s.value ρ) _ (fun t ht => hs t (List.mem_cons_of_mem _ ht)) ?_
        (sparse_caught_step (rangeInt_guards lo hi) (fun _ _ => ⟨_, rfl⟩) h0 h1 hN hm s hw hlin hsc hσ' hrun ho) hrest
      refine sparse_nodup hlin hn' (fun τ1 hrd hτ => ?_) hrun
      -- a statement that reads nothing does not depend on the registers
      obtain ⟨g, hg, hrun'⟩ := sparse_local (F := rangeInt lo hi) (p := p) (N := N) s hlin
      have hgg := hg σ' (fun _ => Sparse.new) (by simp [hrd])
      rcases sparse_stepF p (rangeInt_guards lo hi) (fun _ _ => ⟨_, rfl⟩) h0 h1 hN hm s hw hlin hsc (σ := fun _ => Sparse.new) (ρ := fun _ _ => 0)
        (fun _ => sparseHolds_new h0) with ⟨-, τ2, a2, a3⟩ | ⟨-, a2⟩
      · rw [hrun', ← hgg] at a2
        rw [hrun'] at hτ
        cases hv : g σ' with
        | ok v =>
          rw [hv] at a2 hτ
          cases a2
          cases hτ
          have := (a3 s.dest).nodup
          simpa [setReg] using this
        | panic | ub | diverge => rw [hv] at a2; cases a2
      · rw [hrun', ← hgg] at a2
        rw [hrun'] at hτ
        cases hv : g σ' with
        | ok v => rw [hv] at a2; cases a2
        | panic | ub | diverge => rw [hv] at hτ; cases hτ

/-- C117.  The program can be run, from any vectors and whatever order the hash maps have at each statement: no statement but returns or panics. -/
theorem C117_sparse_runs {lo hi : Int} (hlo : lo ≤ 0) (hhi : 0 ≤ hi) (h1 : 1 ≤ N) (hN : N < 2 ^ 32) (D : Nat) (hm : D ≤ maxDepth N)
    (s : PStmt Int Int) (hs : s.Within N D ∧ Linear s) (hr : s.Scalars (Between lo hi)) (σ : Nat → Sparse TensorKey Int) :
    ∃ o τ, runSparseStmtU (rangeInt lo hi) p N σ s = (o, τ) ∧ (o = .ok () ∨ o = .panic) := by
  suffices h : (runSparseStmtU (rangeInt lo hi) p N σ s).1.ReturnsOrPanics from ⟨_, _, rfl, ends_cases h⟩
  by_cases hrd : s.reads = []
  swap
  · exact sparse_reads_end (C103_only_panics lo hi).1 hs.2 hrd σ
  obtain ⟨g, hg, hrun⟩ := sparse_local (F := rangeInt lo hi) (p := p) (N := N) s hs.2
  have hgg := hg σ (fun _ => Sparse.new) (by simp [hrd])
  have hret := C117_sparse_returns (rangeInt lo hi) p N σ s
  rw [hrun, hgg] at hret
  have hend : g (fun _ => Sparse.new) ≠ .ub ∧ g (fun _ => Sparse.new) ≠ .diverge := by
    rcases sparse_stepF p (rangeInt_guards lo hi) (fun _ _ => ⟨_, rfl⟩) ⟨hlo, hhi⟩ h1 hN hm s hs.1 hs.2 hr (σ := fun _ => Sparse.new) (ρ := fun _ _ => 0)
      (fun _ => sparseHolds_new ⟨hlo, hhi⟩) with ⟨-, τ2, a2, -⟩ | ⟨-, a2⟩ <;> rw [hrun] at a2 <;> constructor <;> intro hv <;> rw [hv] at a2 <;> cases a2
  rcases e : runSparseStmtU (rangeInt lo hi) p N σ s with ⟨o, τ⟩
  rw [e] at hret
  show o.ReturnsOrPanics
  cases o with
  | ok u => exact ⟨nofun, nofun⟩
  | panic => exact ⟨nofun, nofun⟩
  | ub =>
    cases hv : g (fun _ => Sparse.new) with
    | ub => exact (hend.1 hv).elim
    | ok v | panic | diverge => rw [hv] at hret; cases hret
  | diverge =>
    cases hv : g (fun _ => Sparse.new) with
    | diverge => exact (hend.2 hv).elim
    | ok v | panic | ub => rw [hv] at hret; cases hret

/-- C117.  Dense and sparse vectors hold the same coefficients wherever the exact computation says that they are not spoilt. -/
theorem C117_agree {lo hi : Int} (hlo : lo ≤ -1) (hhi : 1 ≤ hi) (h2 : 2 ≤ N) (hN : N < 2 ^ 32) (D : Nat) (hm : D ≤ maxDepth N) (hp : N ^ (D + 1) < 2 ^ 64)
    (prog : List (PStmt Int Int)) (hs : ∀ s ∈ prog, s.Within N D ∧ Linear s) (hr : ∀ s ∈ prog, s.Scalars (Between lo hi))
    (δ : Nat → Dense Int) (τ : Nat → Sparse TensorKey Int) (hd : prog.foldlM (runCaught (rangeInt lo hi) p N) (fun _ => .new) = .ok δ)
    (h : SparseCaught (rangeInt lo hi) p N (fun _ => Sparse.new) prog τ) (i : Nat)
    (hi' : ¬ spoiltBy (Between lo hi) N D (fun _ _ => 0) (fun _ => False) prog i) (w : List Nat) (k : TensorKey) (hv : ValidWord N w) (hl : w.length ≤ maxDepth N)
    (hk : fromLetters p N w = .ok k) : ∃ x y, Dense.get (tensorBasis p N) (δ i) k = .ok x ∧ Sparse.get (τ i) k = .ok y ∧ x.getD 0 = y.getD 0 := by
  obtain ⟨δ', d1, d2⟩ := C117_dense p N hlo hhi h2 hN D hm hp prog hs hr
  cases d1.symm.trans hd
  obtain ⟨x, x1, x2⟩ := d2 i hi' w k hv hl hk
  obtain ⟨y, y1, y2⟩ := (C117_sparse p N (by omega) (by omega) (by omega) hN D hm prog hs hr τ h).2 i hi' w k hv hl hk
  exact ⟨x, y, x1, y1, x2.trans y2.symm⟩

end

/-! ## A program -/

/-- `x_0 = 2 e1 + 3 e2`, times 3 (too large at `e2`), `x_2 += x_0`; meanwhile `x_1` and `x_3` are computed from what is not spoilt. -/
def caughtProg : List (PStmt Int Int) := [.word 0 [1] 2, .word 1 [2] 3, .word 2 [] 1, .add 0 1, .scale 0 3, .neg 1, .add 2 0, .word 3 [1] 5, .sub 3 1]

theorem caughtProg_ok : (∀ s ∈ caughtProg, s.Within 2 1 ∧ Linear s) ∧ ∀ s ∈ caughtProg, s.Scalars (Between (-8) 7) := by
  constructor <;> intro s hs <;> simp only [caughtProg, List.mem_cons, List.not_mem_nil, or_false] at hs <;>
    rcases hs with rfl | rfl | rfl | rfl | rfl | rfl | rfl | rfl | rfl <;> simp [PStmt.Within, Linear, ValidWord, PStmt.Scalars, Between]

/-- The overflow makes `x_0` spoilt and then `x_2`; `x_1` and `x_3` are not. -/
theorem caughtProg_sound : ∀ i, i = 1 ∨ i = 3 → ¬ spoiltBy (Between (-8) 7) 2 1 (fun _ _ => 0) (fun _ => False) caughtProg i := by
  have q1 : ∀ w, ValidWord 2 w → w.length ≤ 1 → Between (-8) 7 (-(if w = [2] then (3 : Int) else 0)) := fun w _ _ => by unfold Between; split <;> omega
  have q3 : ∀ w, ValidWord 2 w → w.length ≤ 1 → Between (-8) 7 ((if w = [1] then (5 : Int) else 0) + if w = [2] then (3 : Int) else 0) := by
    refine short_words ?_ ?_ ?_ <;> unfold Between <;> decide
  rintro i (rfl | rfl) <;>
    simpa [spoiltBy, caughtProg, PStmt.spoils, PStmt.reads, PStmt.dest, setReg, PStmt.NumbersIn, PStmt.value] using by first | exact q1 | exact ⟨q1, q3⟩

theorem caughtProg_spoilt : spoiltBy (Between (-8) 7) 2 1 (fun _ _ => 0) (fun _ => False) caughtProg 2 := by
  simp [spoiltBy, caughtProg, PStmt.spoils, PStmt.reads, PStmt.dest, setReg, PStmt.NumbersIn, PStmt.value]
  exact .inl (.inr ⟨[2], by simp [ValidWord], by decide, by unfold Between; decide⟩)

/-- On dense vectors: `x_3 = 5 e1 + 3 e2`. -/
example (p : Profile) : ∃ τ, caughtProg.foldlM (runCaught (rangeInt (-8) 7) p 2) (fun _ => .new) = .ok τ ∧ ∀ k, fromLetters p 2 [2] = .ok k →
    ∃ x, Dense.get (tensorBasis p 2) (τ 3) k = .ok x ∧ x.getD 0 = 3 := by
  obtain ⟨τ, h, h'⟩ := C117_dense p 2 (by omega) (by omega) (by omega) (by omega) 1 (by decide +kernel) (by decide) caughtProg caughtProg_ok.1 caughtProg_ok.2
  refine ⟨τ, h, fun k hk => ?_⟩
  obtain ⟨x, h1, h2⟩ := h' 3 (caughtProg_sound 3 (.inr rfl)) [2] k (by simp [ValidWord]) (by decide +kernel) hk
  exact ⟨x, h1, h2.trans (by decide +kernel)⟩

/-- On dense vectors it is the scaling that panics. -/
example (p : Profile) : outcomes (rangeInt (-8) 7) p 2 (fun _ => .new) caughtProg = [true, true, true, true, false, true, true, true, true] := by
  cases p <;> decide +kernel

/-- On sparse vectors there is a run, whatever the profile, and every run leaves `x_3 = 5 e1 + 3 e2` as well. -/
theorem caughtProg_sparse (p : Profile) : ∃ τ, SparseCaught (rangeInt (-8) 7) p 2 (fun _ => Sparse.new) caughtProg τ := by
  suffices H : ∀ (prog : List (PStmt Int Int)) (σ : Nat → Sparse TensorKey Int), (∀ s ∈ prog, (s.Within 2 1 ∧ Linear s) ∧ s.Scalars (Between (-8) 7)) →
      ∃ τ, SparseCaught (rangeInt (-8) 7) p 2 σ prog τ from H caughtProg _ fun s hs => ⟨caughtProg_ok.1 s hs, caughtProg_ok.2 s hs⟩
  intro prog
  induction prog with
  | nil => exact fun σ _ => ⟨σ, .done _ _ fun _ => .refl _⟩
  | cons s prog ih =>
    intro σ hs
    obtain ⟨o, σ1, h1, h2⟩ := C117_sparse_runs p 2 (by omega : (-8 : Int) ≤ 0) (by omega : (0 : Int) ≤ 7) (by omega) (by omega) 1 (by decide +kernel) s (hs s (by simp)).1
      (hs s (by simp)).2 σ
    obtain ⟨τ, h3⟩ := ih σ1 fun t ht => hs t (List.mem_cons_of_mem _ ht)
    exact ⟨τ, .step _ σ _ o σ1 _ _ (fun _ => .refl _) h1 h2 h3⟩

example (p : Profile) (τ : Nat → Sparse TensorKey Int) (h : SparseCaught (rangeInt (-8) 7) p 2 (fun _ => Sparse.new) caughtProg τ) (k : TensorKey)
    (hk : fromLetters p 2 [2] = .ok k) : (∀ i, (τ i).WF) ∧ ∃ x, Sparse.get (τ 3) k = .ok x ∧ x.getD 0 = 3 := by
  have h' := C117_sparse p 2 (by omega : (-8 : Int) ≤ 0) (by omega : (0 : Int) ≤ 7) (by omega) (by omega) 1 (by decide +kernel) caughtProg caughtProg_ok.1 caughtProg_ok.2 τ h
  obtain ⟨x, h1, h2⟩ := h'.2 3 (caughtProg_sound 3 (.inr rfl)) [2] k (by simp [ValidWord]) (by decide +kernel) hk
  exact ⟨h'.1, x, h1, h2.trans (by decide +kernel)⟩

/-- C117.  What a spoilt sparse vector holds depends on the order in which the hash map is visited: `x *= 3` on `2 k + 3 l` panics in both orders, and leaves `6 k + 3 l`
in the one and the old vector in the other. -/
theorem C117_order_matters (k l : TensorKey) (h : k ≠ l) :
    ∃ τ τ' : Sparse TensorKey Int, sMul (rangeInt (-8) 7) ⟨[(k, 2), (l, 3)]⟩ 3 = (.panic, τ) ∧ sMul (rangeInt (-8) 7) ⟨[(l, 3), (k, 2)]⟩ 3 = (.panic, τ') ∧
      Sparse.get τ k = .ok (some 6) ∧ Sparse.get τ' k = .ok (some 2) ∧ Sparse.get τ l = .ok (some 3) ∧ Sparse.get τ' l = .ok (some 3) :=
  ⟨⟨[(k, 6), (l, 3)]⟩, ⟨[(l, 3), (k, 2)]⟩, rfl, rfl, by simp [Sparse.get, Sparse.find], by simp [Sparse.get, Sparse.find, h.symm],
    by simp [Sparse.get, Sparse.find, h], by simp [Sparse.get, Sparse.find]⟩

end RA
