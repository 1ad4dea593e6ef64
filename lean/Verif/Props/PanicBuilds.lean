import Verif.Props.PanicValues
import Verif.Props.Wrapping

/-!
# Debug builds with caught overflows and release builds that wrap around (C119)

In a debug build an overflow panics, in a release build it wraps around.  If the panics are caught the two builds go on differently.  They still agree on every
register that no panicking statement was to write, directly or through other registers.
-/

namespace RA
open Spec TensorKey TensorBasis Fallible

section spec
variable {S R : Type}

/-- The registers that are lost after a statement which returned (`true`) or panicked (`false`): a statement that panics loses the register that it was to
write, and what is computed from lost registers is lost. -/
def Spec.PStmt.lose (T : Nat → Bool) : PStmt S R → Bool → Nat → Bool
  | .swap i j, true => setReg (setReg T i (T j)) j (T i)
  | s, true => setReg T s.dest (s.reads.any T)
  | s, false => setReg T s.dest true

/-- The registers that are lost at the end, for a program with a note at each statement whether it returned. -/
def lost (T : Nat → Bool) (l : List (PStmt S R × Bool)) : Nat → Bool := l.foldl (fun T e => e.1.lose T e.2) T

theorem lose_returned (T : Nat → Bool) (s : PStmt S R) : s.lose T true = s.spoil T true := by cases s <;> rfl

theorem lose_panicked (T : Nat → Bool) (s : PStmt S R) : s.lose T false = setReg T s.dest true := by cases s <;> rfl

end spec

section
variable {S S' R R' : Type} {z : Prop} {Q : S → S' → Prop} {P : R → R' → Prop} {F : FCoeff S R} {C : Coeff S' R'} (N : Nat)

/-- What a debug build returns, the release build returns; and any build is as good as itself. -/
def BuildLe (p p' : Profile) : Prop := p = p' ∨ (p = .debug ∧ p' = .release)

theorem BuildLe.stmt {p p' : Profile} (h : BuildLe p p') {σ τ : Nat → Dense S'} {s : PStmt S' R'} (hr : runStmt C p N σ s = .ok τ) : runStmt C p' N σ s = .ok τ := by
  rcases h with rfl | ⟨rfl, rfl⟩
  · exact hr
  · rcases (runStmt_sim C N σ s).elim with e | e
    · rw [e] at hr; cases hr
    · rw [← e]; exact hr

/-- Registers are related where they are not lost. -/
def RelOff (Q : S → S' → Prop) (T : Nat → Bool) (σ : Nat → Dense S) (ρ : Nat → Dense S') : Prop := ∀ i, T i = false → DRel Q (σ i) (ρ i)

theorem RelOff.set {T : Nat → Bool} {σ : Nat → Dense S} {ρ : Nat → Dense S'} (h : RelOff Q T σ ρ) (i : Nat) {b : Bool} {v : Dense S} {v' : Dense S'}
    (hv : b = false → DRel Q v v') : RelOff Q (setReg T i b) (setReg σ i v) (setReg ρ i v') := by
  intro j hj
  unfold setReg at hj ⊢
  split_ifs at hj ⊢
  exacts [hv hj, h j hj]

theorem build_step {p p' : Profile} (hb : BuildLe p p') (hF : FRef z Q P F (.ofCoeff C)) {T : Nat → Bool} {σ τ : Nat → Dense S} {ρ ρ' : Nat → Dense S'}
    (h : RelOff Q T σ ρ) {s : PStmt S R} {s' : PStmt S' R'} (hst : StmtRel Q P s s') (hr : runStmt C p' N ρ s' = .ok ρ') :
    (runStmtU F p N σ s = (.ok (), τ) → RelOff Q (s.lose T true) τ ρ') ∧ (runStmtU F p N σ s = (.panic, τ) → RelOff Q (s.lose T false) τ ρ') := by
  have hd : s.dest = s'.dest := by cases hst <;> rfl
  have hrd : s.reads = s'.reads := by cases hst <;> rfl
  obtain ⟨i, j, rfl⟩ | hs := swap_or s
  · cases hst
    cases hr
    refine ⟨fun e => ?_, nofun⟩
    cases e
    exact (h.set i (h j)).set j (h i)
  have hs' : ∀ i j, s' ≠ .swap i j := by
    intro i j hc
    subst hc
    cases hst
    exact hs i j rfl
  obtain ⟨g', hg', hrun'⟩ := stmt_local (FCoeff.ofCoeff C) p' N s' hs'
  have hr' := hr
  rw [runStmtF_total, hrun'] at hr'
  cases hv' : g' ρ with
  | panic | ub | diverge => rw [hv'] at hr'; cases hr'
  | ok v' =>
    rw [hv'] at hr'
    cases hr'
    constructor
    · intro e
      rw [lose_returned, spoil_returned T s hs]
      have hret := C115_returns F p N σ s
      rw [e] at hret
      replace hret : runStmtF F p N σ s = .ok τ := hret.symm
      obtain ⟨g, hg, hrun⟩ := stmt_local F p N s hs
      rw [hrun] at hret
      cases hv : g σ with
      | panic | ub | diverge => rw [hv] at hret; cases hret
      | ok v =>
        rw [hv] at hret
        cases hret
        rw [← hd]
        refine h.set _ fun ha => ?_
        -- run both statements on registers without the lost ones
        have h1 : g (fun i => if T i then .new else σ i) = .ok v := by
          rw [← hv]
          exact hg _ _ fun i hi => by simp [any_false ha hi]
        have h2 : g' (fun i => if T i then .new else ρ i) = .ok v' := by
          rw [← hv']
          exact hg' _ _ fun i hi => by simp [any_false ha (hrd ▸ hi)]
        obtain ⟨ρ1, h3, h4⟩ := (runStmtF_ref p N hF (σ := fun i => if T i then .new else σ i) (σ' := fun i => if T i then .new else ρ i) (fun i => by
          cases ht : T i with
          | true => exact Dense.new_rel
          | false => exact h i ht) hst).ret (by rw [hrun, h1]; rfl)
        rw [← runStmtF_total] at h3
        have h5 := hb.stmt N h3
        rw [runStmtF_total, hrun', h2] at h5
        cases h5
        have := h4 s.dest
        simpa [setReg, hd] using this
    · intro e
      rw [lose_panicked]
      have hf := (C115_frame F p N σ τ s e).1
      intro j hj
      unfold setReg at hj ⊢
      split_ifs at hj with hc
      rw [if_neg (hd ▸ hc), hf j hc]
      exact h j hj

theorem build_run {p p' : Profile} (hb : BuildLe p p') (hF : FRef z Q P F (.ofCoeff C)) {prog : List (PStmt S R)} {prog' : List (PStmt S' R')}
    (hst : List.Forall₂ (StmtRel Q P) prog prog') {T : Nat → Bool} {σ τ : Nat → Dense S} {ρ ρ' : Nat → Dense S'} (h : RelOff Q T σ ρ)
    (hr : prog.foldlM (runCaught F p N) σ = .ok τ) (hr' : prog'.foldlM (runStmt C p' N) ρ = .ok ρ') :
    RelOff Q (lost T (prog.zip (outcomes F p N σ prog))) τ ρ' := by
  induction hst generalizing T σ ρ with
  | nil => cases hr; cases hr'; exact h
  | @cons s s' prog prog' h1 _ ih =>
    rw [List.foldlM_cons] at hr hr'
    obtain ⟨ρ1, e1, hr'⟩ := bind_inv hr'
    unfold runCaught at hr
    unfold outcomes
    have hstep := fun τ => build_step (τ := τ) N hb hF h h1 e1
    rcases e : runStmtU F p N σ s with ⟨o, τ1⟩
    rw [e] at hr
    cases o with
    | ok u => exact ih ((hstep τ1).1 e) hr hr'
    | panic => exact ih ((hstep τ1).2 e) hr hr'
    | ub | diverge => cases hr

end

/-! ## Machine integers -/

/-- A number and the word of `b` bits that stands for it (two's complement). -/
def WordFor (b : Nat) (x : Int) (y : BitVec b) : Prop := y.toInt = x

theorem range_wrap_ref {b : Nat} (hb : 2 ≤ b) :
    FRef True (WordFor b) (fun _ _ => False) (rangeInt (-2 ^ (b - 1)) (2 ^ (b - 1) - 1)) (.ofCoeff (wrapCoeff b)) := by
  have hpow : (2 : Int) ≤ 2 ^ (b - 1) := by
    calc (2 : Int) = 2 ^ 1 := rfl
      _ ≤ 2 ^ (b - 1) := pow_le_pow_right₀ (by norm_num) (by omega)
  have h0 : ∀ {x : Int} {y : BitVec b}, y.toInt = x.bmod (2 ^ b) → ResRef True (WordFor b) (inRange (-2 ^ (b - 1)) (2 ^ (b - 1) - 1) x) (.ok y) := by
    intro x y hy
    unfold inRange
    split_ifs with c
    · exact ⟨y, rfl, hy.trans ((bmod_self_iff b (by omega) _).2 ⟨c.1, by omega⟩)⟩
    · trivial
  have h1 : ∀ {o x : Int} {y : BitVec b}, y.toInt = x.bmod (2 ^ b) → OutRef True (WordFor b) (inRangeIn (-2 ^ (b - 1)) (2 ^ (b - 1) - 1) o x) (.ok (), y) := by
    intro o x y hy
    unfold inRangeIn
    split_ifs with c
    · exact ⟨(), rfl, hy.trans ((bmod_self_iff b (by omega) _).2 ⟨c.1, by omega⟩)⟩
    · trivial
  have hone : (1 : BitVec b).toInt = 1 := by
    show (BitVec.ofNat b 1).toInt = 1
    have := BitVec.toInt_ofInt (n := b) (i := 1)
    rw [(bmod_self_iff b (by omega) _).2 ⟨by omega, by omega⟩] at this
    exact this
  refine ⟨?_, hone, ?_, ?_, ?_, ?_, ?_, ?_, ?_, ?_, ?_⟩
  · exact BitVec.toInt_zero
  · show (-1 : BitVec b).toInt = -1
    rw [BitVec.toInt_neg, hone]
    exact (bmod_self_iff b (by omega) _).2 ⟨by omega, by omega⟩
  · rintro x x' y y' rfl rfl
    refine ⟨_, rfl, ?_⟩
    show decide (x'.toInt = y'.toInt) = decide (x' = y')
    simp only [BitVec.toInt_inj]
  · rintro x x' rfl
    exact h0 BitVec.toInt_neg
  · rintro x x' y y' rfl rfl
    exact h0 (BitVec.toInt_mul _ _)
  · exact fun _ _ _ _ _ h => h.elim
  · rintro x x' y y' rfl rfl
    exact h1 (BitVec.toInt_add _ _)
  · rintro x x' y y' rfl rfl
    exact h1 BitVec.toInt_sub
  · rintro x x' y y' rfl rfl
    exact h1 (BitVec.toInt_mul _ _)
  · exact fun _ _ _ _ _ h => h.elim

theorem stands_list {b : Nat} (l : List Int) (l' : List (BitVec b)) : List.Forall₂ (WordFor b) l l' ↔ l'.map BitVec.toInt = l := by
  induction l generalizing l' with
  | nil => cases l' <;> simp
  | cons x l ih =>
    cases l' with
    | nil => simp
    | cons y l' =>
      rw [List.forall₂_cons, ih, List.map_cons, List.cons.injEq]
      rfl

theorem stands_dense {b : Nat} (d : Dense Int) (d' : Dense (BitVec b)) : DRel (WordFor b) d d' ↔ d'.map BitVec.toInt = d := by
  constructor
  · rintro ⟨h1, h2, h3⟩
    rw [stands_list] at h2 h3
    cases d
    simp only at h1 h2 h3
    subst h1 h2 h3
    rfl
  · rintro rfl
    exact ⟨rfl, (stands_list ..).2 rfl, (stands_list ..).2 rfl⟩

/-- C119.  A program on tensors of machine integers of `b` bits runs in a debug build, where overflows panic and the panics are caught, and in a release build, where
arithmetic wraps around.  When both have ended, every register that is not lost holds the same numbers in both, in the same storage. -/
theorem C119_debug_release (N : Nat) {b : Nat} (hb : 2 ≤ b) (prog : List (PStmt Int Int)) (prog' : List (PStmt (BitVec b) (BitVec b)))
    (h : List.Forall₂ (StmtRel (WordFor b) fun _ _ => False) prog prog') (σ τ : Nat → Dense Int) (ρ ρ' : Nat → Dense (BitVec b))
    (hσ : ∀ i, (ρ i).map BitVec.toInt = σ i) (hr : prog.foldlM (runCaught (rangeInt (-2 ^ (b - 1)) (2 ^ (b - 1) - 1)) .debug N) σ = .ok τ)
    (hr' : prog'.foldlM (runStmt (wrapCoeff b) .release N) ρ = .ok ρ') (i : Nat)
    (hi : lost (fun _ => false) (prog.zip (outcomes (rangeInt (-2 ^ (b - 1)) (2 ^ (b - 1) - 1)) .debug N σ prog)) i = false) :
    (ρ' i).map BitVec.toInt = τ i :=
  (stands_dense _ _).1 (build_run N (.inr ⟨rfl, rfl⟩) (range_wrap_ref hb) h (fun i _ => (stands_dense _ _).2 (hσ i)) hr hr' i hi)

section
variable {S S' R R' : Type} {P : R → R' → Prop} {φ : S → S'} {F : FCoeff S R} {C : Coeff S' R'} (p : Profile) (N : Nat)

/-- C119.  With coefficients whose operations are exact or panic: the registers that are not lost hold what the whole program gives in exact arithmetic, where nothing
panics. -/
theorem C119_exact (hF : F.ExactFor φ P C) (prog : List (PStmt S R)) (prog' : List (PStmt S' R')) (h : List.Forall₂ (StmtRel (Img φ) P) prog prog')
    (σ τ : Nat → Dense S) (ρ' : Nat → Dense S') (hr : prog.foldlM (runCaught F p N) σ = .ok τ)
    (hr' : prog'.foldlM (runStmt C p N) (fun i => (σ i).map φ) = .ok ρ') (i : Nat)
    (hi : lost (fun _ => false) (prog.zip (outcomes F p N σ prog)) i = false) : (τ i).map φ = ρ' i :=
  ((dRel_img ..).1 (build_run N (.inl rfl) (exact_ref hF) h (fun _ _ => (dRel_img ..).2 rfl) hr hr' i hi)).symm

/-- C119.  For registers that start empty this is the element that the program describes. -/
theorem C119_values [CommRing S'] (hC : C.IsRing) (hF : F.ExactFor φ P C) (h2 : 2 ≤ N) (hN : N < 2 ^ 32) (D : Nat) (hm : D ≤ maxDepth N)
    (hp : N ^ (D + 1) < 2 ^ 64) (prog : List (PStmt S R)) (prog' : List (PStmt S' R')) (hs : ∀ s ∈ prog', s.Within N D ∧ s.Algebraic)
    (ha : allowedProg (fun _ => 0) prog' = true) (h : List.Forall₂ (StmtRel (Img φ) P) prog prog') (τ : Nat → Dense S)
    (hr : prog.foldlM (runCaught F p N) (fun _ => .new) = .ok τ) (i : Nat)
    (hi : lost (fun _ => false) (prog.zip (outcomes F p N (fun _ => .new) prog)) i = false) (w : List Nat) (k : TensorKey) (hv : ValidWord N w)
    (hl : w.length ≤ maxDepth N) (hk : fromLetters p N w = .ok k) :
    ∃ x, Dense.get (tensorBasis p N) (τ i) k = .ok x ∧ φ (x.getD F.zero) = valueProg prog' i w := by
  obtain ⟨ρ, h1, h3⟩ := C66_programs_exact C p N hC h2 hN D hm hp prog' hs ha
  have he := C119_exact p N hF prog prog' h (fun _ => .new) τ ρ hr h1 i hi
  obtain ⟨y, y1, y2⟩ := h3 i w k hv hl hk
  have y3 := (C33_get C p N (by omega) hN (ρ i) w hv hl k hk).symm.trans y1
  refine ⟨stored N (τ i) w, get_word p N (by omega) hN _ _ hv hl k hk, ?_⟩
  rw [coef_img N hF, he, ← y2]
  cases y3
  unfold coef
  rw [hC.zero]

/-- C119.  If no statement panics, nothing is lost. -/
theorem C119_no_panic (prog : List (PStmt S R)) : lost (fun _ => false) (prog.zip (prog.map fun _ => true)) = fun _ => false := by
  refine Eq.trans ?_ (C116_no_panic prog).1
  unfold lost spoilt
  have : ∀ (l : List (PStmt S R × Bool)) (T : Nat → Bool), (∀ e ∈ l, e.2 = true) → l.foldl (fun T e => e.1.lose T e.2) T = l.foldl (fun T e => e.1.spoil T e.2) T := by
    intro l
    induction l with
    | nil => exact fun _ _ => rfl
    | cons e l ih =>
      intro T hl
      rw [List.foldl_cons, List.foldl_cons, hl e (by simp), lose_returned]
      exact ih _ fun e he => hl e (by simp [he])
  exact this _ _ fun e he => by
    obtain ⟨s, -, h⟩ := List.mem_map.1 (List.of_mem_zip he).2
    exact h.symm

end

/-! ## Examples: four bits, from -8 to 7 -/

theorem wordFor_map {b : Nat} (prog : List (PStmt Int Int)) (hs : ∀ s ∈ prog, s.Algebraic) (hr : ∀ s ∈ prog, s.Scalars fun x => (BitVec.ofInt b x).toInt = x) :
    List.Forall₂ (StmtRel (WordFor b) fun _ _ => False) prog (prog.map (wrapStmt b)) := by
  rw [List.forall₂_map_right_iff, List.forall₂_same]
  intro s hm
  have h := hs s hm
  have hx := hr s hm
  cases s with
  | modify => exact h.elim
  | div => exact h.elim
  | terms i items =>
    refine .terms _ _ _ ?_
    rw [List.forall₂_map_right_iff, List.forall₂_same]
    exact fun e he => ⟨rfl, hx e he⟩
  | word => exact .word _ _ _ _ hx
  | scale => exact .scale _ _ _ hx
  | _ => constructor

/-- `mixedProg` loses `x_2`, `x_4` (the product that was to be stored there overflowed) and `x_5`. -/
example : (List.range 7).map (lost (fun _ => false) (mixedProg.zip [true, true, true, true, false, true, true, true, false, true, true])) =
    [false, false, true, false, true, true, false] := by decide +kernel

def showWords {b : Nat} (r : Res (Nat → Dense (BitVec b))) : Res (List (List Int)) := (fun ρ => (List.range 6).map fun i => (ρ i).data.map BitVec.toInt) <$> r

def showNumbers (r : Res (Nat → Dense Int)) : Res (List (List Int)) := (fun ρ => (List.range 6).map fun i => (ρ i).data) <$> r

/-- C119, a run.  The two builds end with different contents of the three lost registers, and of no others. -/
theorem C119_lost_differ : showNumbers (mixedProg.foldlM (runCaught (rangeInt (-2 ^ 3) (2 ^ 3 - 1)) .debug 2) fun _ => .new) =
      .ok [[0, 0, 3], [0, 0, 3], [0, 6, 3], [1, 0, 3], [], [0, 6, 3]] ∧
    showWords ((mixedProg.map (wrapStmt 4)).foldlM (runStmt (wrapCoeff 4) .release 2) fun _ => .new) =
      .ok [[0, 0, 3], [0, 0, 3], [0, 6, -7], [1, 0, 3], [0, 0, 0, 0, 0, 0, -7], [0, 6, -7]] := by
  decide +kernel

theorem mixedProg_scalars : ∀ s ∈ mixedProg, s.Scalars fun x => (BitVec.ofInt 4 x).toInt = x := by
  intro s hs
  simp only [mixedProg, List.mem_cons, List.not_mem_nil, or_false] at hs
  rcases hs with rfl | rfl | rfl | rfl | rfl | rfl | rfl | rfl | rfl | rfl | rfl <;> simp only [PStmt.Scalars] <;> decide

/-- `x_3` of `mixedProg` is the same in both builds. -/
example (τ : Nat → Dense Int) (ρ : Nat → Dense (BitVec 4)) (h : mixedProg.foldlM (runCaught (rangeInt (-2 ^ 3) (2 ^ 3 - 1)) .debug 2) (fun _ => .new) = .ok τ)
    (h' : (mixedProg.map (wrapStmt 4)).foldlM (runStmt (wrapCoeff 4) .release 2) (fun _ => .new) = .ok ρ) : (ρ 3).map BitVec.toInt = τ 3 :=
  C119_debug_release 2 (b := 4) (by omega) mixedProg _ (wordFor_map _ (fun s h => (mixedProg_within s h).2) mixedProg_scalars) (fun _ => .new) τ (fun _ => .new) ρ
    (fun _ => rfl) h h' 3 (by decide +kernel)

/-- It is `1 + 3 e2`, as the whole program says. -/
example (p : Profile) (τ : Nat → Dense Int) (h : mixedProg.foldlM (runCaught (rangeInt (-8) 7) p 2) (fun _ => .new) = .ok τ) (k : TensorKey)
    (hk : fromLetters p 2 [2] = .ok k) : ∃ x, Dense.get (tensorBasis p 2) (τ 3) k = .ok x ∧ x.getD 0 = 3 := by
  have := C119_values p 2 truncCoeff_isRing (C103_integers (-8) 7) (by omega) (by omega) 2 (by decide +kernel) (by decide) mixedProg mixedProg mixedProg_within
    (by decide +kernel) (List.forall₂_same.2 fun _ _ => stmtRel_refl _) τ h 3 (by rw [mixedProg_outcomes]; decide +kernel) [2] k (by simp [ValidWord]) (by decide +kernel) hk
  obtain ⟨x, h1, h2⟩ := this
  exact ⟨x, h1, h2.trans (by decide +kernel)⟩

end RA
