import Verif.Props.ExactRange
import Verif.Props.ProgramAll
import Verif.SpecStepsAll

/-!
# Exactly when programs over checked numbers return, with division and changes of single entries (C105)
-/

namespace RA
open Spec TensorKey TensorBasis Fallible DenseAlg

section
variable {S R : Type} [CommRing S] {ok : S → Prop} {can : S → R → Prop} {q : S → R → S} (p : Profile) (N : Nat)

theorem fullProg_append (pre : List (PStmt S R)) (s : PStmt S R) : ∀ (l : Nat → Nat) (ρ : Nat → List Nat → S),
    fullProg q l ρ (pre ++ [s]) = s.fullValue q (pre.foldl PStmt.levels l) (fullProg q l ρ pre) := by
  induction pre with
  | nil => exact fun _ _ => rfl
  | cons t pre ih => exact fun l ρ => ih _ _

theorem fullNumbersIn_append {D : Nat} (pre : List (PStmt S R)) (s : PStmt S R) : ∀ (l : Nat → Nat) (ρ : Nat → List Nat → S),
    FullNumbersIn ok can q N D l ρ (pre ++ [s]) ↔ FullNumbersIn ok can q N D l ρ pre ∧
      ∀ w, ValidWord N w → w.length ≤ D → s.FullNumbersIn ok can (pre.foldl PStmt.levels l) (fullProg q l ρ pre) w := by
  induction pre with
  | nil => exact fun l ρ => ⟨fun h => ⟨trivial, h.1⟩, fun h => ⟨h.2, trivial⟩⟩
  | cons t pre ih =>
    intro l ρ
    rw [List.foldl_cons, List.cons_append]
    exact ⟨fun h => ⟨⟨h.1, ((ih _ _).1 h.2).1⟩, ((ih _ _).1 h.2).2⟩, fun h => ⟨h.1.1, (ih _ _).2 ⟨h.1.2, h.2⟩⟩⟩

/-- A statement of the previous kind, or one of the two others. -/
theorem stmt_kind (s : PStmt S R) : (s.Algebraic ∧ (∀ l ρ w, s.FullNumbersIn ok can l ρ w ↔ s.NumbersIn ok ρ w) ∧ (∀ l ρ, s.fullValue q l ρ = s.value ρ) ∧
    (s.FullScalars ok ↔ s.Scalars ok)) ∨ (∃ i r, s = .div i r) ∨ ∃ i w f, s = .modify i w f := by
  cases s with
  | div i r => exact .inr (.inl ⟨i, r, rfl⟩)
  | modify i w f => exact .inr (.inr ⟨i, w, f, rfl⟩)
  | _ => exact .inl ⟨trivial, fun _ _ _ => Iff.rfl, fun _ _ => rfl, Iff.rfl⟩

/-- If the numbers a statement computes are in order, so are the coefficients that it leaves. -/
theorem stmt_full_ok (h0 : ok 0) (hcan : ∀ x r, can x r → ok (q x r)) (hq : ∀ r, q 0 r = 0) {D : Nat} (s : PStmt S R) (hs : s.FullScalars ok) {l : Nat → Nat}
    {ρ : Nat → List Nat → S} (hl : ∀ i w, ValidWord N w → w.length ≤ D → l i ≤ w.length → ρ i w = 0)
    (hρ : ∀ i w, ValidWord N w → w.length ≤ D → ok (ρ i w)) (h : ∀ w, ValidWord N w → w.length ≤ D → s.FullNumbersIn ok can l ρ w) :
    ∀ i w, ValidWord N w → w.length ≤ D → ok (s.fullValue q l ρ i w) := by
  rcases stmt_kind (ok := ok) (can := can) (q := q) s with ⟨k1, k2, k3, k4⟩ | ⟨i, r, rfl⟩ | ⟨i, v, f, rfl⟩
  · rw [k3]
    exact stmt_ok N h0 s k1 (k4.1 hs) hρ fun w hv hd => (k2 l ρ w).1 (h w hv hd)
  · intro j w hv hd
    show ok (setReg ρ i (fun u => q (ρ i u) r) j w)
    unfold setReg
    split_ifs
    · rcases Nat.lt_or_ge w.length (l i) with c | c
      · exact hcan _ _ (h w hv hd c)
      · beta_reduce
        rw [hl i w hv hd c, hq]
        exact h0
    · exact hρ j w hv hd
  · intro j w hv hd
    show ok (setReg ρ i (fun u => if u = v ∧ v.length < l i then f (ρ i u) else ρ i u) j w)
    unfold setReg
    split_ifs
    · beta_reduce
      split_ifs
      · exact hs _ (hρ i w hv hd)
      · exact hρ i w hv hd
    · exact hρ j w hv hd

theorem stmt_full_exact {F : FCoeff S R} (hF : F.Guards ok) (hdiv : ∀ x r, (F.divIn x r).1 = .ok () ↔ can x r) (h0 : ok 0) (h2 : 2 ≤ N) (hN : N < 2 ^ 32) {D : Nat}
    (hm : D ≤ maxDepth N) (hp : N ^ (D + 1) < 2 ^ 64) (st : PStmt S R) (hw : st.Within N D) {σ : Nat → Dense S} {l : Nat → Nat} (hsz : ∀ i, (σ i).size = geomSum N (l i))
    (hl : ∀ i, l i ≤ D + 1) (ha : st.allowed l = true) {ρ : Nat → List Nat → S} (h : ∀ i w, ValidWord N w → w.length ≤ D → val N (σ i) w = ρ i w)
    (hB : ∀ i w, ValidWord N w → w.length ≤ D → ok (ρ i w)) :
    (∃ σ', runStmtF F p N σ st = .ok σ') ↔ ∀ w, ValidWord N w → w.length ≤ D → st.FullNumbersIn ok can l ρ w := by
  rcases stmt_kind (ok := ok) (can := can) (q := fun x _ => x) st with ⟨k1, k2, -⟩ | ⟨i, r, rfl⟩ | ⟨i, v, f, rfl⟩
  · simp only [k2]
    rw [hF.shape]
    exact stmt_exact (e := F.eq) (d := F.div) (dI := F.divIn) p N h0 h2 hN hm hp st hw k1 hsz hl ha h hB
  · have hrun : (∃ σ', (temp (dDiv F (σ i) r) >>= fun v => .ok (setReg σ i v)) = .ok σ') ↔ ∃ v, temp (dDiv F (σ i) r) = .ok v := by
      constructor
      · rintro ⟨σ', h⟩
        obtain ⟨v, hv, -⟩ := bind_ok_inv h
        exact ⟨v, hv⟩
      · rintro ⟨v, hv⟩
        rw [hv]
        exact ⟨_, rfl⟩
    refine hrun.trans (temp_iff.trans ((loop_iff (C100_dense_scale F (σ i) 0 r).2.1).trans ?_))
    simp only [hdiv, hF.zero]
    constructor
    · intro hi w hv hd hlt
      have := (wordIndex_bounds hv).2
      have := geomSum_mono (N := N) (show w.length + 1 ≤ l i from hlt)
      have := hi (wordIndex N w) (by rw [hsz]; omega)
      rw [← h i w hv hd]
      exact this
    · intro hi n hn
      rw [hsz] at hn
      obtain ⟨w, hv, hd, rfl⟩ := index_word N (by omega) (lt_of_lt_of_le hn (geomSum_mono (hl i)))
      have hlt : w.length < l i := by
        by_contra c
        have := (wordIndex_bounds hv).1
        have := geomSum_mono (N := N) (show l i ≤ w.length by omega)
        omega
      have := hi w hv hd hlt
      rw [← h i w hv hd] at this
      exact this
  · refine ⟨fun _ _ _ _ => trivial, fun _ => ?_⟩
    have hk := keyToIndex_keyOf p N (by omega) hN v hw.1 (hw.2.trans hm)
    show ∃ σ', (fromLetters p N v >>= fun k => Dense.getMut (tensorBasis p N) (σ i) k f >>= fun r => .ok (setReg σ i r.2)) = .ok σ'
    rw [fromLetters_ok p N (by omega) hN v hw.1 (hw.2.trans hm), Res.bind_ok]
    unfold Dense.getMut
    rw [show (tensorBasis p N).keyToIndex (keyOf N v) = _ from hk, Res.bind_ok]
    split_ifs <;> exact ⟨_, rfl⟩

/-- A program over guarded coefficients that may also divide and change single entries returns if and only if every number that it computes is in order; the registers then
hold the exact coefficients. -/
theorem guarded_returns_all {F : FCoeff S R} (hF : F.Guards ok) {C : Coeff S R} (hC : C.IsRing) (hX : F.ExactFor id Eq C) (hCq : ∀ x r, C.div x r = q x r) (hq : ∀ r, q 0 r = 0)
    (hdiv : ∀ x r, (F.divIn x r).1 = .ok () ↔ can x r) (hcan : ∀ x r, can x r → ok (q x r)) (h0 : ok 0) (h2 : 2 ≤ N) (hN : N < 2 ^ 32) {D : Nat}
    (hm : D ≤ maxDepth N) (hp : N ^ (D + 1) < 2 ^ 64) (prog : List (PStmt S R)) (hs : ∀ s ∈ prog, s.Within N D) (ha : allowedProg (fun _ => 0) prog = true)
    (hr : ∀ s ∈ prog, s.FullScalars ok) :
    ((∃ σ, runProgF F p N prog = .ok σ) ↔ FullNumbersIn ok can q N D (fun _ => 0) (fun _ _ => 0) prog) ∧
    ∀ σ, runProgF F p N prog = .ok σ → (∀ i, (σ i).size = geomSum N (prog.foldl PStmt.levels (fun _ => 0) i)) ∧
      ∀ i w, ValidWord N w → w.length ≤ maxDepth N → val N (σ i) w = fullProg q (fun _ => 0) (fun _ _ => 0) prog i w := by
  have hrefl : ∀ prog : List (PStmt S R), List.Forall₂ (StmtRel (Img id) Eq) prog prog := by
    intro prog
    refine List.forall₂_same.2 fun s _ => ?_
    cases s with
    | word i w s => exact .word _ _ _ _ rfl
    | terms i items => exact .terms _ _ _ (List.forall₂_same.2 fun e _ => ⟨rfl, rfl⟩)
    | scale i s => exact .scale _ _ _ rfl
    | div i r => exact .div _ _ _ rfl
    | modify i w f => exact .modify _ _ _ _ (by rintro x _ rfl; rfl)
    | _ => constructor
  have hvals : ∀ prog : List (PStmt S R), (∀ s ∈ prog, s.Within N D) → ∀ σ, runProgF F p N prog = .ok σ → ∀ i w, ValidWord N w → w.length ≤ maxDepth N →
      val N (σ i) w = fullProg q (fun _ => 0) (fun _ _ => 0) prog i w := by
    intro prog hs σ hσ i w hv hl
    have hk := fromLetters_ok p N (by omega) hN w hv hl
    obtain ⟨x, x1, x2⟩ := C103_all_statements p N hC hCq hq hX h2 hN D hm hp prog hs prog (hrefl prog) σ hσ i w _ hv hl hk
    rw [get_word p N (by omega) hN (σ i) w hv hl _ hk] at x1
    cases x1
    rw [hF.zero] at x2
    exact x2
  have key : ∀ prog : List (PStmt S R), (∀ s ∈ prog, s.Within N D) → allowedProg (fun _ => 0) prog = true → (∀ s ∈ prog, s.FullScalars ok) →
      ((∃ σ, runProgF F p N prog = .ok σ) ↔ FullNumbersIn ok can q N D (fun _ => 0) (fun _ _ => 0) prog) ∧
      ∀ σ, runProgF F p N prog = .ok σ → ShapeIs N σ (prog.foldl PStmt.levels fun _ => 0) ∧ (∀ i, prog.foldl PStmt.levels (fun _ => 0) i ≤ D + 1) ∧
        ∀ i w, ValidWord N w → w.length ≤ D → ok (fullProg q (fun _ => 0) (fun _ _ => 0) prog i w) := by
    intro prog
    induction prog using List.reverseRecOn with
    | nil =>
      intro _ _ _
      refine ⟨⟨fun _ => trivial, fun _ => ⟨_, rfl⟩⟩, fun σ hσ => ?_⟩
      cases hσ
      exact ⟨⟨fun _ => .new, emptyRegs, fun _ => Dense.new_rel, fun _ => Holds.empty (by simp [Dense.new, Dense.ofVec]) rfl, rfl⟩, fun _ => Nat.zero_le _, fun _ _ _ _ => h0⟩
    | append_singleton pre s ih =>
      intro hs ha hr
      rw [allowedProg_append, Bool.and_eq_true] at ha
      have hsp : ∀ t ∈ pre, t.Within N D := fun t ht => hs t (by simp [ht])
      have hrp : ∀ t ∈ pre, t.FullScalars ok := fun t ht => hr t (by simp [ht])
      have hs1 := hs s (by simp)
      have ha2 : s.allowed (pre.foldl PStmt.levels fun _ => 0) = true := (Bool.and_eq_true_iff.1 ha.2).1
      obtain ⟨i1, i2⟩ := ih hsp ha.1 hrp
      have hrun : runProgF F p N (pre ++ [s]) = runProgF F p N pre >>= fun σ => runStmtF F p N σ s := by
        unfold runProgF
        rw [List.foldlM_append]
        cases List.foldlM (runStmtF F p N) (fun _ => (.new : Dense S)) pre with
        | ok σ =>
          simp only [Res.bind_ok, List.foldlM_cons, List.foldlM_nil]
          cases runStmtF F p N σ s <;> rfl
        | _ => rfl
      rw [hrun, fullNumbersIn_append, fullProg_append]
      cases hpre : runProgF F p N pre with
      | ok σ =>
        obtain ⟨j1, j2, j3⟩ := i2 σ hpre
        have hst := stmt_full_exact p N hF hdiv h0 h2 hN hm hp s hs1 j1.size j2 ha2 (fun i w hv hd => hvals pre hsp σ hpre i w hv (hd.trans hm)) j3
        refine ⟨?_, fun σ' hσ' => ?_⟩
        · rw [Res.bind_ok, hst]
          exact ⟨fun h => ⟨i1.1 ⟨σ, hpre⟩, h⟩, fun h => h.2⟩
        · rw [Res.bind_ok] at hσ'
          rw [List.foldl_append]
          refine ⟨shape_step p h2 hN hm hp s hs1 j1 j2 hσ', levels_le (N := N) s hs1 _ j2, ?_⟩
          refine stmt_full_ok N h0 hcan hq (D := D) s (hr s (by simp)) ?_ j3 (hst.1 ⟨σ', hσ'⟩)
          intro i w hv hd hlen
          rw [← hvals pre hsp σ hpre i w hv (hd.trans hm)]
          exact val_beyond N (j1.size i) hv hlen
      | _ =>
        refine ⟨⟨fun ⟨_, h⟩ => (nomatch h), fun h => ?_⟩, fun _ h => (nomatch h)⟩
        obtain ⟨σ, hσ⟩ := i1.2 h.1
        rw [hpre] at hσ
        cases hσ
  exact ⟨(key prog hs ha hr).1, fun σ hσ => ⟨((key prog hs ha hr).2 σ hσ).1.size, hvals prog hs σ hσ⟩⟩

/-- C105, all statements.  A program over checked integers that may also divide and change single entries returns if and only if every number that it computes lies in the
range and every division is possible: by a number other than zero, for all entries of the register including those that are zero, with the quotient, rounded towards zero, in
the range (the quotient of the least number and -1 need not be).  Otherwise the program panics. -/
theorem C105_exact_all {lo hi : Int} (hlo : lo ≤ -1) (hhi : 1 ≤ hi) (h2 : 2 ≤ N) (hN : N < 2 ^ 32) (D : Nat) (hm : D ≤ maxDepth N) (hp : N ^ (D + 1) < 2 ^ 64)
    (prog : List (PStmt Int Int)) (hs : ∀ s ∈ prog, s.Within N D) (ha : allowedProg (fun _ => 0) prog = true) (hr : ∀ s ∈ prog, s.FullScalars (Between lo hi)) :
    ((∃ σ, runProgF (rangeInt lo hi) p N prog = .ok σ) ↔ FullNumbersIn (Between lo hi) (CanDivide lo hi) Int.tdiv N D (fun _ => 0) (fun _ _ => 0) prog) ∧
    (runProgF (rangeInt lo hi) p N prog = .panic ↔ ¬ FullNumbersIn (Between lo hi) (CanDivide lo hi) Int.tdiv N D (fun _ => 0) (fun _ _ => 0) prog) := by
  have h0 : Between lo hi 0 := ⟨by omega, by omega⟩
  suffices h : (∃ σ, runProgF (rangeInt lo hi) p N prog = .ok σ) ↔ FullNumbersIn (Between lo hi) (CanDivide lo hi) Int.tdiv N D (fun _ => 0) (fun _ _ => 0) prog by
    refine ⟨h, ?_⟩
    rw [← h]
    obtain ⟨h3, h4⟩ := (C105_returns_or_panics p N (C103_only_panics lo hi).1 h2 hN D hm hp prog hs).1 ha
    rcases hr : runProgF (rangeInt lo hi) p N prog with r | _ | _ | _
    · exact ⟨nofun, fun h => (h ⟨r, rfl⟩).elim⟩
    · exact ⟨fun _ => nofun, fun _ => rfl⟩
    · exact (h3 hr).elim
    · exact (h4 hr).elim
  refine (guarded_returns_all p N (rangeInt_guards lo hi) truncCoeff_isRing (C103_integers lo hi) (fun _ _ => rfl) Int.zero_tdiv (fun x r => ?_) (fun x r h => h.2) h0 h2 hN hm hp
    prog hs ha hr).1
  show (if r = 0 then ((.panic : Res Unit), x) else inRangeIn lo hi x (x.tdiv r)).1 = .ok () ↔ r ≠ 0 ∧ _
  split_ifs with c
  · exact ⟨nofun, fun h => (h.1 c).elim⟩
  · rw [inRangeIn_guard, guardIn_iff]
    exact ⟨fun h => ⟨c, h⟩, fun h => h.2⟩

end

/-! ## Cases that meet the hypotheses -/

/-- `x0 = (a - 128) / -1` in 8-bit integers: the quotient 128 is not in the range. -/
def minProg (r : Int) : List (PStmt Int Int) := [.word 0 [1] 1, .word 1 [] (-128), .add 0 1, .modify 0 [1] fun x => min x 100, .div 0 r]

theorem minProg_ok (r : Int) : (∀ s ∈ minProg r, s.Within 2 2) ∧ allowedProg (fun _ => 0) (minProg r) = true ∧ ∀ s ∈ minProg r, s.FullScalars (Between (-128) 127) := by
  refine ⟨fun s hs => ?_, rfl, fun s hs => ?_⟩ <;>
    simp only [minProg, List.mem_cons, List.not_mem_nil, or_false] at hs <;>
    rcases hs with rfl | rfl | rfl | rfl | rfl <;>
    simp [PStmt.Within, ValidWord, PStmt.FullScalars, PStmt.Scalars, Between]
  omega

example (p : Profile) (r : Int) := C105_exact_all p 2 (show -128 ≤ (-1 : Int) by omega) (show 1 ≤ (127 : Int) by omega) (by omega) (by omega) 2 (by decide +kernel) (by decide)
  (minProg r) (minProg_ok r).1 (minProg_ok r).2.1 (minProg_ok r).2.2

example : (do let σ ← runProgF (rangeInt (-128) 127) .release 2 (minProg (-1)); return (σ 0).data) = .panic := by decide +kernel
example : (do let σ ← runProgF (rangeInt (-128) 127) .release 2 (minProg 0); return (σ 0).data) = .panic := by decide +kernel
example : (do let σ ← runProgF (rangeInt (-128) 127) .debug 2 (minProg 3); return (σ 0).data) = .ok [-42, 0, 0] := by decide +kernel

end RA
