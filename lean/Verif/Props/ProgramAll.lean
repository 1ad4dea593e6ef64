import Verif.Props.CheckedProg
import Verif.SpecProgAll

/-!
# Programs that divide and that change single entries (C66, C103)
-/

namespace RA
open Spec TensorKey TensorBasis DenseAlg

section
variable {S R : Type} (C : Coeff S R)

/-- The register has an entry for every word up to its last level, and its level is the one given. -/
def Filled (t : TReg S) (l : Nat) : Prop := t.levels = l ∧ ∀ u, u.length < l → (t.coef u).isSome = true

theorem filled_set {τ : Nat → TReg S} {l : Nat → Nat} {t : TReg S} {n : Nat} (h : ∀ i, Filled (τ i) (l i)) (i : Nat) (ht : Filled t n) : ∀ j, Filled (setReg τ i t j) (setReg l i n j) := by
  intro j
  unfold setReg
  split_ifs
  · exact ht
  · exact h j

theorem stmt_filled (s : PStmt S R) {τ : Nat → TReg S} {l : Nat → Nat} (h : ∀ i, Filled (τ i) (l i)) : ∀ i, Filled (s.eval C τ i) (s.levels l i) := by
  have h0 : Filled (TReg.empty : TReg S) 0 := ⟨rfl, fun u hu => by omega⟩
  have same : ∀ {i : Nat} {c : List Nat → Option S}, (∀ u, ((τ i).coef u).isSome = true → (c u).isSome = true) → ∀ j, Filled (setReg τ i ⟨(τ i).levels, c⟩ j) (l j) := by
    intro i c hc j
    unfold setReg
    split_ifs with e
    · subst e
      exact ⟨(h j).1, fun u hu => hc u ((h j).2 u hu)⟩
    · exact h j
  have merge : ∀ (f : S → S → S) (i j : Nat), Filled ⟨max (τ i).levels (τ j).levels, fun u => mergeEntry f C.zero ((τ i).coef u) ((τ j).coef u)⟩ (max (l i) (l j)) := by
    intro f i j
    refine ⟨by rw [(h i).1, (h j).1], fun u hu => ?_⟩
    dsimp only
    rcases lt_max_iff.1 hu with c | c
    · have := (h i).2 u c
      cases hx : (τ i).coef u with
      | none => rw [hx] at this; cases this
      | some x => cases (τ j).coef u <;> rfl
    · have := (h j).2 u c
      cases hx : (τ j).coef u with
      | none => rw [hx] at this; cases this
      | some x => cases (τ i).coef u <;> rfl
  have prod : ∀ (g : S → S) {v a b : TReg S} {n m k : Nat}, Filled v n → Filled a m → Filled b k → ∀ D, Filled (.addProd C g v a b D) (max n (prodDeg D m k + 1)) := by
    rintro g v a b n m k ⟨rfl, hv⟩ ⟨rfl, -⟩ ⟨rfl, -⟩ D
    refine ⟨rfl, fun u hu => ?_⟩
    unfold TReg.addProd
    dsimp only
    split_ifs with c
    · rfl
    · exact hv u (by omega)
  cases s with
  | zero i | clear i => exact filled_set h i h0
  | word i w x =>
    refine filled_set h i ⟨rfl, fun u hu => ?_⟩
    dsimp only
    split_ifs
    · rfl
    · rfl
    · omega
  | terms i items =>
    refine filled_set h i ⟨rfl, fun u hu => ?_⟩
    dsimp only
    rw [if_pos hu]
    rfl
  | copy i j => exact filled_set h i (h j)
  | swap i j => exact filled_set (filled_set h i (h j)) j (h i)
  | modify i w f =>
    refine same fun u hu => ?_
    split_ifs
    · rwa [Option.isSome_map]
    · exact hu
  | erase i w =>
    refine same fun u hu => ?_
    split_ifs
    · rwa [Option.isSome_map]
    · exact hu
  | neg i => exact same fun u hu => by rwa [Option.isSome_map]
  | scale i x => exact same fun u hu => by rwa [Option.isSome_map]
  | div i r => exact same fun u hu => by rwa [Option.isSome_map]
  | add i j => exact filled_set h i (merge C.add i j)
  | sub i j => exact filled_set h i (merge C.sub i j)
  | mul i j k D =>
    have := prod id h0 (h j) (h k) D
    rw [Nat.zero_max] at this
    exact filled_set h i this
  | comm i j k D =>
    have h1 := prod id h0 (h j) (h k) D
    have := prod C.uminus h1 (h k) (h j) D
    refine filled_set h i ?_
    convert this using 1
    unfold prodDeg
    omega
  | addMul i j k D => exact filled_set h i (prod id (h i) (h j) (h k) D)
  | subMul i j k D => exact filled_set h i (prod C.uminus (h i) (h j) (h k) D)

end

section
variable {S R : Type} [CommRing S] (C : Coeff S R) {q : S → R → S} (p : Profile) (N : Nat)

theorem stmt_fullMeans (hC : C.IsRing) (hq : ∀ x r, C.div x r = q x r) (h0 : ∀ r, q 0 r = 0) (s : PStmt S R) {τ : Nat → TReg S} {ρ : Nat → List Nat → S} {l : Nat → Nat} (hl : ∀ i, Filled (τ i) (l i))
    (h : ∀ i, Means (τ i) (ρ i)) : ∀ i, Means (s.eval C τ i) (s.fullValue q l ρ i) := by
  cases s with
  | div i r =>
    refine means_set h i ⟨fun u hu => ?_, fun u => ?_⟩
    · dsimp only at hu ⊢
      rw [(h i).1 u hu]
      rfl
    · dsimp only
      rw [← (h i).2 u]
      cases (τ i).coef u with
      | none => exact (h0 r).symm
      | some x => exact hq x r
  | modify i w f =>
    refine means_set h i ⟨fun u hu => ?_, fun u => ?_⟩
    · dsimp only at hu ⊢
      rw [(h i).1 u hu]
      split_ifs <;> rfl
    · dsimp only
      by_cases e : u = w
      · subst e
        rw [if_pos rfl, ← (h i).2 u]
        by_cases c : u.length < l i
        · rw [if_pos ⟨rfl, c⟩]
          have := (hl i).2 u c
          cases hx : (τ i).coef u with
          | none => rw [hx] at this; cases this
          | some x => rfl
        · rw [if_neg fun h => c h.2, (h i).1 u (by rw [(hl i).1]; omega)]
          rfl
      · rw [if_neg e, if_neg fun h => e h.1, (h i).2 u]
  | zero | clear | word | terms | copy | swap | erase | neg | add | sub | scale | mul | comm | addMul | subMul => refine stmt_means hC _ ?_ h; trivial

/-- C66, all statements: with exact coefficients, an allowed program that also divides and changes single entries computes what it says: `div` divides every coefficient, and
`modify` changes the coefficient of its word if the register has room for the words of that length, and nothing otherwise. -/
theorem C66_all_statements (hC : C.IsRing) (hq : ∀ x r, C.div x r = q x r) (h0 : ∀ r, q 0 r = 0) (h2 : 2 ≤ N) (hN : N < 2 ^ 32) (D : Nat) (hm : D ≤ maxDepth N)
    (hp : N ^ (D + 1) < 2 ^ 64) (prog : List (PStmt S R)) (hs : ∀ s ∈ prog, s.Within N D) (ha : allowedProg (fun _ => 0) prog = true) :
    ∃ σ, runProg C p N prog = .ok σ ∧ ∀ i w k, ValidWord N w → w.length ≤ maxDepth N → fromLetters p N w = .ok k →
      ∃ x, (DenseAlg.ops C p N).get (σ i) k = .ok x ∧ x.getD 0 = fullProg q (fun _ => 0) (fun _ _ => 0) prog i w := by
  obtain ⟨σ, h1, h3⟩ := C65_programs_partial C p N h2 hN D hm hp prog hs ha
  have key : ∀ (prog : List (PStmt S R)) (τ : Nat → TReg S) (l : Nat → Nat) (ρ : Nat → List Nat → S), (∀ i, Filled (τ i) (l i)) → (∀ i, Means (τ i) (ρ i)) →
      ∀ i, Means (prog.foldl (PStmt.eval C) τ i) (fullProg q l ρ prog i) := by
    intro prog
    induction prog with
    | nil => exact fun τ l ρ _ h => h
    | cons s prog ih => exact fun τ l ρ hl h => ih _ _ _ (stmt_filled C s hl) (stmt_fullMeans C hC hq h0 s hl h)
  have hM := key prog emptyRegs (fun _ => 0) (fun _ _ => 0) (fun _ => ⟨rfl, fun u hu => by omega⟩) fun _ => ⟨fun _ _ => rfl, fun _ => rfl⟩
  exact ⟨σ, h1, fun i w k hw hl hk => ⟨_, (h3 i).2 w k hw hl hk, (hM i).2 w⟩⟩

end

section
variable {S S' R R' : Type} {F : FCoeff S R} {φ : S → S'} {P : R → R' → Prop} {C : Coeff S' R'} {q : S' → R' → S'} (p : Profile) (N : Nat)

theorem stmtRel_within_all {D : Nat} {st : PStmt S R} {st' : PStmt S' R'} (h : StmtRel (Img φ) P st st') (hs : st.Within N D) : st'.Within N D := by
  cases h with
  | terms i l l' hl =>
    rw [pairs_img] at hl
    subst hl
    intro e he
    obtain ⟨e0, he0, rfl⟩ := List.mem_map.1 he
    exact hs e0 he0
  | _ => exact hs

/-- C103, values of programs with all statements: whatever a program over checked arithmetic returns is what the program says, with the exact division. -/
theorem C103_all_statements [CommRing S'] (hC : C.IsRing) (hq : ∀ x r, C.div x r = q x r) (h0 : ∀ r, q 0 r = 0) (hF : F.ExactFor φ P C) (h2 : 2 ≤ N) (hN : N < 2 ^ 32)
    (D : Nat) (hm : D ≤ maxDepth N) (hp : N ^ (D + 1) < 2 ^ 64) (prog : List (PStmt S R)) (hs : ∀ s ∈ prog, s.Within N D) (prog' : List (PStmt S' R'))
    (h : List.Forall₂ (StmtRel (Img φ) P) prog prog') (σ : Nat → Dense S) (hσ : runProgF F p N prog = .ok σ) :
    ∀ i w k, ValidWord N w → w.length ≤ maxDepth N → fromLetters p N w = .ok k →
      ∃ x, Dense.get (tensorBasis p N) (σ i) k = .ok x ∧ φ (x.getD F.zero) = fullProg q (fun _ => 0) (fun _ _ => 0) prog' i w := by
  intro i w k hv hl hk
  have hx := (C103_programs p N hF prog prog' h).1 σ hσ
  have hs' : ∀ s ∈ prog', s.Within N D := by
    clear hx hσ
    induction h with
    | nil => simp
    | cons h1 _ ih =>
      intro s hmem
      rcases List.mem_cons.1 hmem with rfl | hmem
      · exact stmtRel_within_all N h1 (hs _ (List.mem_cons_self ..))
      · exact ih (fun s h => hs s (List.mem_cons_of_mem _ h)) s hmem
  have ha : allowedProg (fun _ => 0) prog' = true := by
    by_contra hc
    cases hx.symm.trans ((C65_unsafe C p N h2 hN D hm hp prog' hs').2 (by simpa using hc))
  obtain ⟨τ, h1, h3⟩ := C66_all_statements C p N hC hq h0 h2 hN D hm hp prog' hs' ha
  cases hx.symm.trans h1
  obtain ⟨y, y1, y2⟩ := h3 i w k hv hl hk
  refine ⟨stored N (σ i) w, get_word p N (by omega) hN (σ i) w hv hl k hk, ?_⟩
  have y3 := (C33_get C p N (by omega) hN ((σ i).map φ) w hv hl k hk).symm.trans y1
  cases y3
  rw [← y2, coef_img N hF, ← hC.zero]
  rfl

end

/-! ## Cases that meet the hypotheses -/

/-- `x0 = (1 + a + 3 b) / 2`, the coefficient of `a` squared, that of `a b` (for which there is no room) changed to 7. -/
def divProg : List (PStmt Rat Rat) := [.terms 0 [([], 1), ([1], 1), ([2], 3)], .div 0 2, .modify 0 [1] fun x => x * x, .modify 0 [1, 2] fun _ => 7]

theorem divProg_ok : (∀ s ∈ divProg, s.Within 2 2) ∧ allowedProg (fun _ => 0) divProg = true := by
  refine ⟨fun s hs => ?_, by decide +kernel⟩
  simp only [divProg, List.mem_cons, List.not_mem_nil, or_false] at hs
  rcases hs with rfl | rfl | rfl | rfl <;> simp [PStmt.Within, ValidWord]

example (p : Profile) := C66_all_statements (fieldCoeff Rat) (q := (· / ·)) p 2 (fieldCoeff_isField Rat).toIsRing (fun _ _ => rfl) zero_div (by omega) (by omega) 2
  (by decide +kernel) (by decide) divProg divProg_ok.1 divProg_ok.2

example : (fullProg (· / ·) (fun _ => 0) (fun _ _ => 0) divProg 0 [], fullProg (· / ·) (fun _ => 0) (fun _ _ => 0) divProg 0 [1],
    fullProg (· / ·) (fun _ => 0) (fun _ _ => 0) divProg 0 [2], fullProg (· / ·) (fun _ => 0) (fun _ _ => 0) divProg 0 [1, 2]) = (1 / 2, 1 / 4, 3 / 2, 0) := by decide +kernel

/-- `x0 = 3 b / 2`, its constant term, 0, changed to 5. -/
example : (do let σ ← runProg (fieldCoeff Rat) .debug 2 [.word 0 [2] 3, .div 0 2, .modify 0 [] fun x => x + 5, .modify 0 [1, 2] fun _ => 7]; return (σ 0).data) =
    .ok [5, 0, 3 / 2] := by decide +kernel

/-- 64-bit integers, where division rounds towards zero: `(7 a - 5) / 2` is `3 a - 2`. -/
example (p : Profile) (σ : Nat → Dense Int) (hσ : runProgF checkedI64 p 2 checkedProg = .ok σ) (k : TensorKey) (hk : fromLetters p 2 [1] = .ok k) :
    ∃ x, Dense.get (tensorBasis p 2) (σ 0) k = .ok x ∧ x.getD 0 = 3 := by
  obtain ⟨x, h1, h3⟩ := C103_all_statements (q := Int.tdiv) p 2 truncCoeff_isRing (fun _ _ => rfl) Int.zero_tdiv (C103_integers _ _) (by omega) (by omega) 2 (by decide +kernel)
    (by decide) checkedProg (fun s hs => by
      simp only [checkedProg, List.mem_cons, List.not_mem_nil, or_false] at hs
      rcases hs with rfl | rfl | rfl | rfl | rfl | rfl <;> simp [PStmt.Within, ValidWord]) checkedProg
    (.cons (.word _ _ _ _ rfl) (.cons (.word _ _ _ _ rfl) (.cons (.add _ _) (.cons (.div _ _ _ rfl) (.cons (.copy _ _) (.cons (.addMul _ _ _ _) .nil)))))) σ hσ 0 [1] k
    (by decide) (by decide +kernel) hk
  exact ⟨x, h1, h3.trans (by decide +kernel)⟩

end RA
