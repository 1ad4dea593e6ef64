import Verif.Props.Program
import Verif.Props.Sparse
import Verif.Props.Keys

/-!
# Linear programs over sparse vectors (C67): dense and sparse vectors are interchangeable
-/

namespace RA
open Spec TensorKey TensorBasis DenseAlg

section
variable {S R : Type} (C : Coeff S R) (p : Profile) (N : Nat)

/-- A statement, executed with the methods of the crate on registers holding sparse vectors over tensor keys.  Sparse vectors have no product, which is
recorded as `panic` here; `copy`, `swap` and `erase` call methods that are `todo!()`. -/
def runSparseStmt (σ : Nat → Sparse TensorKey S) : PStmt S R → Res (Nat → Sparse TensorKey S)
  | .zero i => .ok (setReg σ i (Sparse.ops C).new)
  | .word i w s => do
    let k ← fromLetters p N w
    let v ← (Sparse.ops C).fromKeyScalar k s
    return setReg σ i v
  | .terms i items => do
    let keys ← items.mapM (fun e => (fun k => (k, e.2)) <$> fromLetters p N e.1)
    let v ← (Sparse.ops C).fromIterator keys
    return setReg σ i v
  | .copy i j => do
    let v ← (Sparse.ops C).toOwned (σ j)
    return setReg σ i v
  | .swap i j => do
    let (x, y) ← (Sparse.ops C).swap (σ i) (σ j)
    return setReg (setReg σ i x) j y
  | .clear i => do
    let v ← (Sparse.ops C).clear (σ i)
    return setReg σ i v
  | .modify i w f => do
    let k ← fromLetters p N w
    let r ← (Sparse.ops C).getMut (σ i) k f
    return setReg σ i r.2
  | .erase i w => do
    let k ← fromLetters p N w
    let v ← (Sparse.ops C).erase (σ i) k
    return setReg σ i v
  | .neg i => do
    let v ← (Sparse.ops C).uminusInplace (σ i)
    return setReg σ i v
  | .add i j => do
    let v ← (Sparse.ops C).addInplace (σ i) (σ j)
    return setReg σ i v
  | .sub i j => do
    let v ← (Sparse.ops C).subInplace (σ i) (σ j)
    return setReg σ i v
  | .scale i s => do
    let v ← (Sparse.ops C).scalarRmultiplyInplace (σ i) s
    return setReg σ i v
  | .div i r => do
    let v ← (Sparse.ops C).scalarRdivideInplace (σ i) r
    return setReg σ i v
  | .mul .. | .comm .. | .addMul .. | .subMul .. => .panic

/-- A program, started with every register `new()`. -/
def runSparseProg (prog : List (PStmt S R)) : Res (Nat → Sparse TensorKey S) :=
  prog.foldlM (runSparseStmt C p N) (fun _ => (Sparse.ops C).new)

/-- The statements both vector types support and on which they are meant to agree; no word is listed twice in one list of terms (C29). -/
def Linear : PStmt S R → Prop
  | .zero _ | .word .. | .clear _ | .neg _ | .add .. | .sub .. | .scale .. => True
  | .terms _ items => (items.map (·.1)).Nodup
  | _ => False

/-- The sparse vector holds the given coefficient function. -/
def SparseMeans [CommRing S] (v : Sparse TensorKey S) (f : List Nat → S) : Prop :=
  v.WF ∧ ∀ w, ValidWord N w → w.length ≤ maxDepth N → v.coef C (keyOf N w) = f w

variable {C p N}

theorem sparse_set [CommRing S] {σ : Nat → Sparse TensorKey S} {ρ : Nat → List Nat → S} {v : Sparse TensorKey S} {f : List Nat → S}
    (h : ∀ i, SparseMeans C N (σ i) (ρ i)) (i : Nat) (hv : SparseMeans C N v f) : ∀ j, SparseMeans C N (setReg σ i v j) (setReg ρ i f j) := by
  intro j
  unfold setReg
  split_ifs
  · exact hv
  · exact h j

variable (p) in
theorem sparse_step [CommRing S] (hC : C.IsRing) (hE : C.EqLawful) (h1 : 1 ≤ N) (hN : N < 2 ^ 32) {D : Nat} (hm : D ≤ maxDepth N) (s : PStmt S R)
    (hs : s.Within N D) (hlin : Linear s) {σ : Nat → Sparse TensorKey S} {ρ : Nat → List Nat → S} (h : ∀ i, SparseMeans C N (σ i) (ρ i)) :
    ∃ σ', runSparseStmt C p N σ s = .ok σ' ∧ ∀ i, SparseMeans C N (σ' i) (s.value ρ i) := by
  have keyEq : ∀ u w, ValidWord N u → ValidWord N w → u.length ≤ maxDepth N → w.length ≤ maxDepth N → (keyOf N u = keyOf N w ↔ u = w) :=
    fun u w hu hw hlu hlw => C02_key_eq_iff p N h1 hN u w hu hw hlu hlw _ _ (fromLetters_ok p N h1 hN u hu hlu) (fromLetters_ok p N h1 hN w hw hlw)
  have hnew : SparseMeans C N (Sparse.new : Sparse TensorKey S) fun _ => 0 := ⟨List.nodup_nil, fun _ _ _ => hC.zero⟩
  have fromItems : ∀ items : List (List Nat × S), (∀ e ∈ items, ValidWord N e.1 ∧ e.1.length ≤ D) → (items.map (·.1)).Nodup →
      ∃ r, (Sparse.ops C).fromIterator (items.map fun e => (keyOf N e.1, e.2)) = .ok r ∧ SparseMeans C N r fun u => (itemValues items u).sum := by
    intro items hi hnd
    obtain ⟨r, r1, r2, r3⟩ := C29_sparse_from_iterator C (items.map fun e => (keyOf N e.1, e.2))
    refine ⟨r, r1, r2, fun w hw hl => ?_⟩
    have h3 : Res.ok (Sparse.find r.entries (keyOf N w)) = _ := r3 (keyOf N w)
    injection h3 with h3
    unfold Sparse.coef
    rw [h3, List.filter_map, List.map_map]
    have hf : items.filter ((fun e : TensorKey × S => decide (e.1 = keyOf N w)) ∘ fun e => (keyOf N e.1, e.2)) =
        items.filter fun e => decide (e.1 = w) := by
      apply List.filter_congr
      intro e he
      simp only [Function.comp, decide_eq_decide]
      exact keyEq e.1 w (hi e he).1 hw ((hi e he).2.trans hm) hl
    rw [hf]
    have hle : ∀ l : List (List Nat × S), (l.map (·.1)).Nodup → (l.filter fun e => decide (e.1 = w)).length ≤ 1 := by
      intro l
      induction l with
      | nil => intro _; simp
      | cons e l ih =>
        intro hn
        rw [List.map_cons, List.nodup_cons] at hn
        rw [List.filter_cons]
        split_ifs with he
        · have : l.filter (fun e => decide (e.1 = w)) = [] := by
            rw [List.filter_eq_nil_iff]
            intro e' he'
            simp only [decide_eq_true_eq] at he ⊢
            intro e2
            exact hn.1 (by rw [he, ← e2]; exact List.mem_map_of_mem (f := (·.1)) he')
          rw [this]
          simp
        · exact ih hn.2
    have h1 := hle items hnd
    show _ = (itemValues items w).sum
    unfold itemValues
    generalize items.filter (fun e => decide (e.1 = w)) = l at h1 ⊢
    rcases l with _ | ⟨e, _ | ⟨e', l⟩⟩
    · simpa using hC.zero
    · simp
    · simp at h1
  have comb : ∀ i j : Nat, ∃ ra rs, (Sparse.ops C).addInplace (σ i) (σ j) = .ok ra ∧ (Sparse.ops C).subInplace (σ i) (σ j) = .ok rs ∧
      SparseMeans C N ra (fun u => ρ i u + ρ j u) ∧ SparseMeans C N rs (fun u => ρ i u - ρ j u) := by
    intro i j
    obtain ⟨ra, rs, _, _, a1, a2, _, _, a3⟩ := C26_coefficients C hC hE (σ i) (σ j) (h j).1 0
    refine ⟨ra, rs, a1, a2, ⟨?_, fun w hw hl => ?_⟩, ⟨?_, fun w hw hl => ?_⟩⟩
    · cases a1
      exact Sparse.noDup_foldl _ (fun m e hm => Sparse.noDup_addStep C hm e) _ _ (h i).1
    · rw [(a3 _).1, (h i).2 w hw hl, (h j).2 w hw hl]
    · cases a2
      exact Sparse.noDup_foldl _ (fun m e hm => Sparse.noDup_subStep C hm e) _ _ (h i).1
    · rw [(a3 _).2.1, (h i).2 w hw hl, (h j).2 w hw hl]
  cases s with
  | zero i => exact ⟨_, rfl, sparse_set h i hnew⟩
  | word i w x =>
    have hk := fromLetters_ok p N h1 hN w hs.1 (hs.2.trans hm)
    refine ⟨setReg σ i ⟨[(keyOf N w, x)]⟩, ?_, sparse_set h i ⟨by simp [Sparse.WF], fun u hu hl => ?_⟩⟩
    · show (fromLetters p N w >>= fun k => Sparse.fromKeyScalar k x >>= fun v => pure (setReg σ i v)) = _
      rw [hk]
      rfl
    · have := keyEq u w hu hs.1 hl (hs.2.trans hm)
      unfold Sparse.coef
      rw [Sparse.find_cons]
      dsimp only
      by_cases he : u = w
      · subst he
        simp
      · rw [if_neg he, if_neg fun e => he (this.1 e.symm), Sparse.find_nil]
        exact hC.zero
  | terms i items =>
    have hmapM : items.mapM (fun e => (fun k => (k, e.2)) <$> fromLetters p N e.1) = .ok (items.map fun e => (keyOf N e.1, e.2)) := by
      have hs' : ∀ e ∈ items, ValidWord N e.1 ∧ e.1.length ≤ D := hs
      clear hs hlin fromItems
      induction items with
      | nil => rfl
      | cons e es ih =>
        rw [List.mapM_cons, fromLetters_ok p N h1 hN e.1 (hs' e (by simp)).1 ((hs' e (by simp)).2.trans hm), ih fun e' h => hs' e' (by simp [h])]
        rfl
    obtain ⟨r, r1, r2⟩ := fromItems items hs hlin
    refine ⟨_, ?_, sparse_set h i r2⟩
    show (items.mapM (fun e => (fun k => (k, e.2)) <$> fromLetters p N e.1) >>= fun keys =>
      (Sparse.ops C).fromIterator keys >>= fun v => pure (setReg σ i v)) = _
    rw [hmapM, Res.bind_ok, r1]
    rfl
  | clear i => exact ⟨_, rfl, sparse_set h i hnew⟩
  | neg i =>
    refine ⟨_, rfl, sparse_set h i ⟨?_, fun w hw hl => ?_⟩⟩
    · exact Sparse.noDup_map (h i).1 C.uminus
    · have h3 := (h i).2 w hw hl
      unfold Sparse.coef at h3 ⊢
      dsimp only
      rw [← h3, Sparse.find_map]
      cases Sparse.find (σ i).entries (keyOf N w) <;> simp [hC.zero, hC.uminus]
  | add i j =>
    obtain ⟨ra, rs, a1, a2, a3, a4⟩ := comb i j
    refine ⟨_, ?_, sparse_set h i a3⟩
    show ((Sparse.ops C).addInplace (σ i) (σ j) >>= fun v => pure (setReg σ i v)) = _
    rw [a1]
    rfl
  | sub i j =>
    obtain ⟨ra, rs, a1, a2, a3, a4⟩ := comb i j
    refine ⟨_, ?_, sparse_set h i a4⟩
    show ((Sparse.ops C).subInplace (σ i) (σ j) >>= fun v => pure (setReg σ i v)) = _
    rw [a2]
    rfl
  | scale i x =>
    show ∃ σ', (Sparse.scalarLmultiplyInplace C (σ i) x >>= fun v => pure (setReg σ i v)) = .ok σ' ∧ _
    unfold Sparse.scalarLmultiplyInplace
    split_ifs with h0
    · rw [hE, hC.zero] at h0
      subst h0
      refine ⟨_, rfl, sparse_set h i ?_⟩
      simp only [mul_zero]
      exact hnew
    · refine ⟨_, rfl, sparse_set h i ⟨?_, fun w hw hl => ?_⟩⟩
      · exact Sparse.noDup_map (h i).1 fun v => C.mul v x
      · have h3 := (h i).2 w hw hl
        unfold Sparse.coef at h3 ⊢
        dsimp only
        rw [← h3, Sparse.find_map (f := fun v => C.mul v x)]
        cases Sparse.find (σ i).entries (keyOf N w) <;> simp [hC.zero, hC.mul]
  | copy _ _ | swap _ _ | modify _ _ _ | erase _ _ | div _ _ | mul _ _ _ _ | comm _ _ _ _ | addMul _ _ _ _ | subMul _ _ _ _ => exact absurd hlin id

theorem linear_allowed (prog : List (PStmt S R)) (hl : ∀ s ∈ prog, Linear s) (l : Nat → Nat) : allowedProg l prog = true := by
  induction prog generalizing l with
  | nil => rfl
  | cons s prog ih =>
    unfold allowedProg
    rw [ih (fun s h => hl s (List.mem_cons_of_mem _ h)), Bool.and_true]
    have := hl s (by simp)
    cases s <;> first | rfl | exact absurd this id

theorem linear_algebraic {s : PStmt S R} (h : Linear s) : s.Algebraic := by
  cases s <;> trivial

variable (C p N)

/-- C67.  A linear program (assignments, sums, differences, negation, scalar multiples) runs on sparse vectors without failing, keeps every key at most
once, and computes the same element of the free module as the reference semantics. -/
theorem C67_sparse_programs [CommRing S] (hC : C.IsRing) (hE : C.EqLawful) (h1 : 1 ≤ N) (hN : N < 2 ^ 32) (D : Nat) (hm : D ≤ maxDepth N)
    (prog : List (PStmt S R)) (hs : ∀ s ∈ prog, s.Within N D ∧ Linear s) :
    ∃ σ, runSparseProg C p N prog = .ok σ ∧ ∀ i, (σ i).WF ∧ ∀ w k, ValidWord N w → w.length ≤ maxDepth N → fromLetters p N w = .ok k →
      ∃ x, (Sparse.ops C).get (σ i) k = .ok x ∧ x.getD 0 = valueProg prog i w := by
  have key : ∀ (prog : List (PStmt S R)) (σ : Nat → Sparse TensorKey S) (ρ : Nat → List Nat → S), (∀ s ∈ prog, s.Within N D ∧ Linear s) →
      (∀ i, SparseMeans C N (σ i) (ρ i)) →
      ∃ σ', prog.foldlM (runSparseStmt C p N) σ = .ok σ' ∧ ∀ i, SparseMeans C N (σ' i) (prog.foldl PStmt.value ρ i) := by
    intro prog
    induction prog with
    | nil => exact fun σ ρ _ h => ⟨σ, rfl, h⟩
    | cons s prog ih =>
      intro σ ρ hs h
      obtain ⟨σ1, e1, h1'⟩ := sparse_step p hC hE h1 hN hm s (hs s (by simp)).1 (hs s (by simp)).2 h
      obtain ⟨σ2, e2, h2'⟩ := ih σ1 _ (fun s h => hs s (List.mem_cons_of_mem _ h)) h1'
      refine ⟨σ2, ?_, h2'⟩
      rw [List.foldlM_cons, e1, Res.bind_ok, e2]
  obtain ⟨σ, e, h⟩ := key prog (fun _ => Sparse.new) (fun _ _ => 0) hs fun _ => ⟨List.nodup_nil, fun _ _ _ => hC.zero⟩
  refine ⟨σ, e, fun i => ⟨(h i).1, fun w k hw hl hk => ⟨_, rfl, ?_⟩⟩⟩
  rw [fromLetters_ok p N h1 hN w hw hl] at hk
  cases hk
  have := (h i).2 w hw hl
  unfold Sparse.coef at this
  rw [hC.zero] at this
  exact this

/-- C67.  Dense and sparse vectors are interchangeable in linear programs: the same program run on both gives, in every register and at every word, the
same coefficient. -/
theorem C67_dense_sparse_agree [CommRing S] (hC : C.IsRing) (hE : C.EqLawful) (h2 : 2 ≤ N) (hN : N < 2 ^ 32) (D : Nat) (hm : D ≤ maxDepth N)
    (hp : N ^ (D + 1) < 2 ^ 64) (prog : List (PStmt S R)) (hs : ∀ s ∈ prog, s.Within N D ∧ Linear s) :
    ∃ σ τ, runProg C p N prog = .ok σ ∧ runSparseProg C p N prog = .ok τ ∧
      ∀ i w k, ValidWord N w → w.length ≤ maxDepth N → fromLetters p N w = .ok k →
        ∃ x y, (DenseAlg.ops C p N).get (σ i) k = .ok x ∧ (Sparse.ops C).get (τ i) k = .ok y ∧ x.getD 0 = y.getD 0 := by
  obtain ⟨σ, e1, g1⟩ := C66_programs_exact C p N hC h2 hN D hm hp prog (fun s h => ⟨(hs s h).1, linear_algebraic (hs s h).2⟩)
    (linear_allowed prog (fun s h => (hs s h).2) _)
  obtain ⟨τ, e2, g2⟩ := C67_sparse_programs C p N hC hE (by omega) hN D hm prog hs
  refine ⟨σ, τ, e1, e2, fun i w k hw hl hk => ?_⟩
  obtain ⟨x, x1, x2⟩ := g1 i w k hw hl hk
  obtain ⟨y, y1, y2⟩ := (g2 i).2 w k hw hl hk
  exact ⟨x, y, x1, y1, x2.trans y2.symm⟩

end

/-- A program for C67: `x0 = 2*[1] - 3*[2,1]`, `x1 = ([1] + 3*[2,1] + x0) * 5`, `x0 = -x0 - x1`; the word `[2,1]` cancels in `x1`. -/
def linearProg : List (PStmt Int Int) :=
  [.terms 0 [([1], 2), ([2, 1], -3)], .word 1 [1] 1, .word 2 [2, 1] 3, .add 1 2, .add 1 0, .scale 1 5, .neg 0, .sub 0 1, .clear 2]

theorem linearProg_ok : ∀ s ∈ linearProg, s.Within 2 3 ∧ Linear s := by
  intro s hs
  simp only [linearProg, List.mem_cons, List.not_mem_nil, or_false] at hs
  rcases hs with rfl | rfl | rfl | rfl | rfl | rfl | rfl | rfl | rfl <;> simp only [PStmt.Within, Linear] <;> decide

example : (do let σ ← runSparseProg intCoeff .debug 2 linearProg; return ((σ 0).entries.map Prod.snd, (σ 1).entries.map Prod.snd)) = .ok ([-17, 3], [15]) := by
  decide +kernel

example : (valueProg linearProg 0 [1], valueProg linearProg 0 [2, 1], valueProg linearProg 1 [2, 1]) = (-17, 3, 0) := by decide +kernel

example := C67_sparse_programs intCoeff .release 2 intCoeff_isRing intCoeff_eqLawful (by omega) (by omega) 3 (by decide +kernel) linearProg linearProg_ok

example := C67_dense_sparse_agree intCoeff .debug 2 intCoeff_isRing intCoeff_eqLawful (by omega) (by omega) 3 (by decide +kernel) (by decide) linearProg
  linearProg_ok

end RA
