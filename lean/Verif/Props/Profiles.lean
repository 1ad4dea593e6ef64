import Verif.Proofs.Profiles
import Verif.Props.Program
import Verif.Props.SparseProgram
import Verif.Props.Expr
import Verif.Props.Iteration

/-!
# Debug and release builds (C79)

Overflow checks and `debug_assert!` are the only differences between the two profiles.  So a debug build that does not panic does exactly what the release
build does, with no hypothesis at all on the arguments: the same value, the same undefined behaviour, the same endless recursion.

Also here (C07): where the iteration over the keys of a two-letter alphabet ends.
-/

namespace RA
open Spec TensorKey TensorBasis DenseAlg

/-- The debug build panics, or the two builds do the same. -/
def SameUnlessPanic {α : Type} (f : Profile → Res α) : Prop := f .debug = .panic ∨ f .debug = f .release

/-- C79 for tensor keys: every function of tensor_key.rs and implementation.rs that computes with machine integers, on all arguments. -/
theorem C79_tensor_keys (N : Nat) (k l : TensorKey) (w : List Nat) (i x fuel : Nat) :
    SameUnlessPanic (fun p => makeMask p i x) ∧
    SameUnlessPanic (fun p => letterMask p N) ∧
    SameUnlessPanic (fun p => sizeMask p N) ∧
    SameUnlessPanic (fun p => fromLetter p x) ∧
    SameUnlessPanic (fun p => setLetter p N k i x) ∧
    SameUnlessPanic (fun p => fromLetters p N w) ∧
    SameUnlessPanic (fun p => getLetterUnadjusted p N k i) ∧
    SameUnlessPanic (fun p => getLetter p N k i) ∧
    SameUnlessPanic (fun p => concatenate p N k l) ∧
    SameUnlessPanic (fun p => toLetters p N k) ∧
    SameUnlessPanic (fun p => pushFrontRaw p N k x) ∧
    SameUnlessPanic (fun p => pushFront p N k x) ∧
    SameUnlessPanic (fun p => lettersNext p N k i) ∧
    SameUnlessPanic (fun p => lettersCollect p N k fuel i) ∧
    SameUnlessPanic (fun p => debugFmt p N k) :=
  ⟨(makeMask_sim _ _).elim, (letterMask_sim _).elim, (sizeMask_sim _).elim, (fromLetter_sim _).elim, (setLetter_sim _ _ _ _).elim,
    (fromLetters_sim _ _).elim, (getLetterUnadjusted_sim _ _ _).elim, (getLetter_sim _ _ _).elim, (concatenate_sim _ _ _).elim,
    (toLetters_sim _ _).elim, (pushFrontRaw_sim _ _ _).elim, (pushFront_sim _ _ _).elim, (lettersNext_sim _ _ _).elim,
    (lettersCollect_sim _ _ _ _).elim, (debugFmt_sim _ _).elim⟩

/-- C79 for the tensor basis: every function of tensor_basis/mod.rs and the iterator of key_iterator.rs, from any state of the iterator. -/
theorem C79_tensor_basis (N : Nat) (k : TensorKey) (i d n : Nat) (it : BasisIter) :
    SameUnlessPanic (fun p => startOfDegree p N d) ∧
    SameUnlessPanic (fun p => TensorBasis.degreeRange p N d) ∧
    SameUnlessPanic (fun p => TensorBasis.indexToDegree p N i) ∧
    SameUnlessPanic (fun p => TensorBasis.keyToIndex p N k) ∧
    SameUnlessPanic (fun p => TensorBasis.indexToKey p N i) ∧
    SameUnlessPanic (fun p => vectorDimensionForKey p N k) ∧
    SameUnlessPanic (fun p => vectorDimensionForIndex p N i) ∧
    SameUnlessPanic (fun p => it.next p N) ∧
    SameUnlessPanic (fun p => it.nth p N n) :=
  ⟨(startOfDegree_sim _ _).elim, (degreeRange_sim _ _).elim, (indexToDegree_sim _ _).elim, (keyToIndex_sim _ _).elim, (indexToKey_sim _ _).elim,
    (vectorDimensionForKey_sim _ _).elim, (vectorDimensionForIndex_sim _ _).elim, (next_sim _ _).elim, (nth_sim _ _ _).elim⟩

section
variable {S R : Type} (C : Coeff S R) (N : Nat)

/-- C79 for dense vectors over the tensor basis: every operation that uses the basis, on all vectors, keys and coefficients.  (The others do not compute
with machine integers.) -/
theorem C79_dense (d : Dense S) (k : TensorKey) (s : S) (f : S → S) (items : List (TensorKey × S)) (n fuel : Nat) (showS : S → Res String) :
    SameUnlessPanic (fun p => (DenseAlg.ops C p N).fromKey k) ∧
    SameUnlessPanic (fun p => (DenseAlg.ops C p N).fromKeyScalar k s) ∧
    SameUnlessPanic (fun p => (DenseAlg.ops C p N).fromIterator items) ∧
    SameUnlessPanic (fun p => (DenseAlg.ops C p N).get d k) ∧
    SameUnlessPanic (fun p => (DenseAlg.ops C p N).getMut d k f) ∧
    SameUnlessPanic (fun p => (DenseAlg.ops C p N).insertSingle d k s) ∧
    SameUnlessPanic (fun p => (DenseAlg.ops C p N).erase d k) ∧
    SameUnlessPanic (fun p => Dense.degree (tensorBasis p N) d) ∧
    SameUnlessPanic (fun p => Dense.fromDegree C (tensorBasis p N) n) ∧
    SameUnlessPanic (fun p => Dense.displayTensor p N showS d fuel) :=
  ⟨(Dense.fromKey_sim _ _ _).elim, (Dense.fromKeyScalar_sim _ _ _ _).elim, (Dense.fromIterator_sim _ _ _).elim, (Dense.get_sim _ _ _).elim,
    (Dense.getMut_sim _ _ _ _).elim, (Dense.insertSingle_sim _ _ _ s).elim, (Dense.erase_sim _ _ _ _).elim, (Dense.degree_sim _ _).elim,
    (Dense.fromDegree_sim _ _ _).elim, (Dense.displayTensor_sim _ _ _ _).elim⟩

/-- C79 for the products of dense tensors, with or without a degree bound, and the exponential, fused multiplication and logarithm built on them. -/
theorem C79_products (v a b : Dense S) (s : S) (r : R) (d : Option Nat) (m : Nat) :
    SameUnlessPanic (fun p => (DenseAlg.ops C p N).multiply a b d) ∧
    SameUnlessPanic (fun p => (DenseAlg.ops C p N).multiplyInplace a b d) ∧
    SameUnlessPanic (fun p => (DenseAlg.ops C p N).addMul v a b d) ∧
    SameUnlessPanic (fun p => (DenseAlg.ops C p N).subMul C v a b d) ∧
    SameUnlessPanic (fun p => (DenseAlg.ops C p N).commutator C a b d) ∧
    SameUnlessPanic (fun p => (DenseAlg.ops C p N).mulScalLprod C a b s d) ∧
    SameUnlessPanic (fun p => (DenseAlg.ops C p N).mulScalRprod C a b s d) ∧
    SameUnlessPanic (fun p => (DenseAlg.ops C p N).mulRatLdiv C a b r d) ∧
    SameUnlessPanic (fun p => (DenseAlg.ops C p N).mulRatRdiv C a b s d) ∧
    SameUnlessPanic (fun p => FreeTensor.exp C (DenseAlg.ops C p N) m a) ∧
    SameUnlessPanic (fun p => FreeTensor.fmexp p C (DenseAlg.ops C p N) m v a) ∧
    SameUnlessPanic (fun p => FreeTensor.log C (DenseAlg.ops C p N) m a) :=
  ⟨(mulAddInto_sim _ _ _ _ _ _ _).elim, (mulInto_sim _ _ _ _ _ _).elim, (mulAddInto_sim _ _ _ _ _ _ _).elim, (mulAddInto_sim _ _ _ _ _ _ _).elim,
    (commutator_sim _ _ _ _ _).elim, (mulInto_sim _ _ _ _ _ _).elim, (mulInto_sim _ _ _ _ _ _).elim, (mulInto_sim _ _ _ _ _ _).elim,
    (mulInto_sim _ _ _ _ _ _).elim, (exp_sim _ _ _ _).elim, (fmexp_sim _ _ _ _ _).elim, (log_sim _ _ _ _).elim⟩

theorem fromLetters_map_sim {a b : Bool} (e : List Nat × S) :
    Sim a b ((fun k => (k, e.2)) <$> fromLetters .debug N e.1) ((fun k => (k, e.2)) <$> fromLetters .release N e.1) := by
  rcases fromLetters_sim (a := a) (b := b) N e.1 with h | ⟨ha, h⟩ | ⟨hb, h⟩ | h
  · rw [h]; exact .inl rfl
  · rw [h]; exact .inr (.inl ⟨ha, rfl⟩)
  · rw [h]; exact .inr (.inr (.inl ⟨hb, rfl⟩))
  · rw [h]; exact .refl _

theorem runStmt_sim {a b : Bool} (σ : Nat → Dense S) (st : PStmt S R) : Sim a b (runStmt C .debug N σ st) (runStmt C .release N σ st) := by
  cases st with
  | zero i => exact .refl _
  | word i w s => exact .bind (fromLetters_sim _ _) fun _ => .bind (Dense.fromKeyScalar_sim C N _ _) fun _ => .refl _
  | terms i items => exact .bind (.mapM (fromLetters_map_sim N) _) fun _ => .bind (Dense.fromIterator_sim C N _) fun _ => .refl _
  | copy i j => exact .refl _
  | swap i j => exact .refl _
  | clear i => exact .refl _
  | modify i w f => exact .bind (fromLetters_sim _ _) fun _ => .bind (Dense.getMut_sim N _ _ _) fun _ => .refl _
  | erase i w => exact .bind (fromLetters_sim _ _) fun _ => .bind (Dense.erase_sim C N _ _) fun _ => .refl _
  | neg i => exact .refl _
  | add i j => exact .refl _
  | sub i j => exact .refl _
  | scale i s => exact .refl _
  | div i r => exact .refl _
  | mul i j k D => exact .bind (mulAddInto_sim C N _ _ _ _ _) fun _ => .refl _
  | comm i j k D => exact .bind (commutator_sim C N _ _ _) fun _ => .refl _
  | addMul i j k D => exact .bind (mulAddInto_sim C N _ _ _ _ _) fun _ => .refl _
  | subMul i j k D => exact .bind (mulAddInto_sim C N _ _ _ _ _) fun _ => .refl _

/-- C79 for whole histories: any program over dense tensors, however long and with whatever words and degrees, panics in a debug build or leaves the same
values in all registers in both builds. -/
theorem C79_programs (prog : List (PStmt S R)) : SameUnlessPanic (fun p => runProg C p N prog) :=
  (Sim.foldlM (runStmt_sim C N) prog _).elim

theorem runSparseStmt_sim {a b : Bool} (σ : Nat → Sparse TensorKey S) (st : PStmt S R) :
    Sim a b (runSparseStmt C .debug N σ st) (runSparseStmt C .release N σ st) := by
  cases st with
  | word i w s => exact .bind (fromLetters_sim _ _) fun _ => .refl _
  | terms i items => exact .bind (.mapM (fromLetters_map_sim N) _) fun _ => .refl _
  | modify i w f => exact .bind (fromLetters_sim _ _) fun _ => .refl _
  | erase i w => exact .bind (fromLetters_sim _ _) fun _ => .refl _
  | _ => exact .refl _

theorem runExpr_sim {a b : Bool} (D : Nat) (e : TExpr S) : Sim a b (runExpr C .debug N D e) (runExpr C .release N D e) := by
  induction e with
  | term w s => exact .bind (fromLetters_sim _ _) fun _ => Dense.fromKeyScalar_sim C N _ _
  | add x y hx hy => exact .bind hx fun _ => .bind hy fun _ => .refl _
  | sub x y hx hy => exact .bind hx fun _ => .bind hy fun _ => .refl _
  | neg x hx => exact .bind hx fun _ => .refl _
  | smul s x hx => exact .bind hx fun _ => .refl _
  | mul x y hx hy => exact .bind hx fun _ => .bind hy fun _ => mulAddInto_sim C N _ _ _ _ _
  | comm x y hx hy => exact .bind hx fun _ => .bind hy fun _ => commutator_sim C N _ _ _

/-- C79 for programs over sparse vectors, and for nested expressions over dense tensors. -/
theorem C79_sparse_programs (prog : List (PStmt S R)) (D : Nat) (e : TExpr S) :
    SameUnlessPanic (fun p => runSparseProg C p N prog) ∧ SameUnlessPanic (fun p => runExpr C p N D e) :=
  ⟨(Sim.foldlM (runSparseStmt_sim C N) prog _).elim, (runExpr_sim C N D e).elim⟩

/-- In other words: what a debug build returns, the release build returns. -/
theorem C79_debug_decides (prog : List (PStmt S R)) (σ : Nat → Dense S) (h : runProg C .debug N prog = .ok σ) : runProg C .release N prog = .ok σ := by
  rcases C79_programs C N prog with hp | he
  · exact absurd (hp.symm.trans h) (by simp)
  · exact he.symm.trans h

end

/-- A program that returns in the debug build. -/
example : ∃ σ, runProg intCoeff .debug 2 sampleProg = .ok σ ∧ runProg intCoeff .release 2 sampleProg = .ok σ :=
  have h : ∃ σ, runProg intCoeff .debug 2 sampleProg = .ok σ :=
    (C66_programs_exact intCoeff .debug 2 intCoeff_isRing (by omega) (by omega) 3 (by decide +kernel) (by decide) sampleProg
      sampleProg_ok.1 sampleProg_ok.2).imp fun _ h => h.1
  h.elim fun σ h => ⟨σ, h, C79_debug_decides _ _ _ σ h⟩

/-- C79, the panic is needed: with a letter outside the alphabet, or an index past the last key, only the debug build stops. -/
theorem C79_release_goes_on : fromLetters .debug 3 [4] = .panic ∧ fromLetters .release 3 [4] = .ok ⟨1, 3⟩ ∧
    startOfDegree .debug 2 64 = .panic ∧ startOfDegree .release 2 64 = .ok (2 ^ 64 - 1) := by
  decide +kernel

/-- C79 for the Hall set sizes, including their endless recursions. -/
theorem C79_hall_sizes (N n d l x : Nat) (m : Hall.RangeMap) :
    SameUnlessPanic (fun p => Hall.isSquarefree p n) ∧
    SameUnlessPanic (fun p => Hall.mobius p n) ∧
    SameUnlessPanic (fun p => Hall.levelTerm p N l x) ∧
    SameUnlessPanic (fun p => Hall.levelSizeImpl p N l x) ∧
    SameUnlessPanic (fun p => Hall.levelSize p N l) ∧
    SameUnlessPanic (fun p => Hall.hallSetSize p N d) ∧
    SameUnlessPanic (fun p => Hall.RangeMap.new p N d) ∧
    SameUnlessPanic (fun p => Hall.RangeMap.grow p N m d) :=
  ⟨(Hall.isSquarefree_sim _).elim, (Hall.mobius_sim _).elim, (Hall.levelTerm_sim _ _ _).elim, (Hall.levelSizeImpl_sim _ _ _).elim,
    (Hall.levelSize_sim _ _).elim, (Hall.hallSetSize_sim _ _).elim, (Hall.RangeMap.new_sim _ _).elim, (Hall.RangeMap.grow_sim _ _ _).elim⟩

/-- C79 for Hall sets and Hall keys. -/
theorem C79_hall_keys (N k l r s d : Nat) (i : Hall.Inner) (o : Hall.Obj) (pre : Option Nat) (op : Hall.Shared.Op) :
    SameUnlessPanic (fun p => Hall.Inner.new p N) ∧
    SameUnlessPanic (fun p => i.growUp p d) ∧
    SameUnlessPanic (fun p => i.degreeRange p d) ∧
    SameUnlessPanic (fun p => Hall.Cache.build p N pre) ∧
    SameUnlessPanic (fun p => Hall.Shared.lookup p N i op) ∧
    SameUnlessPanic (fun p => Hall.Key.getKey p k) ∧
    SameUnlessPanic (fun p => Hall.Key.getLparent p k) ∧
    SameUnlessPanic (fun p => Hall.Key.getRparent p k) ∧
    SameUnlessPanic (fun p => Hall.Key.size p k) ∧
    SameUnlessPanic (fun p => Hall.Key.makeKeyData p k l r s) ∧
    SameUnlessPanic (fun p => Hall.Key.fromLetter p N l) ∧
    SameUnlessPanic (fun p => Hall.Key.isLetter p k) ∧
    SameUnlessPanic (fun p => Hall.Key.toIndex p k) ∧
    SameUnlessPanic (fun p => Hall.Key.lparentWith p o k) ∧
    SameUnlessPanic (fun p => Hall.Key.parentWith p o k) ∧
    SameUnlessPanic (fun p => Hall.Key.displayText p k) ∧
    SameUnlessPanic (fun p => Hall.Key.debugText p k) :=
  ⟨(Hall.Inner.new_sim _).elim, (Hall.Inner.growUp_sim _ _).elim, (Hall.Inner.degreeRange_sim _ _).elim, (Hall.Cache.build_sim _ _).elim,
    (Hall.Shared.lookup_sim _ _ _).elim, (Hall.Key.getKey_sim _).elim, (Hall.Key.getLparent_sim _).elim, (Hall.Key.getRparent_sim _).elim,
    (Hall.Key.size_sim _).elim, (Hall.Key.makeKeyData_sim _ _ _ _).elim, (Hall.Key.fromLetter_sim _ _).elim, (Hall.Key.isLetter_sim _).elim,
    (Hall.Key.toIndex_sim _).elim, (Hall.Key.lparentWith_sim _ _).elim, (Hall.Key.parentWith_sim _ _).elim, (Hall.Key.displayText_sim _).elim,
    (Hall.Key.debugText_sim _).elim⟩

/-! ## C07: two letters -/

/-- Item 8674 of the iteration over two letters is the last word, by running it. -/
theorem two_letters_last (p : Profile) : BasisIter.nth p 2 8674 (.new 2) = .ok (some (keyOf 2 (List.replicate 30 2))) := by
  have hd : BasisIter.nth .debug 2 8674 (.new 2) = .ok (some (keyOf 2 (List.replicate 30 2))) := by decide +kernel
  cases p
  · exact hd
  · rcases (nth_sim 2 8674 (.new 2)).elim with h | h
    · rw [h] at hd
      cases hd
    · rw [← h, hd]

/-- What the iterator does after an item: it goes on from that key. -/
theorem nth_after (p : Profile) (N n m : Nat) (k : TensorKey) : ∀ k₀, BasisIter.nth p N n (.startingFrom N k₀) = .ok (some k) →
    BasisIter.nth p N (n + 1 + m) (.startingFrom N k₀) = (advance p N k >>= fun c => BasisIter.nth p N m ⟨c, maxDepth N⟩) := by
  induction n with
  | zero =>
    intro k₀ h
    cases ha : advance p N k₀ with
    | ok c =>
      rw [nth_zero_of_advance p N k₀ c ha] at h
      rw [show 0 + 1 + m = m + 1 by omega, nth_succ_of_advance p N m k₀ c ha]
      cases h
      rw [ha]
      rfl
    | _ =>
      rw [BasisIter.nth, next_some, ha] at h
      cases h
  | succ n ih =>
    intro k₀ h
    cases ha : advance p N k₀ with
    | ok c =>
      rw [nth_succ_of_advance p N n k₀ c ha] at h
      rw [show n + 1 + 1 + m = (n + 1 + m) + 1 by omega, nth_succ_of_advance p N _ k₀ c ha]
      cases c with
      | none =>
        rw [nth_none] at h
        cases h
      | some k₁ => exact ih k₁ h
    | _ =>
      rw [BasisIter.nth, next_some, ha] at h
      cases h

/-- An item is produced only after all earlier ones. -/
theorem nth_before (p : Profile) (N n : Nat) (k : TensorKey) : ∀ k₀, BasisIter.nth p N n (.startingFrom N k₀) = .ok (some k) →
    ∀ i, i ≤ n → ∃ k', BasisIter.nth p N i (.startingFrom N k₀) = .ok (some k') := by
  induction n with
  | zero =>
    intro k₀ h i hi
    rw [show i = 0 by omega]
    exact ⟨k, h⟩
  | succ n ih =>
    intro k₀ h i hi
    cases ha : advance p N k₀ with
    | ok c =>
      cases i with
      | zero => exact ⟨k₀, nth_zero_of_advance p N k₀ c ha⟩
      | succ i =>
        rw [nth_succ_of_advance p N _ k₀ c ha] at h ⊢
        cases c with
        | none =>
          rw [nth_none] at h
          cases h
        | some k₁ => exact ih k₁ h i (by omega)
    | _ =>
      rw [BasisIter.nth, next_some, ha] at h
      cases h

/-- C07, two letters, in full: `iter_keys()` produces exactly 8675 items and then ends, in both builds, although the basis has `2^31 - 1` keys.  The last
item is the last key, so the keys that are missing are skipped on the way. -/
theorem C07_two_letters_ends (p : Profile) :
    (∀ n, n < 8675 → ∃ k, BasisIter.nth p 2 n (.new 2) = .ok (some k)) ∧
    (∃ k, fromLetters p 2 (List.replicate 30 2) = .ok k ∧ BasisIter.nth p 2 8674 (.new 2) = .ok (some k)) ∧
    (∀ n, 8675 ≤ n → BasisIter.nth p 2 n (.new 2) = .ok none) ∧
    indexToKey p 2 (2 ^ 31 - 2) = fromLetters p 2 (List.replicate 30 2) := by
  have h := two_letters_last p
  refine ⟨fun n hn => nth_before p 2 8674 _ TensorKey.new h n (by omega), ⟨_, ?_, h⟩, ?_, ?_⟩
  · exact fromLetters_ok p 2 (by omega) (by omega) _ (by decide) (by decide +kernel)
  · intro n hn
    obtain ⟨m, rfl⟩ : ∃ m, n = 8674 + 1 + m := ⟨n - 8675, by omega⟩
    have e := nth_after p 2 8674 m _ TensorKey.new h
    have ha : advance p 2 (keyOf 2 (List.replicate 30 2)) = .ok none := by cases p <;> decide +kernel
    rw [ha, Res.bind_ok, nth_none] at e
    exact e
  · cases p <;> decide +kernel

end RA
