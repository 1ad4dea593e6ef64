import Verif.Model.Algebra
import Verif.Model.DenseMore
import Verif.Model.HallText
import Verif.Model.HallCache
import Verif.Model.HallObject

/-!
# Comparing the two build profiles

`Sim a b d r` relates an outcome `d` of a debug build with an outcome `r` of a release build: the debug build panics, or the two are the same.  The flags allow
`diverge` on one side; they serve the functions defined by `partial_fixpoint`, where the relation is proved by induction on the approximations of one side.
-/

namespace RA
open TensorKey TensorBasis

def Sim (a b : Bool) {α : Type} (d r : Res α) : Prop :=
  d = .panic ∨ (a = true ∧ d = .diverge) ∨ (b = true ∧ r = .diverge) ∨ d = r

namespace Sim
variable {a b : Bool} {α β : Type}

theorem refl (x : Res α) : Sim a b x x := .inr (.inr (.inr rfl))

theorem bind {x y : Res α} {f g : α → Res β} (h : Sim a b x y) (hf : ∀ z, Sim a b (f z) (g z)) : Sim a b (x >>= f) (y >>= g) := by
  rcases h with rfl | ⟨ha, rfl⟩ | ⟨hb, rfl⟩ | rfl
  · exact .inl rfl
  · exact .inr (.inl ⟨ha, rfl⟩)
  · exact .inr (.inr (.inl ⟨hb, rfl⟩))
  · cases x
    · exact hf _
    · exact .refl _
    · exact .refl _
    · exact .refl _

theorem foldlM {γ : Type} {f g : β → γ → Res β} (h : ∀ s x, Sim a b (f s x) (g s x)) (l : List γ) (s : β) :
    Sim a b (l.foldlM f s) (l.foldlM g s) := by
  induction l generalizing s with
  | nil => exact .refl _
  | cons x l ih =>
    rw [List.foldlM_cons, List.foldlM_cons]
    exact .bind (h s x) ih

theorem mapM {γ : Type} {f g : γ → Res β} (h : ∀ x, Sim a b (f x) (g x)) (l : List γ) : Sim a b (l.mapM f) (l.mapM g) := by
  induction l with
  | nil => exact .refl _
  | cons x l ih =>
    rw [List.mapM_cons, List.mapM_cons]
    exact .bind (h x) fun y => .bind ih fun ys => .refl _

/-- Both one-sided relations together. -/
theorem same {d r : Res α} (h1 : Sim true false d r) (h2 : Sim false true d r) : Sim false false d r := by
  unfold Sim at *
  rcases h1 with h | ⟨_, h⟩ | ⟨h, _⟩ | h
  · exact .inl h
  · rcases h2 with h' | ⟨h', _⟩ | ⟨_, h'⟩ | h'
    · exact .inl h'
    · exact absurd h' (by decide)
    · exact .inr (.inr (.inr (by rw [h, h'])))
    · exact .inr (.inr (.inr h'))
  · exact absurd h (by decide)
  · exact .inr (.inr (.inr h))

theorem weaken {d r : Res α} (h : Sim false false d r) : Sim a b d r := by
  unfold Sim at *
  rcases h with h | ⟨h, _⟩ | ⟨h, _⟩ | h
  · exact .inl h
  · exact absurd h (by decide)
  · exact absurd h (by decide)
  · exact .inr (.inr (.inr h))

theorem elim {d r : Res α} (h : Sim false false d r) : d = .panic ∨ d = r := by
  rcases h with h | ⟨h, _⟩ | ⟨h, _⟩ | h
  · exact .inl h
  · exact absurd h (by decide)
  · exact absurd h (by decide)
  · exact .inr h

end Sim

/-- Closes or takes apart a goal `Sim a b d r`; extended with the lemma for each function. -/
syntax "sim_leaf" : tactic
macro_rules | `(tactic| sim_leaf) => `(tactic| with_reducible exact Sim.refl _)

macro "sim_step" : tactic => `(tactic| with_reducible first
  | sim_leaf | assumption | apply Sim.bind | apply Sim.foldlM | apply Sim.mapM | intro _)

macro "sim" : tactic => `(tactic| repeat' (first | sim_step | split))

variable {a b : Bool}

theorem fitW_sim (w x y : Nat) : Sim a b (fitW .debug w x y) (fitW .release w x y) := by
  unfold fitW; split
  · exact .refl _
  · exact .inl rfl

theorem addW_sim (w x y : Nat) : Sim a b (addW .debug w x y) (addW .release w x y) := fitW_sim _ _ _
theorem mulW_sim (w x y : Nat) : Sim a b (mulW .debug w x y) (mulW .release w x y) := fitW_sim _ _ _
theorem powW_sim (w x y : Nat) : Sim a b (powW .debug w x y) (powW .release w x y) := fitW_sim _ _ _

theorem subW_sim (w x y : Nat) : Sim a b (subW .debug w x y) (subW .release w x y) := by
  unfold subW; split
  · exact .refl _
  · exact .inl rfl

theorem shlW_sim (w x y : Nat) : Sim a b (shlW .debug w x y) (shlW .release w x y) := by
  unfold shlW; split
  · exact .refl _
  · exact .inl rfl

theorem shrW_sim (w x y : Nat) : Sim a b (shrW .debug w x y) (shrW .release w x y) := by
  unfold shrW; split
  · exact .refl _
  · exact .inl rfl

theorem fitS_sim (x : Int) : Sim a b (fitS .debug x) (fitS .release x) := by
  unfold fitS; split
  · exact .refl _
  · exact .inl rfl

theorem debugAssert_sim (c : Bool) : Sim a b (debugAssert .debug c) (debugAssert .release c) := by
  cases c
  · exact .inl rfl
  · exact .refl _

macro_rules | `(tactic| sim_leaf) => `(tactic| with_reducible first
  | exact addW_sim _ _ _ | exact mulW_sim _ _ _ | exact powW_sim _ _ _ | exact subW_sim _ _ _ | exact shlW_sim _ _ _ | exact shrW_sim _ _ _
  | exact fitS_sim _ | exact debugAssert_sim _ | exact Sim.refl _)

/-! ## Tensor keys -/

theorem makeMask_sim (x y : Nat) : Sim a b (makeMask .debug x y) (makeMask .release x y) := by unfold makeMask; sim
macro_rules | `(tactic| sim_leaf) => `(tactic| with_reducible exact makeMask_sim _ _)

theorem letterMask_sim (N : Nat) : Sim a b (letterMask .debug N) (letterMask .release N) := by unfold letterMask; sim
macro_rules | `(tactic| sim_leaf) => `(tactic| with_reducible exact letterMask_sim _)

theorem sizeMask_sim (N : Nat) : Sim a b (sizeMask .debug N) (sizeMask .release N) := by unfold sizeMask; sim

theorem fromLetter_sim (l : Nat) : Sim a b (fromLetter .debug l) (fromLetter .release l) := by unfold fromLetter; sim
macro_rules | `(tactic| sim_leaf) => `(tactic| with_reducible exact fromLetter_sim _)

theorem setLetter_sim (N : Nat) (k : TensorKey) (l v : Nat) : Sim a b (setLetter .debug N k l v) (setLetter .release N k l v) := by
  unfold setLetter; sim
macro_rules | `(tactic| sim_leaf) => `(tactic| with_reducible exact setLetter_sim _ _ _ _)

theorem fromLetters_sim (N : Nat) (w : List Nat) : Sim a b (fromLetters .debug N w) (fromLetters .release N w) := by
  unfold fromLetters fromLettersStep; sim

theorem getLetterUnadjusted_sim (N : Nat) (k : TensorKey) (l : Nat) :
    Sim a b (getLetterUnadjusted .debug N k l) (getLetterUnadjusted .release N k l) := by unfold getLetterUnadjusted; sim
macro_rules | `(tactic| sim_leaf) => `(tactic| with_reducible exact getLetterUnadjusted_sim _ _ _)

theorem getLetter_sim (N : Nat) (k : TensorKey) (l : Nat) : Sim a b (getLetter .debug N k l) (getLetter .release N k l) := by unfold getLetter; sim
macro_rules | `(tactic| sim_leaf) => `(tactic| with_reducible exact getLetter_sim _ _ _)

theorem concatenate_sim (N : Nat) (k l : TensorKey) : Sim a b (concatenate .debug N k l) (concatenate .release N k l) := by unfold concatenate; sim

theorem toLetters_sim (N : Nat) (k : TensorKey) : Sim a b (toLetters .debug N k) (toLetters .release N k) := by unfold toLetters; sim

theorem pushFrontRaw_sim (N : Nat) (k : TensorKey) (l : Nat) : Sim a b (pushFrontRaw .debug N k l) (pushFrontRaw .release N k l) := by
  unfold pushFrontRaw; sim
macro_rules | `(tactic| sim_leaf) => `(tactic| with_reducible exact pushFrontRaw_sim _ _ _)

theorem pushFront_sim (N : Nat) (k : TensorKey) (l : Nat) : Sim a b (pushFront .debug N k l) (pushFront .release N k l) := by
  unfold pushFront; sim
macro_rules | `(tactic| sim_leaf) => `(tactic| with_reducible exact pushFront_sim _ _ _)

theorem lettersNext_sim (N : Nat) (k : TensorKey) (i : Nat) : Sim a b (lettersNext .debug N k i) (lettersNext .release N k i) := by
  unfold lettersNext; sim
macro_rules | `(tactic| sim_leaf) => `(tactic| with_reducible exact lettersNext_sim _ _ _)

theorem lettersCollect_sim (N : Nat) (k : TensorKey) (fuel : Nat) : ∀ i, Sim a b (lettersCollect .debug N k fuel i) (lettersCollect .release N k fuel i) := by
  induction fuel with
  | zero => intro i; exact .refl _
  | succ n ih =>
    intro i
    rw [lettersCollect, lettersCollect]
    refine .bind (lettersNext_sim _ _ _) fun z => ?_
    rcases z with ⟨_ | l, j⟩
    · exact .refl _
    · exact .bind (ih _) fun _ => .refl _

theorem debugFmt_sim (N : Nat) (k : TensorKey) : Sim a b (debugFmt .debug N k) (debugFmt .release N k) := by unfold debugFmt; sim

/-! ## The tensor basis -/

theorem startOfDegree_sim (N d : Nat) : Sim a b (startOfDegree .debug N d) (startOfDegree .release N d) := by unfold startOfDegree; sim
macro_rules | `(tactic| sim_leaf) => `(tactic| with_reducible exact startOfDegree_sim _ _)

theorem degreeRange_sim (N d : Nat) : Sim a b (TensorBasis.degreeRange .debug N d) (TensorBasis.degreeRange .release N d) := by
  unfold TensorBasis.degreeRange; sim
macro_rules | `(tactic| sim_leaf) => `(tactic| with_reducible exact degreeRange_sim _ _)

theorem indexToDegreeImpl_sim (N i fuel : Nat) : ∀ d, Sim a b (indexToDegreeImpl .debug N i fuel d) (indexToDegreeImpl .release N i fuel d) := by
  induction fuel with
  | zero => intro d; exact .refl _
  | succ n ih => intro d; rw [indexToDegreeImpl, indexToDegreeImpl]; sim; all_goals exact ih _

theorem indexToDegree_sim (N i : Nat) : Sim a b (TensorBasis.indexToDegree .debug N i) (TensorBasis.indexToDegree .release N i) := by
  unfold TensorBasis.indexToDegree; sim
  all_goals exact indexToDegreeImpl_sim _ _ _ _
macro_rules | `(tactic| sim_leaf) => `(tactic| with_reducible exact indexToDegree_sim _ _)

theorem keyToIndex_sim (N : Nat) (k : TensorKey) : Sim a b (TensorBasis.keyToIndex .debug N k) (TensorBasis.keyToIndex .release N k) := by
  unfold TensorBasis.keyToIndex keyToIndexStep; sim
macro_rules | `(tactic| sim_leaf) => `(tactic| with_reducible exact keyToIndex_sim _ _)

theorem indexToKeyLoop_sim (N fuel : Nat) : ∀ i k, Sim a b (indexToKeyLoop .debug N fuel i k) (indexToKeyLoop .release N fuel i k) := by
  induction fuel with
  | zero => intro i k; exact .refl _
  | succ n ih => intro i k; rw [indexToKeyLoop, indexToKeyLoop]; sim; exact ih _ _

theorem indexToKey_sim (N i : Nat) : Sim a b (TensorBasis.indexToKey .debug N i) (TensorBasis.indexToKey .release N i) := by
  unfold TensorBasis.indexToKey; sim
  exact indexToKeyLoop_sim _ _ _ _
macro_rules | `(tactic| sim_leaf) => `(tactic| with_reducible exact indexToKey_sim _ _)

theorem vectorDimensionForKey_sim (N : Nat) (k : TensorKey) : Sim a b (vectorDimensionForKey .debug N k) (vectorDimensionForKey .release N k) := by
  unfold vectorDimensionForKey; sim
macro_rules | `(tactic| sim_leaf) => `(tactic| with_reducible exact vectorDimensionForKey_sim _ _)

theorem vectorDimensionForIndex_sim (N i : Nat) : Sim a b (vectorDimensionForIndex .debug N i) (vectorDimensionForIndex .release N i) := by
  unfold vectorDimensionForIndex; sim
macro_rules | `(tactic| sim_leaf) => `(tactic| with_reducible exact vectorDimensionForIndex_sim _ _)

theorem advanceLoop_sim (N m fuel : Nat) : ∀ k i, Sim a b (advanceLoop .debug N m fuel k i) (advanceLoop .release N m fuel k i) := by
  induction fuel with
  | zero => intro k i; exact .refl _
  | succ n ih => intro k i; rw [advanceLoop, advanceLoop]; sim; exact ih _ _

theorem next_sim (N : Nat) (it : BasisIter) : Sim a b (it.next .debug N) (it.next .release N) := by
  unfold BasisIter.next; sim
  exact advanceLoop_sim _ _ _ _ _
macro_rules | `(tactic| sim_leaf) => `(tactic| with_reducible exact next_sim _ _)

theorem nth_sim (N n : Nat) : ∀ it : BasisIter, Sim a b (it.nth .debug N n) (it.nth .release N n) := by
  induction n with
  | zero => intro it; rw [BasisIter.nth, BasisIter.nth]; sim
  | succ n ih => intro it; rw [BasisIter.nth, BasisIter.nth]; sim; exact ih _

/-! ## Dense vectors -/

section dense
variable {S R : Type} (C : Coeff S R) (N : Nat)

theorem Dense.fromKeyScalar_sim (k : TensorKey) (s : S) : Sim a b (Dense.fromKeyScalar C (tensorBasis .debug N) k s) (Dense.fromKeyScalar C (tensorBasis .release N) k s) := by
  unfold Dense.fromKeyScalar tensorBasis; sim
macro_rules | `(tactic| sim_leaf) => `(tactic| with_reducible exact Dense.fromKeyScalar_sim _ _ _ _)

theorem Dense.fromKey_sim (k : TensorKey) : Sim a b (Dense.fromKey C (tensorBasis .debug N) k) (Dense.fromKey C (tensorBasis .release N) k) := by unfold Dense.fromKey; sim
macro_rules | `(tactic| sim_leaf) => `(tactic| with_reducible exact Dense.fromKey_sim _ _ _)

theorem Dense.fromIterator_sim (items : List (TensorKey × S)) : Sim a b (Dense.fromIterator C (tensorBasis .debug N) items) (Dense.fromIterator C (tensorBasis .release N) items) := by
  unfold Dense.fromIterator tensorBasis; sim

theorem Dense.get_sim (d : Dense S) (k : TensorKey) : Sim a b (Dense.get (tensorBasis .debug N) d k) (Dense.get (tensorBasis .release N) d k) := by unfold Dense.get tensorBasis; sim

theorem Dense.getMut_sim (d : Dense S) (k : TensorKey) (f : S → S) : Sim a b (Dense.getMut (tensorBasis .debug N) d k f) (Dense.getMut (tensorBasis .release N) d k f) := by
  unfold Dense.getMut tensorBasis; sim
macro_rules | `(tactic| sim_leaf) => `(tactic| with_reducible exact Dense.getMut_sim _ _ _ _)

theorem Dense.insertSingle_sim (d : Dense S) (k : TensorKey) (s : S) : Sim a b (Dense.insertSingle (tensorBasis .debug N) d k s) (Dense.insertSingle (tensorBasis .release N) d k s) := by
  unfold Dense.insertSingle tensorBasis; sim

theorem Dense.erase_sim (d : Dense S) (k : TensorKey) : Sim a b (Dense.erase C (tensorBasis .debug N) d k) (Dense.erase C (tensorBasis .release N) d k) := by unfold Dense.erase; sim

theorem Dense.degree_sim (d : Dense S) : Sim a b (Dense.degree (tensorBasis .debug N) d) (Dense.degree (tensorBasis .release N) d) := by unfold Dense.degree tensorBasis; sim
macro_rules | `(tactic| sim_leaf) => `(tactic| with_reducible exact Dense.degree_sim _ _)

theorem Dense.fromDegree_sim (d : Nat) : Sim a b (Dense.fromDegree C (tensorBasis .debug N) d) (Dense.fromDegree C (tensorBasis .release N) d) := by unfold Dense.fromDegree tensorBasis; sim

theorem Dense.displayLoop_sim {I K : Type} {nd nr : I → Res (Option K × I)} (hn : ∀ i, Sim a b (nd i) (nr i)) (showS : S → Res String)
    (showK : K → Res String) (l : List S) : ∀ it acc, Sim a b (Dense.displayLoop nd showS showK it l acc) (Dense.displayLoop nr showS showK it l acc) := by
  induction l with
  | nil => intro it acc; rw [Dense.displayLoop, Dense.displayLoop]; sim; exact hn _
  | cons v l ih =>
    intro it acc
    rw [Dense.displayLoop, Dense.displayLoop]
    refine .bind (hn _) fun z => ?_
    cases z.1 with
    | none => exact .refl _
    | some k => exact .bind (.refl _) fun _ => .bind (.refl _) fun _ => ih _ _

theorem Dense.displayTensor_sim (showS : S → Res String) (d : Dense S) (fuel : Nat) :
    Sim a b (Dense.displayTensor .debug N showS d fuel) (Dense.displayTensor .release N showS d fuel) :=
  Dense.displayLoop_sim (next_sim N) showS _ _ _ _

/-! ## Products of dense tensors -/

open DenseAlg

theorem mulAddStep_sim (l r : Dense S) (f : S → S) (o : Nat) (s : Dense S) (i : Nat) :
    Sim a b (mulAddStep C .debug N l r f o s i) (mulAddStep C .release N l r f o s i) := by unfold mulAddStep; sim
macro_rules | `(tactic| sim_leaf) => `(tactic| with_reducible exact mulAddStep_sim _ _ _ _ _ _ _ _)

theorem mulAddDegree_sim (l r : Dense S) (f : S → S) (ld rd : Nat) (s : Dense S) (o : Nat) :
    Sim a b (mulAddDegree C .debug N l r f ld rd s o) (mulAddDegree C .release N l r f ld rd s o) := by unfold mulAddDegree; sim
macro_rules | `(tactic| sim_leaf) => `(tactic| with_reducible exact mulAddDegree_sim _ _ _ _ _ _ _ _ _)

theorem maxDeg_sim (d : Option Nat) (x y : Nat) : Sim a b (maxDeg .debug d x y) (maxDeg .release d x y) := by unfold maxDeg; sim
macro_rules | `(tactic| sim_leaf) => `(tactic| with_reducible exact maxDeg_sim _ _ _)

theorem growTo_sim (s : Dense S) (m : Nat) : Sim a b (growTo C .debug N s m) (growTo C .release N s m) := by unfold growTo; sim
macro_rules | `(tactic| sim_leaf) => `(tactic| with_reducible exact growTo_sim _ _ _ _)

theorem mulAddInto_sim (s l r : Dense S) (f : S → S) (d : Option Nat) :
    Sim a b (mulAddInto C .debug N s l r f d) (mulAddInto C .release N s l r f d) := by unfold mulAddInto; sim
macro_rules | `(tactic| sim_leaf) => `(tactic| with_reducible exact mulAddInto_sim _ _ _ _ _ _ _)

theorem mulIntoStep_sim (r : Dense S) (f : S → S) (o m : Nat) (s : Dense S) (i : Nat) :
    Sim a b (mulIntoStep C .debug N r f o m s i) (mulIntoStep C .release N r f o m s i) := by unfold mulIntoStep; sim
macro_rules | `(tactic| sim_leaf) => `(tactic| with_reducible exact mulIntoStep_sim _ _ _ _ _ _ _ _)

theorem mulIntoAssign_sim (r : Dense S) (f : S → S) (x o m : Nat) (s : Dense S) :
    Sim a b (mulIntoAssign C .debug N r f x o m s) (mulIntoAssign C .release N r f x o m s) := by unfold mulIntoAssign; sim
macro_rules | `(tactic| sim_leaf) => `(tactic| with_reducible exact mulIntoAssign_sim _ _ _ _ _ _ _ _)

theorem mulIntoDegree_sim (r : Dense S) (f : S → S) (x : Nat) (g : Bool) (ld rd : Nat) (s : Dense S) (o : Nat) :
    Sim a b (mulIntoDegree C .debug N r f x g ld rd s o) (mulIntoDegree C .release N r f x g ld rd s o) := by unfold mulIntoDegree; sim
macro_rules | `(tactic| sim_leaf) => `(tactic| with_reducible exact mulIntoDegree_sim _ _ _ _ _ _ _ _ _ _)

theorem mulInto_sim (s r : Dense S) (f : S → S) (d : Option Nat) : Sim a b (mulInto C .debug N s r f d) (mulInto C .release N s r f d) := by
  unfold mulInto; sim
macro_rules | `(tactic| sim_leaf) => `(tactic| with_reducible exact mulInto_sim _ _ _ _ _ _)

/-! ## Exponential, fused multiplication and logarithm over dense tensors -/

theorem commutator_sim (v w : Dense S) (d : Option Nat) : Sim a b (AlgOps.commutator C (DenseAlg.ops C .debug N) v w d) (AlgOps.commutator C (DenseAlg.ops C .release N) v w d) :=
  .bind (mulAddInto_sim C N _ _ _ _ _) fun _ => mulAddInto_sim C N _ _ _ _ _

theorem exp_sim (m : Nat) (x : Dense S) : Sim a b (FreeTensor.exp C (DenseAlg.ops C .debug N) m x) (FreeTensor.exp C (DenseAlg.ops C .release N) m x) :=
  .bind (Dense.fromKey_sim C N _) fun _ => .bind (Dense.fromKey_sim C N _) fun _ =>
    .foldlM (fun _ _ => .bind (mulInto_sim C N _ _ _ _) fun _ => .refl _) _ _

theorem fmexp_sim (m : Nat) (v x : Dense S) : Sim a b (FreeTensor.fmexp .debug C (DenseAlg.ops C .debug N) m v x) (FreeTensor.fmexp .release C (DenseAlg.ops C .release N) m v x) :=
  .bind (.refl _) fun _ => .bind (.refl _) fun _ => .bind (Dense.getMut_sim N _ _ _) fun _ =>
    .foldlM (fun _ _ => .bind (subW_sim _ _ _) fun _ => .bind (addW_sim _ _ _) fun _ => .bind (mulInto_sim C N _ _ _ _) fun _ => .refl _) _ _

theorem logStep_sim (m : Nat) (x u r : Dense S) (i : Nat) :
    Sim a b (FreeTensor.logStep C (DenseAlg.ops C .debug N) m x u r i) (FreeTensor.logStep C (DenseAlg.ops C .release N) m x u r i) := by
  unfold FreeTensor.logStep
  dsimp only
  split
  · exact .bind (.refl _) fun _ => .bind (mulAddInto_sim C N _ _ _ _ _) fun _ => .refl _
  · exact .bind (.refl _) fun _ => .bind (mulAddInto_sim C N _ _ _ _ _) fun _ => .refl _

theorem log_sim (m : Nat) (x : Dense S) :
    Sim a b (FreeTensor.log C (DenseAlg.ops C .debug N) m x) (FreeTensor.log C (DenseAlg.ops C .release N) m x) :=
  .bind (Dense.fromKey_sim C N _) fun _ => .bind (.refl _) fun _ => .bind (Dense.getMut_sim N _ _ _) fun _ =>
    .foldlM (logStep_sim C N m _ _) _ _

end dense

/-! ## Hall sets -/

namespace Hall
open Lean.Order

theorem adm_sim_left {α : Type} (r : Res α) : admissible (fun d : Res α => Sim true false d r) :=
  admissible_flatOrder _ (.inr (.inl ⟨rfl, rfl⟩))

theorem adm_sim_right {α : Type} (d : Res α) : admissible (fun r : Res α => Sim false true d r) :=
  admissible_flatOrder _ (.inr (.inr (.inl ⟨rfl, rfl⟩)))

theorem isSquarefreeImpl_sim (n x : Nat) : Sim a b (isSquarefreeImpl .debug n x) (isSquarefreeImpl .release n x) := by
  refine .weaken (.same ?_ ?_)
  · refine isSquarefreeImpl.fixpoint_induct .debug n (fun f => ∀ x, Sim true false (f x) (isSquarefreeImpl .release n x))
      (admissible_pi_apply _ fun _ => adm_sim_left _) (fun f ih x => ?_) x
    rw [isSquarefreeImpl]; dsimp only; sim; all_goals exact ih _
  · refine isSquarefreeImpl.fixpoint_induct .release n (fun f => ∀ x, Sim false true (isSquarefreeImpl .debug n x) (f x))
      (admissible_pi_apply _ fun _ => adm_sim_right _) (fun f ih x => ?_) x
    rw [isSquarefreeImpl]; dsimp only; sim; all_goals exact ih _

theorem isSquarefree_sim (n : Nat) : Sim a b (isSquarefree .debug n) (isSquarefree .release n) := isSquarefreeImpl_sim _ _
macro_rules | `(tactic| sim_leaf) => `(tactic| with_reducible exact isSquarefree_sim _)

theorem mobius_sim (n : Nat) : Sim a b (mobius .debug n) (mobius .release n) := by
  refine .weaken (.same ?_ ?_)
  · refine mobius.fixpoint_induct .debug (fun f => ∀ n x, Sim true false (f n x) (mobiusImpl .release n x))
      (fun f => ∀ n, Sim true false (f n) (mobius .release n)) (admissible_pi_apply _ fun _ => admissible_pi_apply _ fun _ => adm_sim_left _)
      (admissible_pi_apply _ fun _ => adm_sim_left _) (fun f g hf hg n x => ?_) (fun f hf n => ?_) n
    · rw [mobiusImpl]; dsimp only; sim
      all_goals first | exact hf _ _ | exact hg _
    · rw [mobius]; dsimp only; sim
      all_goals exact hf _ _
  · refine mobius.fixpoint_induct .release (fun f => ∀ n x, Sim false true (mobiusImpl .debug n x) (f n x))
      (fun f => ∀ n, Sim false true (mobius .debug n) (f n)) (admissible_pi_apply _ fun _ => admissible_pi_apply _ fun _ => adm_sim_right _)
      (admissible_pi_apply _ fun _ => adm_sim_right _) (fun f g hf hg n x => ?_) (fun f hf n => ?_) n
    · rw [mobiusImpl]; dsimp only; sim
      all_goals first | exact hf _ _ | exact hg _
    · rw [mobius]; dsimp only; sim
      all_goals exact hf _ _
macro_rules | `(tactic| sim_leaf) => `(tactic| with_reducible exact mobius_sim _)

theorem levelTerm_sim (w l d : Nat) : Sim a b (levelTerm .debug w l d) (levelTerm .release w l d) := by unfold levelTerm; sim
macro_rules | `(tactic| sim_leaf) => `(tactic| with_reducible exact levelTerm_sim _ _ _)

theorem levelSizeImpl_sim (w l d : Nat) : Sim a b (levelSizeImpl .debug w l d) (levelSizeImpl .release w l d) := by
  refine .weaken (.same ?_ ?_)
  · refine levelSizeImpl.fixpoint_induct .debug w l (fun f => ∀ d, Sim true false (f d) (levelSizeImpl .release w l d))
      (admissible_pi_apply _ fun _ => adm_sim_left _) (fun f ih d => ?_) d
    rw [levelSizeImpl]; dsimp only; sim; all_goals exact ih _
  · refine levelSizeImpl.fixpoint_induct .release w l (fun f => ∀ d, Sim false true (levelSizeImpl .debug w l d) (f d))
      (admissible_pi_apply _ fun _ => adm_sim_right _) (fun f ih d => ?_) d
    rw [levelSizeImpl]; dsimp only; sim; all_goals exact ih _
macro_rules | `(tactic| sim_leaf) => `(tactic| with_reducible exact levelSizeImpl_sim _ _ _)

theorem levelSize_sim (w d : Nat) : Sim a b (levelSize .debug w d) (levelSize .release w d) := by unfold levelSize; sim
macro_rules | `(tactic| sim_leaf) => `(tactic| with_reducible exact levelSize_sim _ _)

theorem sizeImpl_sim (w d l : Nat) : Sim a b (sizeImpl .debug w d l) (sizeImpl .release w d l) := by
  refine .weaken (.same ?_ ?_)
  · refine sizeImpl.fixpoint_induct .debug w d (fun f => ∀ l, Sim true false (f l) (sizeImpl .release w d l))
      (admissible_pi_apply _ fun _ => adm_sim_left _) (fun f ih l => ?_) l
    rw [sizeImpl]; dsimp only; sim; all_goals exact ih _
  · refine sizeImpl.fixpoint_induct .release w d (fun f => ∀ l, Sim false true (sizeImpl .debug w d l) (f l))
      (admissible_pi_apply _ fun _ => adm_sim_right _) (fun f ih l => ?_) l
    rw [sizeImpl]; dsimp only; sim; all_goals exact ih _
macro_rules | `(tactic| sim_leaf) => `(tactic| with_reducible exact sizeImpl_sim _ _ _)

theorem hallSetSize_sim (w d : Nat) : Sim a b (hallSetSize .debug w d) (hallSetSize .release w d) := by unfold hallSetSize; sim
macro_rules | `(tactic| sim_leaf) => `(tactic| with_reducible exact hallSetSize_sim _ _)

theorem pushSizes_sim (N : Nat) (m : RangeMap) (l : List Nat) : Sim a b (pushSizes .debug N m l) (pushSizes .release N m l) := by unfold pushSizes; sim
macro_rules | `(tactic| sim_leaf) => `(tactic| with_reducible exact pushSizes_sim _ _ _)

theorem RangeMap.new_sim (N d : Nat) : Sim a b (RangeMap.new .debug N d) (RangeMap.new .release N d) := by unfold RangeMap.new; sim
macro_rules | `(tactic| sim_leaf) => `(tactic| with_reducible exact RangeMap.new_sim _ _)

theorem RangeMap.grow_sim (N : Nat) (m : RangeMap) (d : Nat) : Sim a b (RangeMap.grow .debug N m d) (RangeMap.grow .release N m d) := by
  unfold RangeMap.grow; sim

theorem Inner.new_sim (N : Nat) : Sim a b (Inner.new .debug N) (Inner.new .release N) := by unfold Inner.new; sim
macro_rules | `(tactic| sim_leaf) => `(tactic| with_reducible exact Inner.new_sim _)

theorem Inner.growUp_sim (s : Inner) (d : Nat) : Sim a b (Inner.growUp .debug s d) (Inner.growUp .release s d) := by
  refine .weaken (.same ?_ ?_)
  · refine Inner.growUp.fixpoint_induct .debug d (fun f => ∀ s, Sim true false (f s) (Inner.growUp .release s d))
      (admissible_pi_apply _ fun _ => adm_sim_left _) (fun f ih s => ?_) s
    rw [Inner.growUp]; dsimp only; sim; all_goals exact ih _
  · refine Inner.growUp.fixpoint_induct .release d (fun f => ∀ s, Sim false true (Inner.growUp .debug s d) (f s))
      (admissible_pi_apply _ fun _ => adm_sim_right _) (fun f ih s => ?_) s
    rw [Inner.growUp]; dsimp only; sim; all_goals exact ih _
macro_rules | `(tactic| sim_leaf) => `(tactic| with_reducible exact Inner.growUp_sim _ _)

theorem Inner.degreeRange_sim (s : Inner) (d : Nat) : Sim a b (s.degreeRange .debug d) (s.degreeRange .release d) := by
  unfold Inner.degreeRange; sim
macro_rules | `(tactic| sim_leaf) => `(tactic| with_reducible exact Inner.degreeRange_sim _ _)

theorem Cache.build_sim (N : Nat) (d : Option Nat) : Sim a b (Cache.build .debug N d) (Cache.build .release N d) := by unfold Cache.build; sim

theorem Shared.lookup_sim (N : Nat) (s : Inner) (op : Shared.Op) : Sim a b (Shared.lookup .debug N s op) (Shared.lookup .release N s op) := by
  cases op <;> unfold Shared.lookup <;> sim

namespace Key

theorem getKey_sim (k : Nat) : Sim a b (getKey .debug k) (getKey .release k) := by unfold getKey; sim
macro_rules | `(tactic| sim_leaf) => `(tactic| with_reducible exact getKey_sim _)
theorem getLparent_sim (k : Nat) : Sim a b (getLparent .debug k) (getLparent .release k) := by unfold getLparent; sim
macro_rules | `(tactic| sim_leaf) => `(tactic| with_reducible exact getLparent_sim _)
theorem getRparent_sim (k : Nat) : Sim a b (getRparent .debug k) (getRparent .release k) := by unfold getRparent; sim
macro_rules | `(tactic| sim_leaf) => `(tactic| with_reducible exact getRparent_sim _)
theorem size_sim (k : Nat) : Sim a b (size .debug k) (size .release k) := by unfold size; sim
macro_rules | `(tactic| sim_leaf) => `(tactic| with_reducible exact size_sim _)
theorem makeKeyData_sim (k l r s : Nat) : Sim a b (makeKeyData .debug k l r s) (makeKeyData .release k l r s) := by unfold makeKeyData; sim
macro_rules | `(tactic| sim_leaf) => `(tactic| with_reducible exact makeKeyData_sim _ _ _ _)
theorem fromLetter_sim (N l : Nat) : Sim a b (Key.fromLetter .debug N l) (Key.fromLetter .release N l) := by unfold Key.fromLetter; sim
theorem isLetter_sim (k : Nat) : Sim a b (isLetter .debug k) (isLetter .release k) := by unfold isLetter; sim
macro_rules | `(tactic| sim_leaf) => `(tactic| with_reducible exact isLetter_sim _)
theorem toIndex_sim (k : Nat) : Sim a b (toIndex .debug k) (toIndex .release k) := by unfold toIndex; sim
theorem packDetails_sim (d : Except SetError ParentInfo) : Sim a b (packDetails .debug d) (packDetails .release d) := by unfold packDetails; sim
macro_rules | `(tactic| sim_leaf) => `(tactic| with_reducible exact packDetails_sim _)
theorem lparentWith_sim (hs : Obj) (k : Nat) : Sim a b (lparentWith .debug hs k) (lparentWith .release hs k) := by unfold lparentWith; sim
theorem parentWith_sim (hs : Obj) (k : Nat) : Sim a b (parentWith .debug hs k) (parentWith .release hs k) := by unfold parentWith; sim
theorem display_sim (k : Nat) : Sim a b (display .debug k) (display .release k) := by unfold display; sim
macro_rules | `(tactic| sim_leaf) => `(tactic| with_reducible exact display_sim _)
theorem displayText_sim (k : Nat) : Sim a b (displayText .debug k) (displayText .release k) := by unfold displayText; sim
theorem debugText_sim (k : Nat) : Sim a b (debugText .debug k) (debugText .release k) := by unfold debugText; sim

end Key
end Hall
end RA
