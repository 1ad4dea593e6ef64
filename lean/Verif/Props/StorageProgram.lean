import Verif.Props.CoeffRel
import Verif.Props.DenseState
import Verif.Props.VecProgramMore

/-!
# Programs on the caller's memory (C114)

The registers of a program may hold vectors of their own and views of buffers that belong to the caller, shared or exclusive.
-/

namespace RA
open Spec TensorKey TensorBasis DenseAlg

/-! ## Results do not depend on where the coefficients are stored -/

section same
variable {S R : Type}

/-- The vectors show the same entries; if `cl`, they are also both exclusive views or neither. -/
def SameData (cl : Prop) (d d' : Dense S) : Prop := d.data = d'.data ∧ (cl → (d.mode = .borrowedMut ↔ d'.mode = .borrowedMut))

namespace SameData
variable {cl : Prop} {d d' o o' : Dense S}

theorem write_mode (d : Dense S) (l : List S) : (d.writeSlice l).mode = .borrowedMut ↔ d.mode = .borrowedMut := by
  obtain ⟨m, a, b⟩ := d
  cases m <;> simp [Dense.writeSlice, Dense.makeMut]

theorem makeMut_mode (d : Dense S) : d.makeMut.mode = .borrowedMut ↔ d.mode = .borrowedMut := by
  obtain ⟨m, a, b⟩ := d
  cases m <;> simp [Dense.makeMut]

theorem write (h : SameData cl d d') (l : List S) : SameData cl (d.writeSlice l) (d'.writeSlice l) :=
  ⟨by simp, fun hc => by rw [write_mode, write_mode]; exact h.2 hc⟩

theorem makeMut (h : SameData cl d d') : SameData cl d.makeMut d'.makeMut :=
  ⟨by simp [h.1], fun hc => by rw [makeMut_mode, makeMut_mode]; exact h.2 hc⟩

theorem resize (C : Coeff S R) (h : SameData cl d d') (n : Nat) : SameData cl (Dense.resize C d n) (Dense.resize C d' n) :=
  ⟨by simp [h.1], fun _ => iff_of_false (resize_mode C d n) (resize_mode C d' n)⟩

theorem size (h : SameData cl d d') : d.size = d'.size := congrArg List.length h.1

theorem add (C : Coeff S R) (h : SameData cl d d') (ho : SameData cl o o') : ResRel (SameData cl) (Dense.addInplace C d o) (Dense.addInplace C d' o') := by
  have hm := h.makeMut
  unfold Dense.addInplace
  dsimp only
  rw [← ho.size, ← hm.size, ← ho.1]
  split
  · rw [← (hm.resize C _).1]; exact (hm.resize C _).write _
  · rw [← hm.1]; exact hm.write _

theorem sub (C : Coeff S R) (h : SameData cl d d') (ho : SameData cl o o') : ResRel (SameData cl) (Dense.subInplace C d o) (Dense.subInplace C d' o') := by
  unfold Dense.subInplace
  dsimp only
  rw [← ho.size, ← h.size, ← ho.1]
  split
  · rw [← (h.resize C _).1]; exact (h.resize C _).write _
  · rw [← h.1]; exact h.write _

theorem map (h : SameData cl d d') (g : S → S) : ResRel (SameData cl) (.ok (d.writeSlice (d.data.map g))) (.ok (d'.writeSlice (d'.data.map g))) := by
  rw [← h.1]; exact h.write _

theorem getMut {K : Type} (B : Basis K) (h : SameData cl d d') (k : K) (f : S → S) :
    ResRel (fun x x' => x.1 = x'.1 ∧ SameData cl x.2 x'.2) (Dense.getMut B d k f) (Dense.getMut B d' k f) := by
  unfold Dense.getMut
  rw [← h.1]
  refine .bind_eq fun i => ?_
  split
  · exact ⟨rfl, h.write _⟩
  · exact ⟨rfl, h.makeMut⟩

theorem clear (C : Coeff S R) (hc : cl) (h : SameData cl d d') : ResRel (SameData cl) (Dense.clear C d) (Dense.clear C d') := by
  obtain ⟨m, a, b⟩ := d
  obtain ⟨m', a', b'⟩ := d'
  have h1 : a = a' := h.1
  have h2 := h.2 hc
  subst h1
  cases m <;> cases m' <;> simp_all [Dense.clear, ResRel, SameData, Dense.writeSlice, Dense.makeMut]

theorem product (C : Coeff S R) (p : Profile) (N : Nat) {l l' r r' : Dense S} (h : SameData cl d d') (hl : SameData cl l l') (hr : SameData cl r r')
    (f : S → S) (D : Option Nat) : ResRel (SameData cl) (mulAddInto C p N d l r f D) (mulAddInto C p N d' l' r' f D) := by
  have hdeg : ∀ {x x' : Dense S}, SameData cl x x' → Dense.degree (tensorBasis p N) x = Dense.degree (tensorBasis p N) x' := by
    intro x x' hx
    unfold Dense.degree
    rw [hx.size]
  have hstep : ∀ n (a a' : Dense S) c, SameData cl a a' → ResRel (SameData cl) (mulAddStep C p N l r f n a c) (mulAddStep C p N l' r' f n a' c) := by
    intro n a a' c ha
    unfold mulAddStep
    have hm := ha.makeMut
    rw [← hl.1, ← hr.1]
    dsimp only
    rw [← hm.1]
    exact .bind_eq fun _ => .bind_eq fun _ => .bind_eq fun _ => .bind_eq fun _ => .bind_eq fun _ => .bind_eq fun _ => .bind_eq fun _ => .bind_eq fun _ => hm.write _
  unfold mulAddInto
  rw [hdeg hl, hdeg hr]
  refine .bind_eq fun _ => .bind_eq fun _ => .bind_eq fun m => .bind (?_ : ResRel (SameData cl) (growTo C p N d m) (growTo C p N d' m)) fun _ _ h =>
    .foldlM_same (fun _ _ _ h => ?_) h
  · unfold growTo
    rw [hdeg h]
    refine .bind_eq fun _ => ?_
    split
    · exact .bind_eq fun _ => .bind_eq fun _ => h.resize C _
    · exact h
  · unfold mulAddDegree
    dsimp only
    split
    · exact .bind_eq fun _ => .foldlM_same (fun _ _ c h => hstep _ _ _ c h) h
    · rw [Res.bind_ok, Res.bind_ok]
      exact .foldlM_same (fun _ _ c h => hstep _ _ _ c h) h

end SameData

variable (C : Coeff S R) (p : Profile) (N : Nat)

theorem same_stmt {cl : Prop} {σ σ' : Nat → Dense S} (h : ∀ i, SameData cl (σ i) (σ' i)) (st : PStmt S R) (hst : (∃ i, st = .clear i) → cl) :
    ResRel (fun τ τ' => ∀ i, SameData cl (τ i) (τ' i)) (runStmt C p N σ st) (runStmt C p N σ' st) := by
  have hr : ∀ v : Dense S, SameData cl v v := fun v => ⟨rfl, fun _ => Iff.rfl⟩
  have hown : ∀ {v v' : Dense S}, SameData cl v v' → SameData cl (Dense.ofVec v.data) (Dense.ofVec v'.data) := fun hv => by rw [hv.1]; exact hr _
  cases st with
  | zero i => exact setReg_rel h i (hr _)
  | word i w s => exact .bind_eq fun k => .bind (.refl (r := SameData cl) _ hr) fun _ _ hv => setReg_rel h i hv
  | terms i l => exact .bind_eq fun k => .bind (.refl (r := SameData cl) _ hr) fun _ _ hv => setReg_rel h i hv
  | copy i j => exact setReg_rel h i (hown (h j))
  | swap i j => exact setReg_rel (setReg_rel h i (h j)) j (h i)
  | clear i => exact .bind (SameData.clear C (hst ⟨i, rfl⟩) (h i)) fun _ _ hv => setReg_rel h i hv
  | modify i w f => exact .bind_eq fun k => .bind (SameData.getMut _ (h i) k f) fun _ _ hv => setReg_rel h i hv.2
  | erase i w =>
    refine .bind_eq fun k => .bind (r := SameData cl) ?_ fun _ _ hv => setReg_rel h i hv
    exact .bind (SameData.getMut (tensorBasis p N) (h i) k fun _ => C.zero) fun _ _ hv => hv.2
  | neg i => exact .bind ((h i).map _) fun _ _ hv => setReg_rel h i hv
  | add i j => exact .bind ((h i).add C (h j)) fun _ _ hv => setReg_rel h i hv
  | sub i j => exact .bind ((h i).sub C (h j)) fun _ _ hv => setReg_rel h i hv
  | scale i s => exact .bind ((h i).map fun x => C.mul x s) fun _ _ hv => setReg_rel h i hv
  | div i r => exact .bind ((h i).map fun x => C.div x r) fun _ _ hv => setReg_rel h i hv
  | mul i j k D => exact .bind ((hr _).product C p N (h j) (h k) _ _) fun _ _ hv => setReg_rel h i hv
  | comm i j k D =>
    exact .bind (.bind ((hr _).product C p N (h j) (h k) _ _) fun _ _ hv => hv.product C p N (h k) (h j) _ _) fun _ _ hv => setReg_rel h i hv
  | addMul i j k D => exact .bind ((h i).product C p N (h j) (h k) _ _) fun _ _ hv => setReg_rel h i hv
  | subMul i j k D => exact .bind ((h i).product C p N (h j) (h k) _ _) fun _ _ hv => setReg_rel h i hv

theorem same_prog {cl : Prop} (prog : List (PStmt S R)) (hp : ∀ i, .clear i ∈ prog → cl) {σ σ' : Nat → Dense S} (h : ∀ i, SameData cl (σ i) (σ' i)) :
    ResRel (fun τ τ' => ∀ i, SameData cl (τ i) (τ' i)) (prog.foldlM (runStmt C p N) σ) (prog.foldlM (runStmt C p N) σ') := by
  induction prog generalizing σ σ' with
  | nil => exact h
  | cons s l ih =>
    rw [List.foldlM_cons, List.foldlM_cons]
    exact .bind (same_stmt C p N h s fun ⟨i, hi⟩ => hp i (by simp [hi])) fun _ _ h' => ih (fun i hi => hp i (by simp [hi])) h'

/-- C114.  Take the same program on registers that show the same entries, stored in any way (owned, in a shared buffer, in an exclusive buffer).  If it does
not call `clear`, the two runs end the same way, and if they return, the registers show the same entries again, bit for bit.  Any coefficients, no laws. -/
theorem C114_same (prog : List (PStmt S R)) (hp : ∀ i, .clear i ∉ prog) (σ σ' : Nat → Dense S) (h : ∀ i, (σ i).data = (σ' i).data) :
    ResRel (fun τ τ' => ∀ i, (τ i).data = (τ' i).data) (prog.foldlM (runStmt C p N) σ) (prog.foldlM (runStmt C p N) σ') := by
  have := same_prog C p N prog (cl := False) (fun i hi => hp i hi) (σ := σ) (σ' := σ') fun i => ⟨h i, nofun⟩
  cases h1 : prog.foldlM (runStmt C p N) σ <;> cases h2 : prog.foldlM (runStmt C p N) σ' <;> rw [h1, h2] at this <;>
    first | exact fun i => (this i).1 | exact this

/-- C114.  With `clear` allowed the same holds if the two runs have their exclusive views in the same registers: owned or shared makes no difference. -/
theorem C114_same_clear (prog : List (PStmt S R)) (σ σ' : Nat → Dense S) (h : ∀ i, (σ i).data = (σ' i).data)
    (hm : ∀ i, (σ i).mode = .borrowedMut ↔ (σ' i).mode = .borrowedMut) :
    ResRel (fun τ τ' => ∀ i, (τ i).data = (τ' i).data ∧ ((τ i).mode = .borrowedMut ↔ (τ' i).mode = .borrowedMut))
      (prog.foldlM (runStmt C p N) σ) (prog.foldlM (runStmt C p N) σ') := by
  have := same_prog C p N prog (cl := True) (fun _ _ => trivial) (σ := σ) (σ' := σ') fun i => ⟨h i, fun _ => hm i⟩
  cases h1 : prog.foldlM (runStmt C p N) σ <;> cases h2 : prog.foldlM (runStmt C p N) σ' <;> rw [h1, h2] at this <;>
    first | exact fun i => ⟨(this i).1, (this i).2 trivial⟩ | exact this

end same

/-- `x_0 = -(x_0 + x_1 x_1)`, then `x_2 = x_0`. -/
def viewProg : List (PStmt Int Int) := [.addMul 0 1 1 2, .neg 0, .copy 2 0]

/-- The first register is an exclusive view of seven entries, the second a shared view of three. -/
def viewRegs : Nat → Dense Int := fun i => if i = 0 then .ofBorrowedMut [1, 0, 0, 0, 0, 0, 0] else if i = 1 then .ofBorrowed [2, 1, 3] else .new

/-- The same entries, owned. -/
def ownedRegs : Nat → Dense Int := fun i => .ofVec (viewRegs i).data

/-- What a run leaves in the first three registers. -/
def showRegs (x : Res (Nat → Dense Int)) : Res (List (List Int)) := (fun τ => [(τ 0).data, (τ 1).data, (τ 2).data]) <$> x

example : showRegs (viewProg.foldlM (runStmt intCoeff .debug 2) viewRegs) =
    .ok [[-5, -4, -12, -1, -3, -3, -9], [2, 1, 3], [-5, -4, -12, -1, -3, -3, -9]] := by decide +kernel

example := C114_same intCoeff .debug 2 viewProg (by intro i; simp [viewProg]) viewRegs ownedRegs (fun _ => rfl)

/-- C114.  `clear` is the one method that does see the storage: it empties an owned vector and zeroes an exclusive buffer, so that a later product with
the cleared vector is undefined behaviour in the first case and returns in the second. -/
theorem C114_clear_differs (p : Profile) : ∃ (prog : List (PStmt Int Int)) (σ σ' : Nat → Dense Int), (∀ i, (σ i).data = (σ' i).data) ∧
    prog.foldlM (runStmt intCoeff p 2) σ' = .ub ∧ ∃ τ, prog.foldlM (runStmt intCoeff p 2) σ = .ok τ ∧ (τ 2).data = [0, 0, 0] := by
  refine ⟨[.clear 0, .mul 2 0 1 1], fun i => if i = 0 then .ofBorrowedMut [5] else .ofVec [2, 1, 3],
    fun i => if i = 0 then .ofVec [5] else .ofVec [2, 1, 3], fun i => by dsimp only; split <;> rfl, ?_⟩
  cases p
  · exact ⟨rfl, _, rfl, rfl⟩
  · exact ⟨rfl, _, rfl, rfl⟩

example := C114_same_clear intCoeff .release 2 [.clear 1, .clear 0, .add 0 2] viewRegs
  (fun i => if i = 1 then .ofVec [2, 1, 3] else viewRegs i) (fun i => by split <;> simp_all [viewRegs, Dense.ofVec, Dense.ofBorrowed])
  (fun i => by split <;> simp_all [viewRegs, Dense.ofVec, Dense.ofBorrowed])

/-- C114.  Programs of linear operations over any basis, `clear` included, started on vectors stored in any way: they return, and every coefficient (a missing
one read as zero) is the one the program gives on the coefficients the registers showed at the start. -/
theorem C114_linear {K S : Type} [DecidableEq K] [Field S] {C : Coeff S S} {B : Basis K} {P : K → Prop} {idx : K → Nat} (hC : C.IsField) (hE : C.EqLawful)
    (hb : BasisOn B P idx) (prog : List (VStmt K S S)) (hk : ∀ s ∈ prog, ∀ k ∈ s.keys, P k) (hs : ∀ s ∈ prog, OnDense s ∧ ModifyKeepsZero 0 s)
    (σ : Nat → Dense S) (a : Nat → K → S) (ha : ∀ i k, P k → ∃ x, (Dense.ops C B).get (σ i) k = .ok x ∧ x.getD 0 = a i k) :
    ∃ τ, prog.foldlM (runVStmt C (Dense.ops C B)) σ = .ok τ ∧
      ∀ i k, P k → ∃ x, (Dense.ops C B).get (τ i) k = .ok x ∧ x.getD 0 = prog.foldl VStmt.linear a i k := by
  have h0 : ∀ i, DenseHas C Eq P idx (σ i) (a i) := by
    intro i k hk
    obtain ⟨x, hx, hxa⟩ := ha i k hk
    rw [dense_get C B (σ i) k (idx k) (hb.index k hk)] at hx
    cases hx
    rw [hC.zero]
    exact hxa
  suffices ∃ τ, prog.foldlM (runVStmt C (Dense.ops C B)) σ = .ok τ ∧ ∀ i, DenseHas C Eq P idx (τ i) (prog.foldl VStmt.linear a i) by
    obtain ⟨τ, e, g⟩ := this
    refine ⟨τ, e, fun i k hk => ⟨_, dense_get C B (τ i) k (idx k) (hb.index k hk), ?_⟩⟩
    rw [← g i k hk, hC.zero]
  clear ha
  induction prog generalizing σ a with
  | nil => exact ⟨σ, rfl, h0⟩
  | cons s l ih =>
    obtain ⟨σ', e2, g2⟩ := dense_vstep (ring_blind hC.toIsRing hE) hb s (hk s (by simp)) (hs s (by simp)).1 (field_respects hC s (hs s (by simp)).2) h0
    obtain ⟨τ, e, g⟩ := ih (fun s h => hk s (by simp [h])) (fun s h => hs s (by simp [h])) σ' _ g2
    refine ⟨τ, ?_, ?_⟩
    · rw [List.foldlM_cons, e2, Res.bind_ok, e]
    · rw [List.foldl_cons, ← eval_linear hC]
      exact g

example : ∃ τ, ([.addScaled 0 1 5, .clear 1, .sub 1 0] : List (VStmt Nat Rat Rat)).foldlM (runVStmt (fieldCoeff Rat) (Dense.ops (fieldCoeff Rat) integerBasis))
      (fun i => if i = 0 then .ofBorrowedMut [1, 2, 3] else .ofBorrowed [4, 5]) = .ok τ ∧
    ∀ i k, k < 255 → ∃ x, (Dense.ops (fieldCoeff Rat) integerBasis).get (τ i) k = .ok x ∧
      x.getD 0 = ([.addScaled 0 1 5, .clear 1, .sub 1 0] : List (VStmt Nat Rat Rat)).foldl VStmt.linear
        (fun i k => ((if i = 0 then [1, 2, 3] else [4, 5] : List Rat)[k]?).getD 0) i k :=
  C114_linear (fieldCoeff_isField Rat) (fieldCoeff_eqLawful Rat) integerBasis_on _ (by simp [VStmt.keys]) (by simp [OnDense, ModifyKeepsZero]) _ _
    (fun i k _ => ⟨_, rfl, by split <;> rfl⟩)

/-! ## The buffers of the caller -/

/-- Registers, together with the memory of the caller: `tag i` names the buffer the vector in register `i` was made over (`none`: it was built by the
crate), `buf b` is the content of the buffer `b`. -/
structure Memory (ι S : Type) where
  reg : Nat → Dense S
  tag : Nat → Option ι
  buf : ι → List S

section memory
variable {ι S R : Type} [DecidableEq ι]

/-- The register a statement writes to. -/
def Spec.PStmt.dest : PStmt S R → Nat
  | .zero i | .word i _ _ | .terms i _ | .copy i _ | .swap i _ | .clear i | .modify i _ _ | .erase i _ | .neg i | .add i _ | .sub i _ | .scale i _
  | .div i _ | .mul i _ _ _ | .comm i _ _ _ | .addMul i _ _ _ | .subMul i _ _ _ => i

/-- Which buffers the registers belong to after a statement: an assignment drops the old vector and stores a new one, `swap` exchanges the vectors, the
other statements work on the vector in the register. -/
def Spec.PStmt.retag (tag : Nat → Option ι) : PStmt S R → Nat → Option ι
  | .zero i | .word i _ _ | .terms i _ | .copy i _ | .mul i _ _ _ | .comm i _ _ _ => setReg tag i none
  | .swap i j => setReg (setReg tag i (tag j)) j (tag i)
  | _ => tag

variable (C : Coeff S R) (p : Profile) (N : Nat)

/-- A statement with the memory of the caller: the buffer of the register written to has the content recorded by the vector. -/
def runMemStmt (m : Memory ι S) (st : PStmt S R) : Res (Memory ι S) := do
  let reg ← runStmt C p N m.reg st
  return ⟨reg, st.retag m.tag, fun b => if st.retag m.tag st.dest = some b then (reg st.dest).lent else m.buf b⟩

/-- A program with the memory of the caller. -/
def runMem (m : Memory ι S) (prog : List (PStmt S R)) : Res (Memory ι S) := prog.foldlM (runMemStmt C p N) m

/-- The state the borrow checker lets a caller set up: views show their buffer, and a buffer seen by an exclusive view is seen by no other vector. -/
structure Memory.Lawful (m : Memory ι S) : Prop where
  lent : ∀ i b, m.tag i = some b → (m.reg i).lent = m.buf b
  view : ∀ i, (m.reg i).mode ≠ .owned → ∃ b, m.tag i = some b ∧ (m.reg i).data = m.buf b
  excl : ∀ i j b, i ≠ j → (m.reg i).mode = .borrowedMut → m.tag i = some b → m.tag j ≠ some b

/-- The buffer is lent exclusively to some register. -/
def Memory.Exclusive (m : Memory ι S) (b : ι) : Prop := ∃ i, (m.reg i).mode = .borrowedMut ∧ m.tag i = some b

/-- What working on a vector may do to its storage. -/
structure Keeps (d r : Dense S) : Prop where
  other : d.mode ≠ .borrowedMut → r.lent = d.lent ∧ r.mode ≠ .borrowedMut
  owned : d.mode = .owned → r.mode = .owned
  shared : d.mode = .borrowed → r.mode = .borrowed → r.data = d.data
  excl : d.mode = .borrowedMut → d.data = d.lent → (r.mode = .borrowedMut ∧ r.data = r.lent ∧ r.lent.length = d.lent.length) ∨
    (r.mode = .owned ∧ r.lent.length = d.lent.length)

omit [DecidableEq ι]

theorem Keeps.refl (d : Dense S) : Keeps d d := ⟨fun h => ⟨rfl, h⟩, id, fun _ _ => rfl, fun h h' => .inl ⟨h, h', rfl⟩⟩

theorem Keeps.trans {a b c : Dense S} (h : Keeps a b) (h' : Keeps b c) : Keeps a c := by
  refine ⟨fun hm => ?_, fun hm => h'.owned (h.owned hm), fun hm hc => ?_, fun hm hl => ?_⟩
  · have h1 := h.other hm
    have h2 := h'.other h1.2
    exact ⟨h2.1.trans h1.1, h2.2⟩
  · have hb : b.mode = .borrowed := by
      cases hb : b.mode with
      | borrowed => rfl
      | owned => rw [h'.owned hb] at hc; cases hc
      | borrowedMut => exact absurd hb (h.other (by rw [hm]; decide)).2
    exact (h'.shared hb hc).trans (h.shared hm hb)
  · rcases h.excl hm hl with ⟨x, y, z⟩ | ⟨x, y⟩
    · rcases h'.excl x y with ⟨x', y', z'⟩ | ⟨x', y'⟩
      · exact .inl ⟨x', y', z'.trans z⟩
      · exact .inr ⟨x', y'.trans z⟩
    · exact .inr ⟨h'.owned x, by rw [(h'.other (by rw [x]; decide)).1, y]⟩

theorem Keeps.write (d : Dense S) (l : List S) (hl : l.length = d.data.length) : Keeps d (d.writeSlice l) := by
  obtain ⟨m, a, b⟩ := d
  constructor <;> intro h <;> cases m <;> simp_all [Dense.writeSlice, Dense.makeMut]

theorem Keeps.makeMut (d : Dense S) : Keeps d d.makeMut := by
  obtain ⟨m, a, b⟩ := d
  constructor <;> intro h <;> cases m <;> simp_all [Dense.makeMut]

theorem Keeps.resize (d : Dense S) (n : Nat) : Keeps d (Dense.resize C d n) := by
  obtain ⟨m, a, b⟩ := d
  constructor <;> intro h <;> cases m <;> simp_all [Dense.resize]

theorem Keeps.clear {d r : Dense S} (h : Dense.clear C d = .ok r) : Keeps d r := by
  obtain ⟨m, a, b⟩ := d
  cases m
  · cases h; constructor <;> simp
  · cases h; constructor <;> simp
  · cases h; exact .write _ _ (by simp)

theorem Keeps.add {d o r : Dense S} (h : Dense.addInplace C d o = .ok r) : Keeps d r := by
  unfold Dense.addInplace at h
  dsimp only at h
  injection h with h
  subst h
  refine (Keeps.makeMut d).trans ?_
  split
  · exact (Keeps.resize C _ _).trans (.write _ _ (Dense.zipInto_length _ _ _))
  · exact .write _ _ (Dense.zipInto_length _ _ _)

theorem Keeps.sub {d o r : Dense S} (h : Dense.subInplace C d o = .ok r) : Keeps d r := by
  unfold Dense.subInplace at h
  dsimp only at h
  injection h with h
  subst h
  split
  · exact (Keeps.resize C _ _).trans (.write _ _ (Dense.zipInto_length _ _ _))
  · exact .write _ _ (Dense.zipInto_length _ _ _)

theorem Keeps.getMut {K : Type} (B : Basis K) {d : Dense S} {k : K} {f : S → S} {x : Bool × Dense S} (h : Dense.getMut B d k f = .ok x) : Keeps d x.2 := by
  unfold Dense.getMut at h
  obtain ⟨i, _, h⟩ := bind_inv h
  split_ifs at h
  · cases h; exact .write _ _ (by simp)
  · cases h; exact .makeMut d

theorem mulIntoBuffer_keeps {o l r o' : List S} {f : S → S} (h : mulIntoBuffer C o l r f = .ok o') : o'.length = o.length := by
  by_cases hl : l.length * r.length ≤ o.length
  · unfold mulIntoBuffer at h
    obtain ⟨st, h1, h2⟩ := bind_inv h
    cases h2
    refine foldlM_keep (fun st : List S × Nat => st.1.length = o.length) _ (fun st a st' hs ha => ?_) _ _ _ rfl h1
    refine foldlM_keep (fun st : List S × Nat => st.1.length = o.length) _ (fun st b st' hs hb => ?_) _ _ _ hs ha
    unfold bufStep at hb
    obtain ⟨u, hu, hb⟩ := bind_inv hb
    cases hb
    unfold modifyUnchecked at hu
    split_ifs at hu
    cases hu
    simpa using hs
  · rw [mulIntoBuffer_ub C f o l r (by omega)] at h
    cases h

/-- The product stored into a vector keeps to its storage rules. -/
theorem Keeps.product {s a b r : Dense S} {f : S → S} {D : Option Nat} (h : mulAddInto C p N s a b f D = .ok r) : Keeps s r := by
  unfold mulAddInto at h
  obtain ⟨da, _, h⟩ := bind_inv h
  obtain ⟨db, _, h⟩ := bind_inv h
  obtain ⟨m, _, h⟩ := bind_inv h
  obtain ⟨s1, hg, h⟩ := bind_inv h
  have h1 : Keeps s s1 := by
    unfold growTo at hg
    obtain ⟨sd, _, hg⟩ := bind_inv hg
    split_ifs at hg
    · obtain ⟨d, _, hg⟩ := bind_inv hg
      obtain ⟨n, _, hg⟩ := bind_inv hg
      cases hg
      exact .resize C s n
    · cases hg
      exact .refl s
  refine foldlM_keep (fun v : Dense S => Keeps s v) _ (fun v o v' hv hd => ?_) _ _ _ h1 h
  rw [mulAddDegree_eq] at hd
  refine foldlM_keep (fun v : Dense S => Keeps s v) _ (fun v k v' hv hk => ?_) _ _ _ hv hd
  unfold mulAddStep at hk
  obtain ⟨_, _, hk⟩ := bind_inv hk
  obtain ⟨ro, _, hk⟩ := bind_inv hk
  obtain ⟨o1, ho, hk⟩ := bind_inv hk
  obtain ⟨_, _, hk⟩ := bind_inv hk
  obtain ⟨_, _, hk⟩ := bind_inv hk
  obtain ⟨_, _, hk⟩ := bind_inv hk
  obtain ⟨_, _, hk⟩ := bind_inv hk
  obtain ⟨o2, hb, hk⟩ := bind_inv hk
  cases hk
  refine (hv.trans (.makeMut v)).trans (.write _ _ ?_)
  have hlen := mulIntoBuffer_keeps C hb
  unfold sliceUnchecked at ho
  split_ifs at ho with hc
  cases ho
  refine replaceRange_length _ _ _ hc.1 hc.2 ?_
  rw [hlen, List.length_drop, List.length_take, Nat.min_eq_left hc.2]

/-- What a statement does to the registers: it works on one vector, or stores a new owned vector, or exchanges two. -/
theorem stmt_effect {σ τ : Nat → Dense S} {st : PStmt S R} (h : runStmt C p N σ st = .ok τ) :
    (∃ r, τ = setReg σ st.dest r ∧ Keeps (σ st.dest) r ∧ ∀ tag : Nat → Option ι, st.retag tag = tag) ∨
    (∃ r, τ = setReg σ st.dest r ∧ r.mode = .owned ∧ ∀ tag : Nat → Option ι, st.retag tag = setReg tag st.dest none) ∨
    ∃ j, τ = setReg (setReg σ st.dest (σ j)) j (σ st.dest) ∧
      ∀ tag : Nat → Option ι, st.retag tag = setReg (setReg tag st.dest (tag j)) j (tag st.dest) := by
  have own : ∀ {v : Dense S} (l : List S), v.mode = .owned → (v.writeSlice l).mode = .owned := by
    intro v l hv
    obtain ⟨m, a, b⟩ := v
    cases hv
    rfl
  cases st with
  | zero i => cases h; exact .inr (.inl ⟨_, rfl, rfl, fun _ => rfl⟩)
  | word i w s =>
    obtain ⟨k, _, h⟩ := bind_inv h
    obtain ⟨v, hv, h⟩ := bind_inv h
    cases h
    refine .inr (.inl ⟨v, rfl, ?_, fun _ => rfl⟩)
    change Dense.fromKeyScalar C (tensorBasis p N) k s = .ok v at hv
    unfold Dense.fromKeyScalar at hv
    obtain ⟨_, _, hv⟩ := bind_inv hv
    obtain ⟨_, _, hv⟩ := bind_inv hv
    obtain ⟨_, _, hv⟩ := bind_inv hv
    cases hv
    exact own _ rfl
  | terms i l =>
    obtain ⟨k, _, h⟩ := bind_inv h
    obtain ⟨v, hv, h⟩ := bind_inv h
    cases h
    refine .inr (.inl ⟨v, rfl, ?_, fun _ => rfl⟩)
    change Dense.fromIterator C (tensorBasis p N) k = .ok v at hv
    unfold Dense.fromIterator at hv
    obtain ⟨vec, _, hv⟩ := bind_inv hv
    split at hv
    · cases hv; rfl
    · obtain ⟨_, _, hv⟩ := bind_inv hv
      refine foldlM_keep (fun v : Dense S => v.mode = .owned) _ (fun v e v' hm hs => ?_) _ _ _ rfl hv
      unfold Dense.fromIteratorStep at hs
      obtain ⟨_, _, hs⟩ := bind_inv hs
      cases hs
      exact own _ hm
  | copy i j => cases h; exact .inr (.inl ⟨_, rfl, rfl, fun _ => rfl⟩)
  | swap i j => cases h; exact .inr (.inr ⟨j, rfl, fun _ => rfl⟩)
  | clear i =>
    obtain ⟨v, hv, h⟩ := bind_inv h
    cases h
    exact .inl ⟨v, rfl, .clear C hv, fun _ => rfl⟩
  | modify i w f =>
    obtain ⟨k, _, h⟩ := bind_inv h
    obtain ⟨v, hv, h⟩ := bind_inv h
    cases h
    exact .inl ⟨v.2, rfl, .getMut _ hv, fun _ => rfl⟩
  | erase i w =>
    obtain ⟨k, _, h⟩ := bind_inv h
    obtain ⟨v, hv, h⟩ := bind_inv h
    cases h
    obtain ⟨x, hx, hv⟩ := bind_inv (hv : (Dense.getMut (tensorBasis p N) (σ i) k (fun _ => C.zero) >>= fun r => pure r.2) = .ok v)
    cases hv
    exact .inl ⟨_, rfl, .getMut _ hx, fun _ => rfl⟩
  | neg i => cases h; exact .inl ⟨_, rfl, .write _ _ (List.length_map _), fun _ => rfl⟩
  | add i j =>
    obtain ⟨v, hv, h⟩ := bind_inv h
    cases h
    exact .inl ⟨v, rfl, .add C hv, fun _ => rfl⟩
  | sub i j =>
    obtain ⟨v, hv, h⟩ := bind_inv h
    cases h
    exact .inl ⟨v, rfl, .sub C hv, fun _ => rfl⟩
  | scale i s => cases h; exact .inl ⟨_, rfl, .write _ _ (List.length_map _), fun _ => rfl⟩
  | div i r => cases h; exact .inl ⟨_, rfl, .write _ _ (List.length_map _), fun _ => rfl⟩
  | mul i j k D =>
    obtain ⟨v, hv, h⟩ := bind_inv h
    cases h
    exact .inr (.inl ⟨v, rfl, (Keeps.product C p N hv).owned rfl, fun _ => rfl⟩)
  | comm i j k D =>
    obtain ⟨v, hv, h⟩ := bind_inv h
    cases h
    obtain ⟨u, hu, hv⟩ := bind_inv (hv : (mulAddInto C p N Dense.new (σ j) (σ k) id (some D) >>= fun u =>
      mulAddInto C p N u (σ k) (σ j) C.uminus (some D)) = .ok v)
    exact .inr (.inl ⟨v, rfl, (Keeps.product C p N hv).owned ((Keeps.product C p N hu).owned rfl), fun _ => rfl⟩)
  | addMul i j k D =>
    obtain ⟨v, hv, h⟩ := bind_inv h
    cases h
    exact .inl ⟨v, rfl, .product C p N hv, fun _ => rfl⟩
  | subMul i j k D =>
    obtain ⟨v, hv, h⟩ := bind_inv h
    cases h
    exact .inl ⟨v, rfl, .product C p N hv, fun _ => rfl⟩

/-- A change of the registers, with the memory of the caller: work on one vector, storing a new owned vector, or exchanging two. -/
theorem mem_effect [DecidableEq ι] {m : Memory ι S} (hm : m.Lawful) {i : Nat} {τ : Nat → Dense S} {tag' : Nat → Option ι}
    (h : (∃ r, τ = setReg m.reg i r ∧ Keeps (m.reg i) r ∧ tag' = m.tag) ∨ (∃ r, τ = setReg m.reg i r ∧ r.mode = .owned ∧ tag' = setReg m.tag i none) ∨
      ∃ j, τ = setReg (setReg m.reg i (m.reg j)) j (m.reg i) ∧ tag' = setReg (setReg m.tag i (m.tag j)) j (m.tag i))
    {m' : Memory ι S} (hm' : m' = ⟨τ, tag', fun b => if tag' i = some b then (τ i).lent else m.buf b⟩) :
    m'.Lawful ∧ (∀ b, (m'.buf b).length = (m.buf b).length) ∧ ∀ b, ¬ m.Exclusive b → m'.buf b = m.buf b ∧ ¬ m'.Exclusive b := by
  subst hm'
  obtain ⟨reg, tag, buf⟩ := m
  obtain ⟨h1, h2, h3⟩ := hm
  dsimp only at h1 h2 h3 h
  rcases h with ⟨r, rfl, hk, ht⟩ | ⟨r, rfl, hr, rfl⟩ | ⟨j, rfl, rfl⟩
  · have ht' := ht.symm
    subst ht'
    have hlent : ∀ b, tag i = some b → (reg i).mode ≠ .borrowedMut → r.lent = buf b := fun b hb hmo => (hk.other hmo).1.trans (h1 i b hb)
    have hshow : ∀ b, tag i = some b → (reg i).mode = .borrowedMut → (reg i).data = (reg i).lent := by
      intro b hb hmo
      obtain ⟨b', hb', hd⟩ := h2 i (by rw [hmo]; decide)
      rw [hd, h1 i b' hb']
    have hother : ∀ j b, j ≠ i → tag j = some b → (if tag i = some b then r.lent else buf b) = buf b := by
      intro j b hj hb
      split_ifs with hi
      · exact hlent b hi fun hmo => h3 i j b (Ne.symm hj) hmo hi hb
      · rfl
    have hback : r.mode = .borrowedMut → (reg i).mode = .borrowedMut := fun hr => by
      by_contra hc
      exact (hk.other hc).2 hr
    simp only [setReg, if_true]
    refine ⟨⟨fun j b hb => ?_, fun j hj => ?_, fun j k b hjk hj hb => ?_⟩, fun b => ?_, fun b hb => ⟨?_, fun hc => ?_⟩⟩
    · dsimp only [setReg] at hb ⊢
      by_cases hji : j = i
      · subst hji
        rw [if_pos rfl, if_pos hb]
      · rw [if_neg hji, hother j b hji hb, h1 j b hb]
    · dsimp only [setReg] at hj ⊢
      by_cases hji : j = i
      · subst hji
        rw [if_pos rfl] at hj
        have hne : (reg j).mode ≠ .owned := fun hc => hj (hk.owned hc)
        obtain ⟨b, hb, hd⟩ := h2 j hne
        refine ⟨b, hb, ?_⟩
        rw [if_pos rfl, if_pos hb]
        cases hmo : (reg j).mode with
        | owned => exact absurd hmo hne
        | borrowed =>
          have hx := hk.other (by rw [hmo]; decide)
          have hrm : r.mode = .borrowed := by
            cases hrm : r.mode with
            | owned => exact absurd hrm hj
            | borrowed => rfl
            | borrowedMut => exact absurd hrm hx.2
          rw [hk.shared hmo hrm, hd, hx.1, h1 j b hb]
        | borrowedMut =>
          rcases hk.excl hmo (hshow b hb hmo) with ⟨_, y, _⟩ | ⟨x, _⟩
          · exact y
          · exact absurd x hj
      · rw [if_neg hji] at hj ⊢
        obtain ⟨b, hb, hd⟩ := h2 j hj
        exact ⟨b, hb, by rw [hother j b hji hb, hd]⟩
    · dsimp only [setReg] at hj hb ⊢
      by_cases hji : j = i
      · subst hji
        rw [if_pos rfl] at hj
        exact h3 j k b hjk (hback hj) hb
      · rw [if_neg hji] at hj
        exact h3 j k b hjk hj hb
    · split_ifs with hb
      · rw [← h1 i b hb]
        by_cases hmo : (reg i).mode = .borrowedMut
        · rcases hk.excl hmo (hshow b hb hmo) with ⟨_, _, z⟩ | ⟨_, z⟩ <;> exact z
        · rw [(hk.other hmo).1]
      · rfl
    · split_ifs with hi
      · exact hlent b hi fun hmo => hb ⟨i, hmo, hi⟩
      · rfl
    · obtain ⟨j, hj, hjb⟩ := hc
      dsimp only [setReg] at hj hjb
      by_cases hji : j = i
      · subst hji
        rw [if_pos rfl] at hj
        exact hb ⟨j, hback hj, hjb⟩
      · rw [if_neg hji] at hj
        exact hb ⟨j, hj, hjb⟩
  · simp only [setReg, if_true]
    refine ⟨⟨fun j b hb => ?_, fun j hj => ?_, fun j k b hjk hj hb => ?_⟩, fun b => by simp, fun b hb => ⟨by simp, fun hc => ?_⟩⟩
    · dsimp only [setReg] at hb ⊢
      by_cases hji : j = i
      · simp [hji] at hb
      · rw [if_neg hji] at hb
        simp [hji, h1 j b hb]
    · dsimp only [setReg] at hj ⊢
      by_cases hji : j = i
      · rw [if_pos hji] at hj
        exact absurd hr hj
      · rw [if_neg hji] at hj
        obtain ⟨b, hb, hd⟩ := h2 j hj
        exact ⟨b, by simp [hji, hb], by simp [hji, hd]⟩
    · dsimp only [setReg] at hj hb ⊢
      by_cases hji : j = i
      · simp [hji] at hb
      · rw [if_neg hji] at hj hb
        by_cases hki : k = i
        · simp [hki]
        · rw [if_neg hki]
          exact h3 j k b hjk hj hb
    · obtain ⟨j, hj, hjb⟩ := hc
      dsimp only [setReg] at hj hjb
      by_cases hji : j = i
      · simp [hji] at hjb
      · rw [if_neg hji] at hj hjb
        exact hb ⟨j, hj, hjb⟩
  · simp only [setReg, if_true]
    have hbuf : ∀ b, (if (if i = j then tag i else tag j) = some b then (if i = j then reg i else reg j).lent else buf b) = buf b := by
      intro b
      by_cases hij : i = j
      · simp only [if_pos hij]
        split_ifs with hb
        · exact h1 _ _ hb
        · rfl
      · simp only [if_neg hij]
        split_ifs with hb
        · exact h1 _ _ hb
        · rfl
    have hreg : ∀ k, (if k = j then reg i else if k = i then reg j else reg k) = reg (if k = j then i else if k = i then j else k) := by
      intro k; split_ifs <;> rfl
    have htag : ∀ k, (if k = j then tag i else if k = i then tag j else tag k) = tag (if k = j then i else if k = i then j else k) := by
      intro k; split_ifs <;> rfl
    have hinj : ∀ k l, k ≠ l → (if k = j then i else if k = i then j else k) ≠ (if l = j then i else if l = i then j else l) := by
      intro k l hkl
      split_ifs <;> omega
    refine ⟨⟨fun k b hb => ?_, fun k hk => ?_, fun k l b hkl hk hb => ?_⟩, fun b => by rw [hbuf], fun b hb => ⟨hbuf b, fun hc => ?_⟩⟩
    · dsimp only [setReg] at hb ⊢
      rw [htag] at hb
      rw [hbuf, hreg]
      exact h1 _ _ hb
    · dsimp only [setReg] at hk ⊢
      rw [hreg] at hk
      obtain ⟨b, hb, hd⟩ := h2 _ hk
      exact ⟨b, by rw [htag]; exact hb, by rw [hbuf, hreg]; exact hd⟩
    · dsimp only [setReg] at hk hb ⊢
      rw [hreg] at hk
      rw [htag] at hb ⊢
      exact h3 _ _ b (hinj k l hkl) hk hb
    · obtain ⟨k, hk, hkb⟩ := hc
      dsimp only [setReg] at hk hkb
      rw [hreg] at hk
      rw [htag] at hkb
      exact hb ⟨_, hk, hkb⟩

/-- One statement with the memory of the caller. -/
theorem mem_step [DecidableEq ι] {m m' : Memory ι S} {st : PStmt S R} (hm : m.Lawful) (h : runMemStmt C p N m st = .ok m') :
    m'.Lawful ∧ (∀ b, (m'.buf b).length = (m.buf b).length) ∧ ∀ b, ¬ m.Exclusive b → m'.buf b = m.buf b ∧ ¬ m'.Exclusive b := by
  obtain ⟨τ, hτ, h⟩ := bind_inv h
  cases h
  refine mem_effect hm ?_ rfl
  rcases stmt_effect (ι := ι) C p N hτ with ⟨r, h1, hk, ht⟩ | ⟨r, h1, hr, ht⟩ | ⟨j, h1, ht⟩
  · exact .inl ⟨r, h1, hk, ht _⟩
  · exact .inr (.inl ⟨r, h1, hr, ht _⟩)
  · exact .inr (.inr ⟨j, h1, ht _⟩)

/-- C114.  Whatever a program does (products and `clear` included) with vectors of its own and views of the caller's buffers, and whatever the coefficients:
when it returns, no buffer has changed its length, and a buffer that was not lent exclusively has not changed at all.  Every register that is still a view
shows the content of its buffer, and no vector shares a buffer with an exclusive view. -/
theorem C114_memory [DecidableEq ι] (prog : List (PStmt S R)) (m m' : Memory ι S) (hm : m.Lawful) (h : runMem C p N m prog = .ok m') :
    m'.Lawful ∧ (∀ b, (m'.buf b).length = (m.buf b).length) ∧ ∀ b, ¬ m.Exclusive b → m'.buf b = m.buf b := by
  unfold runMem at h
  have key := foldlM_keep (fun x : Memory ι S => x.Lawful ∧ (∀ b, (x.buf b).length = (m.buf b).length) ∧
    ∀ b, ¬ m.Exclusive b → x.buf b = m.buf b ∧ ¬ x.Exclusive b) _ (fun x st x' hx hs => ?_) prog m m' ⟨hm, fun _ => rfl, fun _ hb => ⟨rfl, hb⟩⟩ h
  · exact ⟨key.1, key.2.1, fun b hb => (key.2.2 b hb).1⟩
  · obtain ⟨a, b, c⟩ := mem_step C p N hx.1 hs
    exact ⟨a, fun i => (b i).trans (hx.2.1 i), fun i hi => ⟨(c i (hx.2.2 i hi).2).1.trans (hx.2.2 i hi).1, (c i (hx.2.2 i hi).2).2⟩⟩

theorem runMem_reg [DecidableEq ι] (prog : List (PStmt S R)) (m : Memory ι S) :
    Memory.reg <$> runMem C p N m prog = prog.foldlM (runStmt C p N) m.reg := by
  unfold runMem
  induction prog generalizing m with
  | nil => rfl
  | cons st l ih =>
    rw [List.foldlM_cons, List.foldlM_cons]
    unfold runMemStmt
    cases hs : runStmt C p N m.reg st with
    | ok τ => exact ih _
    | panic | ub | diverge => rfl

/-- C114.  The buffer of a register that is still an exclusive view at the end holds what the same program computes, without `clear`, when every register
is an owned copy of what it showed at the start. -/
theorem C114_in_place [DecidableEq ι] (prog : List (PStmt S R)) (hp : ∀ i, .clear i ∉ prog) (m m' : Memory ι S) (hm : m.Lawful)
    (h : runMem C p N m prog = .ok m') : ∃ τ, prog.foldlM (runStmt C p N) (fun i => .ofVec (m.reg i).data) = .ok τ ∧
      ∀ i b, (m'.reg i).mode ≠ .owned → m'.tag i = some b → m'.buf b = (τ i).data := by
  have h1 := runMem_reg C p N prog m
  rw [h] at h1
  have h2 := C114_same C p N prog hp m.reg (fun i => .ofVec (m.reg i).data) fun _ => rfl
  rw [← h1] at h2
  cases h3 : prog.foldlM (runStmt C p N) (fun i => .ofVec (m.reg i).data) with
  | ok τ =>
    rw [h3] at h2
    refine ⟨τ, rfl, fun i b hi hb => ?_⟩
    obtain ⟨b', hb', hd⟩ := (C114_memory C p N prog m m' hm h).1.view i hi
    rw [hb] at hb'
    cases hb'
    rw [← hd]
    exact h2 i
  | panic | ub | diverge => rw [h3] at h2; exact h2.elim

/-- The statement does not give register `i` another vector and, if it works on register `i`, does not need more entries than there are. -/
def FitsReg (i : Nat) (σ : Nat → Dense S) : PStmt S R → Prop
  | .zero k | .word k _ _ | .terms k _ | .copy k _ | .mul k _ _ _ | .comm k _ _ _ => k ≠ i
  | .swap j k => j ≠ i ∧ k ≠ i
  | .add k j | .sub k j => k = i → (σ j).size ≤ (σ i).size
  | .addMul k a b D | .subMul k a b D => k = i → ∀ da db di, Dense.degree (tensorBasis p N) (σ a) = .ok da →
      Dense.degree (tensorBasis p N) (σ b) = .ok db → Dense.degree (tensorBasis p N) (σ i) = .ok di → min D (da + db) ≤ di
  | _ => True

/-- Every statement fits when its turn comes. -/
def FitsAll (i : Nat) : List (PStmt S R) → (Nat → Dense S) → Prop
  | [], _ => True
  | st :: l, σ => FitsReg p N i σ st ∧ ∀ τ, runStmt C p N σ st = .ok τ → FitsAll i l τ

theorem product_stays {s a b r : Dense S} {f : S → S} {D : Nat} (hs : s.mode = .borrowedMut)
    (hd : ∀ da db di, Dense.degree (tensorBasis p N) a = .ok da → Dense.degree (tensorBasis p N) b = .ok db →
      Dense.degree (tensorBasis p N) s = .ok di → min D (da + db) ≤ di)
    (h : mulAddInto C p N s a b f (some D) = .ok r) : r.mode = .borrowedMut := by
  unfold mulAddInto at h
  obtain ⟨da, hda, h⟩ := bind_inv h
  obtain ⟨db, hdb, h⟩ := bind_inv h
  obtain ⟨m, hm, h⟩ := bind_inv h
  obtain ⟨s1, hg, h⟩ := bind_inv h
  have h1 : s1.mode = .borrowedMut := by
    unfold growTo at hg
    obtain ⟨sd, hsd, hg⟩ := bind_inv hg
    obtain ⟨t, ht, hm⟩ := bind_inv (hm : (addW p 32 da db >>= fun t => pure (min D t)) = .ok m)
    have htle : t ≤ da + db := by
      unfold addW fitW at ht
      cases p <;> simp only at ht <;> split_ifs at ht <;> cases ht <;> first | exact Nat.le_refl _ | exact Nat.mod_le _ _
    cases hm
    have := hd da db sd hda hdb hsd
    rw [if_neg (by omega)] at hg
    cases hg
    exact hs
  refine foldlM_keep (fun v : Dense S => v.mode = .borrowedMut) _ (fun v o v' hv hd => ?_) _ _ _ h1 h
  rw [mulAddDegree_eq] at hd
  refine foldlM_keep (fun v : Dense S => v.mode = .borrowedMut) _ (fun v k v' hv hk => ?_) _ _ _ hv hd
  unfold mulAddStep at hk
  obtain ⟨_, _, hk⟩ := bind_inv hk
  obtain ⟨_, _, hk⟩ := bind_inv hk
  obtain ⟨_, _, hk⟩ := bind_inv hk
  obtain ⟨_, _, hk⟩ := bind_inv hk
  obtain ⟨_, _, hk⟩ := bind_inv hk
  obtain ⟨_, _, hk⟩ := bind_inv hk
  obtain ⟨_, _, hk⟩ := bind_inv hk
  obtain ⟨_, _, hk⟩ := bind_inv hk
  cases hk
  rw [SameData.write_mode, SameData.makeMut_mode]
  exact hv

theorem stmt_stays (i : Nat) {σ τ : Nat → Dense S} {st : PStmt S R} (hf : FitsReg p N i σ st) (hm : (σ i).mode = .borrowedMut)
    (h : runStmt C p N σ st = .ok τ) : (τ i).mode = .borrowedMut ∧ ∀ tag : Nat → Option ι, st.retag tag i = tag i := by
  have away : ∀ {k : Nat} (v : Dense S), k ≠ i → (setReg σ k v i).mode = .borrowedMut := fun v hk => by
    unfold setReg; rw [if_neg (Ne.symm hk)]; exact hm
  have tagAway : ∀ {k : Nat} (tag : Nat → Option ι) (t : Option ι), k ≠ i → setReg tag k t i = tag i := fun tag t hk => by
    unfold setReg; rw [if_neg (Ne.symm hk)]
  have work : ∀ (k : Nat) (v : Dense S), (k = i → v.mode = .borrowedMut) → (setReg σ k v i).mode = .borrowedMut := fun k v hv => by
    by_cases hk : k = i
    · subst hk; unfold setReg; rw [if_pos rfl]; exact hv rfl
    · exact away v hk
  have wr : ∀ (k : Nat) (l : List S), k = i → ((σ k).writeSlice l).mode = .borrowedMut := fun k l hk => by
    rw [SameData.write_mode, hk]; exact hm
  cases st with
  | zero k => cases h; exact ⟨away _ hf, fun t => tagAway t _ hf⟩
  | word k w s =>
    obtain ⟨_, _, h⟩ := bind_inv h
    obtain ⟨v, hv, h⟩ := bind_inv h
    cases h
    exact ⟨away _ hf, fun t => tagAway t _ hf⟩
  | terms k l =>
    obtain ⟨_, _, h⟩ := bind_inv h
    obtain ⟨v, hv, h⟩ := bind_inv h
    cases h
    exact ⟨away _ hf, fun t => tagAway t _ hf⟩
  | copy k j => cases h; exact ⟨away _ hf, fun t => tagAway t _ hf⟩
  | swap j k =>
    cases h
    constructor
    · simp only [setReg, if_neg (Ne.symm hf.1), if_neg (Ne.symm hf.2)]; exact hm
    · intro t; simp only [Spec.PStmt.retag, setReg, if_neg (Ne.symm hf.1), if_neg (Ne.symm hf.2)]
  | clear k =>
    obtain ⟨v, hv, h⟩ := bind_inv h
    cases h
    refine ⟨work k v fun hk => ?_, fun _ => rfl⟩
    subst hk
    change Dense.clear C (σ k) = .ok v at hv
    unfold Dense.clear at hv
    rw [hm] at hv
    cases hv
    exact wr _ _ rfl
  | modify k w f =>
    obtain ⟨_, _, h⟩ := bind_inv h
    obtain ⟨v, hv, h⟩ := bind_inv h
    cases h
    exact ⟨work k _ fun hk => (storage_getMut _ _ _ _ _ hv).2 (by rw [hk]; exact hm), fun _ => rfl⟩
  | erase k w =>
    obtain ⟨key, _, h⟩ := bind_inv h
    obtain ⟨v, hv, h⟩ := bind_inv h
    cases h
    obtain ⟨x, hx, hv⟩ := bind_inv (hv : (Dense.getMut (tensorBasis p N) (σ k) key (fun _ => C.zero) >>= fun r => pure r.2) = .ok v)
    cases hv
    exact ⟨work k _ fun hk => (storage_getMut _ _ _ _ _ hx).2 (by rw [hk]; exact hm), fun _ => rfl⟩
  | neg k => cases h; exact ⟨work k _ (wr k _), fun _ => rfl⟩
  | add k j =>
    obtain ⟨v, hv, h⟩ := bind_inv h
    cases h
    exact ⟨work k _ fun hk => (storage_add C _ _ _ hv).2 (by rw [hk]; exact hf hk) (by rw [hk]; exact hm), fun _ => rfl⟩
  | sub k j =>
    obtain ⟨v, hv, h⟩ := bind_inv h
    cases h
    exact ⟨work k _ fun hk => (storage_sub C _ _ _ hv).2 (by rw [hk]; exact hf hk) (by rw [hk]; exact hm), fun _ => rfl⟩
  | scale k s => cases h; exact ⟨work k _ (wr k _), fun _ => rfl⟩
  | div k r => cases h; exact ⟨work k _ (wr k _), fun _ => rfl⟩
  | mul k a b D =>
    obtain ⟨v, hv, h⟩ := bind_inv h
    cases h
    exact ⟨away _ hf, fun t => tagAway t _ hf⟩
  | comm k a b D =>
    obtain ⟨v, hv, h⟩ := bind_inv h
    cases h
    exact ⟨away _ hf, fun t => tagAway t _ hf⟩
  | addMul k a b D =>
    obtain ⟨v, hv, h⟩ := bind_inv h
    cases h
    refine ⟨work k _ fun hk => ?_, fun _ => rfl⟩
    subst hk
    exact product_stays C p N hm (hf rfl) hv
  | subMul k a b D =>
    obtain ⟨v, hv, h⟩ := bind_inv h
    cases h
    refine ⟨work k _ fun hk => ?_, fun _ => rfl⟩
    subst hk
    exact product_stays C p N hm (hf rfl) hv

/-- C114.  An exclusive view stays on its buffer as long as the program does not give the register another vector and nothing stored into it needs more
entries than the buffer has; the buffer then holds, without `clear`, what the program computes on owned copies. -/
theorem C114_stays [DecidableEq ι] (prog : List (PStmt S R)) (m m' : Memory ι S) (hm : m.Lawful) (i : Nat) (b : ι) (hi : (m.reg i).mode = .borrowedMut)
    (hb : m.tag i = some b) (hf : FitsAll C p N i prog m.reg) (h : runMem C p N m prog = .ok m') :
    (m'.reg i).mode = .borrowedMut ∧ m'.tag i = some b ∧ m'.buf b = (m'.reg i).data ∧
    ((∀ j, .clear j ∉ prog) → ∃ τ, prog.foldlM (runStmt C p N) (fun j => .ofVec (m.reg j).data) = .ok τ ∧ m'.buf b = (τ i).data) := by
  have key : (m'.reg i).mode = .borrowedMut ∧ m'.tag i = some b := by
    clear hm
    unfold runMem at h
    induction prog generalizing m with
    | nil => cases h; exact ⟨hi, hb⟩
    | cons st l ih =>
      rw [List.foldlM_cons] at h
      obtain ⟨m1, h1, h⟩ := bind_inv h
      obtain ⟨τ, hτ, h1⟩ := bind_inv h1
      cases h1
      have := stmt_stays (ι := ι) C p N i hf.1 hi hτ
      exact ih _ this.1 ((this.2 m.tag).trans hb) (hf.2 τ hτ) h
  have hne : (m'.reg i).mode ≠ .owned := by rw [key.1]; decide
  refine ⟨key.1, key.2, ?_, fun hp => ?_⟩
  · obtain ⟨b', hb', hd⟩ := (C114_memory C p N prog m m' hm h).1.view i hne
    rw [key.2] at hb'
    cases hb'
    exact hd.symm
  · obtain ⟨τ, h1, h2⟩ := C114_in_place C p N prog hp m m' hm h
    exact ⟨τ, h1, h2 i b hne key.2⟩

end memory

/-- A caller with two buffers, `true` (lent exclusively to register 0) and `false` (lent as shared to register 1). -/
def viewMemory : Memory Bool Int where
  reg := viewRegs
  tag := fun i => if i = 0 then some true else if i = 1 then some false else none
  buf := fun b => if b then [1, 0, 0, 0, 0, 0, 0] else [2, 1, 3]

theorem viewMemory_lawful : viewMemory.Lawful := by
  refine ⟨fun i b h => ?_, fun i h => ?_, fun i j b hij h hb => ?_⟩
  · by_cases h0 : i = 0
    · subst h0; cases h; rfl
    · by_cases h1 : i = 1
      · subst h1; cases h; rfl
      · simp [viewMemory, h0, h1] at h
  · by_cases h0 : i = 0
    · subst h0; exact ⟨true, rfl, rfl⟩
    · by_cases h1 : i = 1
      · subst h1; exact ⟨false, rfl, rfl⟩
      · simp [viewMemory, viewRegs, h0, h1, Dense.new, Dense.ofVec] at h
  · have h0 : i = 0 := by
      by_contra h0
      by_cases h1 : i = 1
      · subst h1; cases h
      · simp [viewMemory, viewRegs, h0, h1, Dense.new, Dense.ofVec] at h
    subst h0
    cases hb
    by_cases h1 : j = 1 <;> simp [viewMemory, h1, Ne.symm hij]

/-- The two buffers after a run. -/
def showBufs (x : Res (Memory Bool Int)) : Res (List Int × List Int) := (fun m => (m.buf true, m.buf false)) <$> x

example : showBufs (runMem intCoeff .debug 2 viewMemory viewProg) = .ok ([-5, -4, -12, -1, -3, -3, -9], [2, 1, 3]) := by decide +kernel

/-- Growing past the buffer detaches the vector: the buffer keeps what it held then. -/
example : showBufs (runMem intCoeff .debug 2 viewMemory [.neg 0, .addMul 0 1 1 2, .mul 2 0 1 3, .add 0 2, .clear 0, .neg 1]) =
    .ok ([-5 + 8, 4, 12, 1, 3, 3, 9], [2, 1, 3]) := by decide +kernel

example (m' : Memory Bool Int) (h : runMem intCoeff .debug 2 viewMemory viewProg = .ok m') : m'.buf false = [2, 1, 3] :=
  (C114_memory intCoeff .debug 2 viewProg viewMemory m' viewMemory_lawful h).2.2 false (by
    rintro ⟨i, hm, h⟩
    by_cases h0 : i = 0
    · subst h0; cases h
    · by_cases h1 : i = 1
      · subst h1; cases hm
      · simp [viewMemory, h0, h1] at h)

example (m' : Memory Bool Int) (h : runMem intCoeff .debug 2 viewMemory viewProg = .ok m') :=
  C114_in_place intCoeff .debug 2 viewProg (by intro i; simp [viewProg]) viewMemory m' viewMemory_lawful h

example (m' : Memory Bool Int) (h : runMem intCoeff .debug 2 viewMemory viewProg = .ok m') :=
  C114_stays intCoeff .debug 2 viewProg viewMemory m' viewMemory_lawful 0 true rfl rfl
    ⟨fun _ da db di h1 h2 h3 => by cases h1; cases h2; cases h3; decide, fun _ _ => ⟨trivial, fun _ _ => ⟨Nat.succ_ne_zero 1, fun _ _ => trivial⟩⟩⟩ h

end RA
