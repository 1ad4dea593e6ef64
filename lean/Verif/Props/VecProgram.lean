import Verif.SpecVecProg
import Verif.Props.SparseFloat

/-!
# Programs on dense and on sparse vectors over any basis (C113)
-/

namespace RA
open Spec

section
variable {V K S R : Type} (C : Coeff S R) (T : VecOps V K S R)

/-- A statement, executed with the methods of a vector type. -/
def runVStmt (σ : Nat → V) : VStmt K S R → Res (Nat → V)
  | .zero i => .ok (setReg σ i T.new)
  | .key i k s => do
    let v ← T.fromKeyScalar k s
    return setReg σ i v
  | .terms i items => do
    let v ← T.fromIterator items
    return setReg σ i v
  | .copy i j => do
    let v ← T.toOwned (σ j)
    return setReg σ i v
  | .swap i j => do
    let (x, y) ← T.swap (σ i) (σ j)
    return setReg (setReg σ i x) j y
  | .clear i => do
    let v ← T.clear (σ i)
    return setReg σ i v
  | .modify i k f => do
    let r ← T.getMut (σ i) k f
    return setReg σ i r.2
  | .erase i k => do
    let v ← T.erase (σ i) k
    return setReg σ i v
  | .neg i => do
    let v ← T.uminusInplace (σ i)
    return setReg σ i v
  | .add i j => do
    let v ← T.addInplace (σ i) (σ j)
    return setReg σ i v
  | .sub i j => do
    let v ← T.subInplace (σ i) (σ j)
    return setReg σ i v
  | .scale i s => do
    let v ← T.scalarRmultiplyInplace (σ i) s
    return setReg σ i v
  | .div i r => do
    let v ← T.scalarRdivideInplace (σ i) r
    return setReg σ i v
  | .addScaled i j s => do
    let v ← T.addScalarRmultiply (σ i) (σ j) s
    return setReg σ i v
  | .subScaled i j s => do
    let v ← T.subScalarRmultiply (σ i) (σ j) s
    return setReg σ i v
  | .addDivided i j r => do
    let v ← T.addScalarRdivide (σ i) (σ j) r
    return setReg σ i v
  | .subDivided i j r => do
    let v ← T.subScalarRdivide (σ i) (σ j) r
    return setReg σ i v
  | .addKey i k s => do
    let v ← KeyExt.addScalarMultiply C T (σ i) k s
    return setReg σ i v
  | .subKey i k s => do
    let v ← KeyExt.subScalarMultiply C T (σ i) k s
    return setReg σ i v
  | .put i k s => do
    let v ← T.insertSingle (σ i) k s
    return setReg σ i v

/-- A program, starting with empty registers. -/
def runVProg (prog : List (VStmt K S R)) : Res (Nat → V) := prog.foldlM (runVStmt C T) fun _ => T.new

end

section
variable {K S R : Type} {C : Coeff S R} {B : Basis K} {E : S → S → Prop} {P : K → Prop} {idx : K → Nat}

/-- What a dense vector needs of a basis, for the keys in `P`: an index for every key, different indices for different keys, and dimensions above the indices. -/
structure BasisOn (B : Basis K) (P : K → Prop) (idx : K → Nat) : Prop where
  index : ∀ k, P k → B.keyToIndex k = .ok (idx k)
  inj : ∀ k k', P k → P k' → idx k = idx k' → k = k'
  dimKey : ∀ k, P k → ∃ n, B.dimForKey k = .ok n ∧ idx k < n
  dimIndex : ∀ k, P k → ∃ n, B.dimForIndex (idx k) = .ok n ∧ idx k < n

/-- The statements that dense vectors execute as they say.  `insert_single` and the methods of the extension trait do nothing for a key that is not stored (C23, C31). -/
def OnDense : VStmt K S R → Prop
  | .addKey .. | .subKey .. | .put .. => False
  | _ => True

/-- The statements that sparse vectors execute as they say.  The others call methods that are `todo!()` (C30), and repeated keys in `from_iterator` replace each
other (C29). -/
def OnSparse : VStmt K S R → Prop
  | .copy .. | .swap .. | .erase .. | .addScaled .. | .subScaled .. | .addDivided .. | .subDivided .. => False
  | .terms _ items => (items.map (·.1)).Nodup
  | _ => True

/-- The scalars, divisors and closures of a statement respect the relation. -/
def VRespects (C : Coeff S R) (E : S → S → Prop) : VStmt K S R → Prop
  | .key _ _ s | .addKey _ _ s | .subKey _ _ s | .put _ _ s => E s s
  | .terms _ items => ∀ e ∈ items, E e.2 e.2
  | .modify _ _ f => (∀ x y, E x y → E (f x) (f y)) ∧ E (f C.zero) C.zero
  | .scale _ s | .addScaled _ _ s | .subScaled _ _ s => (∀ x y, E x y → E (C.mul x s) (C.mul y s)) ∧ E (C.mul C.zero s) C.zero
  | .div _ r | .addDivided _ _ r | .subDivided _ _ r => (∀ x y, E x y → E (C.div x r) (C.div y r)) ∧ E (C.div C.zero r) C.zero
  | _ => True

/-- What is multiplied by zero gives zero; `a` is what the registers contain. -/
def ZeroScale (C : Coeff S R) (E : S → S → Prop) (P : K → Prop) (a : Nat → K → S) : VStmt K S R → Prop
  | .scale i s => C.eq s C.zero = true → ∀ k, P k → E (C.mul (a i k) s) C.zero
  | _ => True

/-! ## Dense vectors -/

/-- The dense vector has these coefficients, up to the relation. -/
def DenseHas (C : Coeff S R) (E : S → S → Prop) (P : K → Prop) (idx : K → Nat) (d : Dense S) (a : K → S) : Prop :=
  ∀ k, P k → E (d.data[idx k]?.getD C.zero) (a k)

theorem denseHas_set {σ : Nat → Dense S} {a : Nat → K → S} {d : Dense S} {b : K → S} (h : ∀ i, DenseHas C E P idx (σ i) (a i)) (i : Nat)
    (hd : DenseHas C E P idx d b) : ∀ j, DenseHas C E P idx (setReg σ i d j) (setReg a i b j) := by
  intro j
  unfold setReg
  split_ifs
  · exact hd
  · exact h j

/-- A sum of terms is related to itself. -/
theorem blind_fold (hB : Blind C E) (l : List S) (hl : ∀ x ∈ l, E x x) (z : S) (hz : E z z) : E (l.foldl C.add z) (l.foldl C.add z) := by
  induction l generalizing z with
  | nil => exact hz
  | cons x l ih => exact ih (fun y h => hl y (by simp [h])) _ (hB.add _ _ _ _ hz (hl x (by simp)))

theorem denseHas_combine {f : S → S → S} (hB : Blind C E) (hf : ∀ x x' y y', E x x' → E y y' → E (f x y) (f x' y')) (hf0 : ∀ x y, E x y → E (f x C.zero) y)
    {d o r : Dense S} {a b : K → S} (hr : r.data = Dense.combine C f d.data o.data) (hd : DenseHas C E P idx d a) (ho : DenseHas C E P idx o b) :
    DenseHas C E P idx r fun k => f (a k) (b k) := by
  intro k hk
  have h1 := hd k hk
  have h2 := ho k hk
  rw [hr, Dense.combine_getElem?]
  cases hx : d.data[idx k]? with
  | none =>
    rw [hx] at h1
    cases hy : o.data[idx k]? with
    | none =>
      rw [hy] at h2
      exact hB.symm _ _ (hB.trans _ _ _ (hf _ _ _ _ (hB.symm _ _ h1) (hB.symm _ _ h2)) (hf0 _ _ hB.zero))
    | some y =>
      rw [hy] at h2
      exact hf _ _ _ _ h1 h2
  | some x =>
    rw [hx] at h1
    cases hy : o.data[idx k]? with
    | none =>
      rw [hy] at h2
      exact hB.symm _ _ (hB.trans _ _ _ (hf _ _ _ _ (hB.symm _ _ h1) (hB.symm _ _ h2)) (hf0 _ _ (hB.trans _ _ _ h1 (hB.symm _ _ h1))))
    | some y =>
      rw [hy] at h2
      exact hf _ _ _ _ h1 h2

theorem denseHas_map {g : S → S} (hB : Blind C E) (hg : ∀ x y, E x y → E (g x) (g y)) (hg0 : E (g C.zero) C.zero) {d r : Dense S} {a : K → S}
    (hr : r.data = d.data.map g) (hd : DenseHas C E P idx d a) : DenseHas C E P idx r fun k => g (a k) := by
  intro k hk
  have h1 := hd k hk
  rw [hr, List.getElem?_map]
  cases hx : d.data[idx k]? with
  | none =>
    rw [hx] at h1
    exact hB.trans _ _ _ (hB.symm _ _ hg0) (hg _ _ h1)
  | some x =>
    rw [hx] at h1
    exact hg _ _ h1

theorem denseHas_getMut [DecidableEq K] (hb : BasisOn B P idx) {d : Dense S} {a : K → S} (hd : DenseHas C E P idx d a) (k : K) (hk : P k) (f g : S → S)
    (hf : ∀ x y, E x y → E (f x) (g y)) (h0 : ∀ y, E C.zero y → E C.zero (g y)) :
    ∃ r, Dense.getMut B d k f = .ok r ∧ DenseHas C E P idx r.2 fun u => if u = k then g (a u) else a u := by
  have hgo : ∀ l : List S, (∀ u, P u → l[idx u]? = if u = k then (d.data[idx u]?).map f else d.data[idx u]?) →
      ∀ u, P u → E (l[idx u]?.getD C.zero) (if u = k then g (a u) else a u) := by
    intro l hl u hu
    have h1 := hd u hu
    rw [hl u hu]
    split_ifs with he
    · cases hx : d.data[idx u]? with
      | none =>
        rw [hx] at h1
        exact h0 _ h1
      | some x =>
        rw [hx] at h1
        exact hf _ _ h1
    · exact h1
  have hii : ∀ u, P u → (idx u = idx k ↔ u = k) := fun u hu => ⟨hb.inj u k hu hk, fun e => by rw [e]⟩
  unfold Dense.getMut
  rw [hb.index k hk, Res.bind_ok]
  split_ifs with hlt
  · refine ⟨_, rfl, hgo _ fun u hu => ?_⟩
    rw [Dense.writeSlice_data, List.getElem?_modify]
    by_cases he : u = k
    · rw [if_pos he]
      have h1 : idx k = idx u := by rw [he]
      simp only [h1, if_true]
      rfl
    · rw [if_neg he]
      have h1 : ¬ idx k = idx u := fun e => he ((hii u hu).1 e.symm)
      simp only [h1, if_false]
      cases d.data[idx u]? <;> rfl
  · refine ⟨_, rfl, hgo _ fun u hu => ?_⟩
    rw [Dense.makeMut_data]
    split_ifs with he
    · rw [he, List.getElem?_eq_none (by omega)]
      rfl
    · rfl

/-- One statement on dense vectors. -/
theorem dense_vstep [DecidableEq K] (hB : Blind C E) (hb : BasisOn B P idx) (s : VStmt K S R) (hk : ∀ k ∈ s.keys, P k) (hs : OnDense s) (hr : VRespects C E s)
    {σ : Nat → Dense S} {a : Nat → K → S} (h : ∀ i, DenseHas C E P idx (σ i) (a i)) :
    ∃ σ', runVStmt C (Dense.ops C B) σ s = .ok σ' ∧ ∀ i, DenseHas C E P idx (σ' i) (s.eval C a i) := by
  have hz : DenseHas C E P idx (Dense.new : Dense S) fun _ => C.zero := fun _ _ => hB.zero
  cases s with
  | zero i => exact ⟨_, rfl, denseHas_set h i hz⟩
  | key i k x =>
    obtain ⟨n, e1, e2⟩ := hb.dimKey k (hk k (by simp [VStmt.keys]))
    have e3 := hb.index k (hk k (by simp [VStmt.keys]))
    refine ⟨_, ?_, denseHas_set h i (d := .ofVec ((List.replicate n C.zero).modify (idx k) fun _ => x)) fun u hu => ?_⟩
    · show (Dense.fromKeyScalar C B k x >>= fun v => pure (setReg σ i v)) = _
      rw [Dense.fromKeyScalar_ok C B e1 e3 e2]
      rfl
    · rw [Dense.ofVec_data, List.getElem?_modify]
      by_cases he : u = k
      · subst he
        rw [List.getElem?_replicate, if_pos e2]
        simp only [if_true]
        exact hr
      · have h1 : ¬ idx k = idx u := fun e => he (hb.inj u k hu (hk k (by simp [VStmt.keys])) e.symm)
        simp only [h1, he, if_false]
        rw [List.getElem?_replicate]
        split_ifs <;> exact hB.zero
  | terms i items =>
    by_cases hne : items = []
    · subst hne
      refine ⟨_, ?_, denseHas_set h i hz⟩
      show ((Dense.ops C B).fromIterator [] >>= fun v => pure (setReg σ i v)) = _
      rw [C18_from_iterator_empty]
      rfl
    · have hP : ∀ e ∈ items, P e.1 := fun e he => hk e.1 (List.mem_map.2 ⟨e, he, rfl⟩)
      obtain ⟨m, hm, hmax⟩ : ∃ m ∈ items, ∀ e ∈ items, idx e.1 ≤ idx m.1 := by
        clear hk hr hP hs
        induction items with
        | nil => exact absurd rfl hne
        | cons e es ih =>
          by_cases hes : es = []
          · subst hes
            exact ⟨e, by simp, by simp⟩
          · obtain ⟨m, hm, hmx⟩ := ih hes
            by_cases hle : idx e.1 ≤ idx m.1
            · exact ⟨m, by simp [hm], fun e' he' => by
                rcases List.mem_cons.1 he' with rfl | he'
                · exact hle
                · exact hmx e' he'⟩
            · exact ⟨e, by simp, fun e' he' => by
                rcases List.mem_cons.1 he' with rfl | he'
                · exact Nat.le_refl _
                · have := hmx e' he'
                  omega⟩
      obtain ⟨n, e1, e2⟩ := hb.dimIndex m.1 (hP m hm)
      obtain ⟨r, r1, -, r3, r4⟩ := Dense.fromIterator_ok C B items idx (fun e he => hb.index e.1 (hP e he)) hne n (fun e he => by have := hmax e he; omega)
        (fun e he hmx => by
          have : idx e.1 = idx m.1 := Nat.le_antisymm (hmax e he) (hmx m hm)
          rw [this]
          exact e1)
      refine ⟨_, ?_, denseHas_set h i (d := r) fun u hu => ?_⟩
      · show (Dense.fromIterator C B items >>= fun v => pure (setReg σ i v)) = _
        rw [r1]
        rfl
      · have hf : items.filter (fun e => decide (idx e.1 = idx u)) = items.filter fun e => decide (e.1 = u) := by
          apply List.filter_congr
          intro e he
          rw [decide_eq_decide]
          exact ⟨hb.inj e.1 u (hP e he) hu, fun e => by rw [e]⟩
        by_cases hlt : idx u < n
        · rw [r4 _ hlt, hf]
          refine blind_fold hB _ (fun x hx => ?_) _ hB.zero
          obtain ⟨e, he, rfl⟩ := List.mem_map.1 hx
          exact hr e (List.mem_filter.1 he).1
        · rw [List.getElem?_eq_none (by omega)]
          have : items.filter (fun e => decide (e.1 = u)) = [] := by
            rw [List.filter_eq_nil_iff]
            intro e he hu'
            have h1 : e.1 = u := by simpa using hu'
            have := hmax e he
            rw [h1] at this
            omega
          rw [this]
          exact hB.zero
  | copy i j => exact ⟨_, rfl, denseHas_set h i (h j)⟩
  | swap i j => exact ⟨_, rfl, denseHas_set (denseHas_set h i (h j)) j (h i)⟩
  | clear i =>
    have : ∃ r, Dense.clear C (σ i) = .ok r ∧ DenseHas C E P idx r fun _ => C.zero := by
      unfold Dense.clear
      split
      · exact ⟨_, rfl, fun _ _ => hB.zero⟩
      · refine ⟨_, rfl, fun k _ => ?_⟩
        rw [Dense.writeSlice_data, List.getElem?_map]
        cases (σ i).data[idx k]? <;> exact hB.zero
      · exact ⟨_, rfl, fun _ _ => hB.zero⟩
    obtain ⟨r, r1, r2⟩ := this
    refine ⟨_, ?_, denseHas_set h i r2⟩
    show (Dense.clear C (σ i) >>= fun v => pure (setReg σ i v)) = _
    rw [r1]
    rfl
  | modify i k f =>
    obtain ⟨r, r1, r2⟩ := denseHas_getMut hb (h i) k (hk k (by simp [VStmt.keys])) f f hr.1 fun y hy => hB.trans _ _ _ (hB.symm _ _ hr.2) (hr.1 _ _ hy)
    refine ⟨_, ?_, denseHas_set h i r2⟩
    show (Dense.getMut B (σ i) k f >>= fun r => pure (setReg σ i r.2)) = _
    rw [r1]
    rfl
  | erase i k =>
    obtain ⟨r, r1, r2⟩ := denseHas_getMut hb (h i) k (hk k (by simp [VStmt.keys])) (fun _ => C.zero) (fun _ => C.zero) (fun _ _ _ => hB.zero) fun _ _ => hB.zero
    refine ⟨_, ?_, denseHas_set h i r2⟩
    show ((Dense.getMut B (σ i) k (fun _ => C.zero) >>= fun r => pure r.2) >>= fun v => pure (setReg σ i v)) = _
    rw [r1]
    rfl
  | neg i => exact ⟨_, rfl, denseHas_set h i (denseHas_map hB hB.neg hB.neg_zero (Dense.writeSlice_data _ _) (h i))⟩
  | add i j =>
    obtain ⟨r, r1, r2⟩ := Dense.addInplace_data C (σ i) (σ j)
    refine ⟨_, ?_, denseHas_set h i (denseHas_combine hB hB.add hB.add_zero r2 (h i) (h j))⟩
    show (Dense.addInplace C (σ i) (σ j) >>= fun v => pure (setReg σ i v)) = _
    rw [r1]
    rfl
  | sub i j =>
    obtain ⟨r, r1, r2⟩ := Dense.subInplace_data C (σ i) (σ j)
    refine ⟨_, ?_, denseHas_set h i (denseHas_combine hB hB.sub hB.sub_zero r2 (h i) (h j))⟩
    show (Dense.subInplace C (σ i) (σ j) >>= fun v => pure (setReg σ i v)) = _
    rw [r1]
    rfl
  | scale i x => exact ⟨_, rfl, denseHas_set h i (denseHas_map (g := fun y => C.mul y x) hB hr.1 hr.2 (Dense.writeSlice_data _ _) (h i))⟩
  | div i x => exact ⟨_, rfl, denseHas_set h i (denseHas_map (g := fun y => C.div y x) hB hr.1 hr.2 (Dense.writeSlice_data _ _) (h i))⟩
  | addScaled i j x =>
    have hj := denseHas_map (g := fun y => C.mul y x) (r := (Dense.ofVec (σ j).data).writeSlice ((Dense.ofVec (σ j).data).data.map fun y => C.mul y x)) hB hr.1 hr.2
      (Dense.writeSlice_data _ _) (h j)
    obtain ⟨r, r1, r2⟩ := Dense.addInplace_data C (σ i) ((Dense.ofVec (σ j).data).writeSlice ((Dense.ofVec (σ j).data).data.map fun y => C.mul y x))
    refine ⟨_, ?_, denseHas_set h i (denseHas_combine hB hB.add hB.add_zero r2 (h i) hj)⟩
    show (Dense.addInplace C (σ i) _ >>= fun v => pure (setReg σ i v)) = _
    rw [r1]
    rfl
  | subScaled i j x =>
    have hj := denseHas_map (g := fun y => C.mul y x) (r := (Dense.ofVec (σ j).data).writeSlice ((Dense.ofVec (σ j).data).data.map fun y => C.mul y x)) hB hr.1 hr.2
      (Dense.writeSlice_data _ _) (h j)
    obtain ⟨r, r1, r2⟩ := Dense.subInplace_data C (σ i) ((Dense.ofVec (σ j).data).writeSlice ((Dense.ofVec (σ j).data).data.map fun y => C.mul y x))
    refine ⟨_, ?_, denseHas_set h i (denseHas_combine hB hB.sub hB.sub_zero r2 (h i) hj)⟩
    show (Dense.subInplace C (σ i) _ >>= fun v => pure (setReg σ i v)) = _
    rw [r1]
    rfl
  | addDivided i j x =>
    have hj := denseHas_map (g := fun y => C.div y x) (r := (Dense.ofVec (σ j).data).writeSlice ((Dense.ofVec (σ j).data).data.map fun y => C.div y x)) hB hr.1 hr.2
      (Dense.writeSlice_data _ _) (h j)
    obtain ⟨r, r1, r2⟩ := Dense.addInplace_data C (σ i) ((Dense.ofVec (σ j).data).writeSlice ((Dense.ofVec (σ j).data).data.map fun y => C.div y x))
    refine ⟨_, ?_, denseHas_set h i (denseHas_combine hB hB.add hB.add_zero r2 (h i) hj)⟩
    show (Dense.addInplace C (σ i) _ >>= fun v => pure (setReg σ i v)) = _
    rw [r1]
    rfl
  | subDivided i j x =>
    have hj := denseHas_map (g := fun y => C.div y x) (r := (Dense.ofVec (σ j).data).writeSlice ((Dense.ofVec (σ j).data).data.map fun y => C.div y x)) hB hr.1 hr.2
      (Dense.writeSlice_data _ _) (h j)
    obtain ⟨r, r1, r2⟩ := Dense.subInplace_data C (σ i) ((Dense.ofVec (σ j).data).writeSlice ((Dense.ofVec (σ j).data).data.map fun y => C.div y x))
    refine ⟨_, ?_, denseHas_set h i (denseHas_combine hB hB.sub hB.sub_zero r2 (h i) hj)⟩
    show (Dense.subInplace C (σ i) _ >>= fun v => pure (setReg σ i v)) = _
    rw [r1]
    rfl
  | addKey _ _ _ | subKey _ _ _ | put _ _ _ => exact absurd hs id


/-! ## Sparse vectors -/

section
variable [DecidableEq K]

/-- The sparse vector has these coefficients, up to the relation. -/
def SparseHas (C : Coeff S R) (E : S → S → Prop) (P : K → Prop) (v : Sparse K S) (a : K → S) : Prop := v.WF ∧ ∀ k, P k → E (v.coef C k) (a k)

theorem sparseHas_set {σ : Nat → Sparse K S} {a : Nat → K → S} {v : Sparse K S} {b : K → S} (h : ∀ i, SparseHas C E P (σ i) (a i)) (i : Nat)
    (hv : SparseHas C E P v b) : ∀ j, SparseHas C E P (setReg σ i v j) (setReg a i b j) := by
  intro j
  unfold setReg
  split_ifs
  · exact hv
  · exact h j

/-- One entry of a sum or difference of sparse vectors. -/
theorem sparseHas_merge {f : S → S → S} {g : S → S} (hB : Blind C E) (hf : ∀ x x' y y', E x x' → E y y' → E (f x y) (f x' y')) (hf0 : ∀ x y, E x y → E (f x C.zero) y)
    (h0f : ∀ x y, E x y → E (f C.zero x) (g y)) (a b : Option S) (x y : S) (hx : E (a.getD C.zero) x) (hy : E (b.getD C.zero) y) :
    E ((Spec.sparseEntry f g (fun v => C.eq v C.zero) a b).getD C.zero) (f x y) :=
  hB.symm _ _ (merge_matches hB hf hf0 h0f (some x) (some y) a b (hB.symm _ _ hx) (hB.symm _ _ hy))

theorem sparseHas_map {g : S → S} (hB : Blind C E) (hg : ∀ x y, E x y → E (g x) (g y)) (hg0 : E (g C.zero) C.zero) {v : Sparse K S} {a : K → S}
    (hv : SparseHas C E P v a) : SparseHas C E P ⟨v.entries.map fun e => (e.1, g e.2)⟩ fun k => g (a k) := by
  refine ⟨Sparse.noDup_map hv.1 g, fun k hk => ?_⟩
  have h1 := hv.2 k hk
  unfold Sparse.coef at h1 ⊢
  dsimp only
  rw [Sparse.find_map]
  cases hx : Sparse.find v.entries k with
  | none =>
    rw [hx] at h1
    exact hB.trans _ _ _ (hB.symm _ _ hg0) (hg _ _ h1)
  | some x =>
    rw [hx] at h1
    exact hg _ _ h1

theorem sparseHas_getMut {v : Sparse K S} {a : K → S} (hv : SparseHas C E P v a) (k : K) (f g : S → S) (hf : ∀ x y, E x y → E (f x) (g y))
    (h0 : ∀ y, E C.zero y → E C.zero (g y)) :
    ∃ r, Sparse.getMut v k f = .ok r ∧ SparseHas C E P r.2 fun u => if u = k then g (a u) else a u := by
  unfold Sparse.getMut
  split_ifs with hs
  · refine ⟨_, rfl, Sparse.noDup_modifyAt hv.1 k f, fun u hu => ?_⟩
    have h1 := hv.2 u hu
    unfold Sparse.coef at h1 ⊢
    dsimp only
    rw [Sparse.find_modifyAt]
    split_ifs with he
    · subst he
      cases hx : Sparse.find v.entries u with
      | none =>
        rw [hx] at h1
        exact h0 _ h1
      | some x =>
        rw [hx] at h1
        exact hf _ _ h1
    · exact h1
  · refine ⟨_, rfl, hv.1, fun u hu => ?_⟩
    have h1 := hv.2 u hu
    dsimp only
    split_ifs with he
    · unfold Sparse.coef at h1 ⊢
      rw [he, Option.not_isSome_iff_eq_none.1 hs] at h1 ⊢
      exact h0 _ h1
    · exact h1

/-- An entry changed with `f`, or inserted with the value `x`. -/
theorem sparseHas_upsert {v : Sparse K S} {a : K → S} (hv : SparseHas C E P v a) (k : K) (f g : S → S) (x : S)
    (hf : ∀ y z, E y z → E (f y) (g z)) (hx : ∀ z, E C.zero z → E x (g z)) :
    ∃ r, (do
        let (found, v') ← (Sparse.ops C).getMut v k f
        if found then return v' else (Sparse.ops C).insertSingle v' k x : Res (Sparse K S)) = .ok r ∧
      SparseHas C E P r fun u => if u = k then g (a u) else a u := by
  show ∃ r, (do
        let (found, v') ← Sparse.getMut v k f
        if found then return v' else Sparse.insertSingle v' k x : Res (Sparse K S)) = .ok r ∧ _
  unfold Sparse.getMut
  split_ifs with hs
  · refine ⟨⟨Sparse.modifyAt v.entries k f⟩, rfl, Sparse.noDup_modifyAt hv.1 k f, fun u hu => ?_⟩
    have h1 := hv.2 u hu
    unfold Sparse.coef at h1 ⊢
    dsimp only
    rw [Sparse.find_modifyAt]
    split_ifs with he
    · subst he
      obtain ⟨y, hy⟩ := Option.isSome_iff_exists.1 hs
      rw [hy] at h1 ⊢
      exact hf _ _ h1
    · exact h1
  · refine ⟨⟨Sparse.hmInsert v.entries k x⟩, rfl, Sparse.noDup_hmInsert hv.1 k x, fun u hu => ?_⟩
    have h1 := hv.2 u hu
    unfold Sparse.coef at h1 ⊢
    dsimp only
    rw [Sparse.find_hmInsert]
    split_ifs with he
    · subst he
      rw [Option.not_isSome_iff_eq_none.1 hs] at h1
      exact hx _ h1
    · exact h1

/-- One statement on sparse vectors. -/
theorem sparse_vstep (hB : Blind C E) (s : VStmt K S R) (hk : ∀ k ∈ s.keys, P k) (hs : OnSparse s) (hr : VRespects C E s)
    {σ : Nat → Sparse K S} {a : Nat → K → S} (hz : ZeroScale C E P a s) (h : ∀ i, SparseHas C E P (σ i) (a i)) :
    ∃ σ', runVStmt C (Sparse.ops C) σ s = .ok σ' ∧ ∀ i, SparseHas C E P (σ' i) (s.eval C a i) := by
  have hnew : SparseHas C E P (Sparse.new : Sparse K S) fun _ => C.zero := ⟨List.nodup_nil, fun _ _ => hB.zero⟩
  have comb : ∀ i j : Nat, ∃ ra rs, (Sparse.ops C).addInplace (σ i) (σ j) = .ok ra ∧ (Sparse.ops C).subInplace (σ i) (σ j) = .ok rs ∧
      SparseHas C E P ra (fun u => C.add (a i u) (a j u)) ∧ SparseHas C E P rs (fun u => C.sub (a i u) (a j u)) := by
    intro i j
    obtain ⟨ra, rs, a1, a2, a3⟩ := C26_add_sub C (σ i) (σ j) (h j).1
    refine ⟨ra, rs, a1, a2, ⟨?_, fun k hk => ?_⟩, ⟨?_, fun k hk => ?_⟩⟩
    · cases a1
      exact Sparse.noDup_foldl _ (fun m e hm => Sparse.noDup_addStep C hm e) _ _ (h i).1
    · have h3 : Res.ok (Sparse.find ra.entries k) = _ := (a3 k _ _ rfl rfl).1
      injection h3 with h3
      unfold Sparse.coef
      rw [h3]
      exact sparseHas_merge hB hB.add hB.add_zero hB.zero_add _ _ _ _ ((h i).2 k hk) ((h j).2 k hk)
    · cases a2
      exact Sparse.noDup_foldl _ (fun m e hm => Sparse.noDup_subStep C hm e) _ _ (h i).1
    · have h3 : Res.ok (Sparse.find rs.entries k) = _ := (a3 k _ _ rfl rfl).2
      injection h3 with h3
      unfold Sparse.coef
      rw [h3]
      exact sparseHas_merge hB hB.sub hB.sub_zero hB.zero_sub _ _ _ _ ((h i).2 k hk) ((h j).2 k hk)
  cases s with
  | zero i => exact ⟨_, rfl, sparseHas_set h i hnew⟩
  | key i k x =>
    refine ⟨_, rfl, sparseHas_set h i (v := ⟨[(k, x)]⟩) ⟨by simp [Sparse.WF], fun u hu => ?_⟩⟩
    unfold Sparse.coef
    dsimp only
    rw [Sparse.find_cons]
    dsimp only
    by_cases he : u = k
    · subst he
      simp only [if_true, Option.getD_some]
      exact hr
    · rw [if_neg (c := u = k) he, if_neg (c := k = u) fun e => he e.symm, Sparse.find_nil]
      exact hB.zero
  | terms i items =>
    obtain ⟨r, r1, r2, r3⟩ := C29_sparse_from_iterator C items
    refine ⟨_, ?_, sparseHas_set h i (v := r) ⟨r2, fun u hu => ?_⟩⟩
    · show ((Sparse.ops C).fromIterator items >>= fun v => pure (setReg σ i v)) = _
      rw [r1]
      rfl
    · have h3 : Res.ok (Sparse.find r.entries u) = _ := r3 u
      injection h3 with h3
      unfold Sparse.coef
      rw [h3]
      have hnd : (items.map (·.1)).Nodup := hs
      have hlen : (items.filter fun e => decide (e.1 = u)).length ≤ 1 := by
        clear hk hr hz r1 r2 r3 h3 hs
        induction items with
        | nil => simp
        | cons e es ih =>
          rw [List.map_cons, List.nodup_cons] at hnd
          rw [List.filter_cons]
          split_ifs with hk
          · simp only [decide_eq_true_eq] at hk
            subst hk
            have : es.filter (fun e' => decide (e'.1 = e.1)) = [] := by
              rw [List.filter_eq_nil_iff]
              intro e' he' h
              exact hnd.1 (List.mem_map.2 ⟨e', he', by simpa using h⟩)
            rw [this]
            simp
          · exact ih hnd.2
      dsimp only
      have hmem : ∀ e ∈ items.filter fun e => decide (e.1 = u), E e.2 e.2 := fun e he => hr e (List.mem_filter.1 he).1
      generalize items.filter (fun e => decide (e.1 = u)) = l at hlen hmem ⊢
      match l, hlen with
      | [], _ => exact hB.zero
      | [e], _ => exact hB.symm _ _ (hB.zero_add _ _ (hmem e (by simp)))
      | _ :: _ :: _, h => simp at h
  | clear i => exact ⟨_, rfl, sparseHas_set h i hnew⟩
  | modify i k f =>
    obtain ⟨r, r1, r2⟩ := sparseHas_getMut (h i) k f f hr.1 fun y hy => hB.trans _ _ _ (hB.symm _ _ hr.2) (hr.1 _ _ hy)
    refine ⟨_, ?_, sparseHas_set h i r2⟩
    show (Sparse.getMut (σ i) k f >>= fun r => pure (setReg σ i r.2)) = _
    rw [r1]
    rfl
  | neg i => exact ⟨_, rfl, sparseHas_set h i (sparseHas_map hB hB.neg hB.neg_zero (h i))⟩
  | add i j =>
    obtain ⟨ra, rs, a1, a2, a3, a4⟩ := comb i j
    refine ⟨_, ?_, sparseHas_set h i a3⟩
    show ((Sparse.ops C).addInplace (σ i) (σ j) >>= fun v => pure (setReg σ i v)) = _
    rw [a1]
    rfl
  | sub i j =>
    obtain ⟨ra, rs, a1, a2, a3, a4⟩ := comb i j
    refine ⟨_, ?_, sparseHas_set h i a4⟩
    show ((Sparse.ops C).subInplace (σ i) (σ j) >>= fun v => pure (setReg σ i v)) = _
    rw [a2]
    rfl
  | scale i x =>
    show ∃ σ', (Sparse.scalarLmultiplyInplace C (σ i) x >>= fun v => pure (setReg σ i v)) = .ok σ' ∧ _
    unfold Sparse.scalarLmultiplyInplace
    by_cases h0 : C.eq x C.zero = true
    · rw [if_pos h0]
      exact ⟨_, rfl, sparseHas_set h i ⟨List.nodup_nil, fun k hk => hB.symm _ _ (hz h0 k hk)⟩⟩
    · rw [if_neg h0]
      exact ⟨_, rfl, sparseHas_set h i (sparseHas_map (g := fun y => C.mul y x) hB hr.1 hr.2 (h i))⟩
  | div i r => exact ⟨_, rfl, sparseHas_set h i (sparseHas_map (g := fun y => C.div y r) hB hr.1 hr.2 (h i))⟩
  | addKey i k x =>
    obtain ⟨r, r1, r2⟩ := sparseHas_upsert (h i) k (fun y => C.add y x) (fun y => C.add y x) x (fun y z hyz => hB.add _ _ _ _ hyz hr)
      fun z hz => hB.trans _ _ _ (hB.symm _ _ (hB.zero_add _ _ hr)) (hB.add _ _ _ _ hz hr)
    refine ⟨_, ?_, sparseHas_set h i r2⟩
    show (KeyExt.addScalarMultiply C (Sparse.ops C) (σ i) k x >>= fun v => pure (setReg σ i v)) = _
    unfold KeyExt.addScalarMultiply
    rw [r1]
    rfl
  | subKey i k x =>
    obtain ⟨r, r1, r2⟩ := sparseHas_upsert (h i) k (fun y => C.sub y x) (fun y => C.sub y x) (C.uminus x) (fun y z hyz => hB.sub _ _ _ _ hyz hr)
      fun z hz => hB.trans _ _ _ (hB.symm _ _ (hB.zero_sub _ _ hr)) (hB.sub _ _ _ _ hz hr)
    refine ⟨_, ?_, sparseHas_set h i r2⟩
    show (KeyExt.subScalarMultiply C (Sparse.ops C) (σ i) k x >>= fun v => pure (setReg σ i v)) = _
    unfold KeyExt.subScalarMultiply
    rw [r1]
    rfl
  | put i k x =>
    refine ⟨_, rfl, sparseHas_set h i (v := ⟨Sparse.hmInsert (σ i).entries k x⟩) ⟨Sparse.noDup_hmInsert (h i).1 k x, fun u hu => ?_⟩⟩
    have h1 := (h i).2 u hu
    unfold Sparse.coef at h1 ⊢
    dsimp only
    rw [Sparse.find_hmInsert]
    split_ifs with he
    · exact hr
    · exact h1
  | copy _ _ | swap _ _ | erase _ _ | addScaled _ _ _ | subScaled _ _ _ | addDivided _ _ _ | subDivided _ _ _ => exact absurd hs id

/-! ## Programs -/

theorem evalVProg_append (pre : List (VStmt K S R)) (s : VStmt K S R) : evalVProg C (pre ++ [s]) = s.eval C (evalVProg C pre) := by
  unfold evalVProg
  rw [List.foldl_append]
  rfl

omit [DecidableEq K] in
theorem runVProg_append {V : Type} (T : VecOps V K S R) (pre : List (VStmt K S R)) (s : VStmt K S R) :
    runVProg C T (pre ++ [s]) = runVProg C T pre >>= fun σ => runVStmt C T σ s := by
  unfold runVProg
  rw [List.foldlM_append]
  congr 1
  funext σ
  rw [List.foldlM_cons]
  cases runVStmt C T σ s <;> rfl

/-- C113, dense vectors over any basis: a program returns, without undefined behaviour, and every coefficient read is the one that the program says, up to a relation
that does not see whether a zero is stored. -/
theorem C113_dense (hB : Blind C E) (hb : BasisOn B P idx) (prog : List (VStmt K S R)) (hk : ∀ s ∈ prog, ∀ k ∈ s.keys, P k)
    (hs : ∀ s ∈ prog, OnDense s ∧ VRespects C E s) :
    ∃ σ, runVProg C (Dense.ops C B) prog = .ok σ ∧ ∀ i k, P k → ∃ x, (Dense.ops C B).get (σ i) k = .ok x ∧ E (x.getD C.zero) (evalVProg C prog i k) := by
  suffices ∃ σ, runVProg C (Dense.ops C B) prog = .ok σ ∧ ∀ i, DenseHas C E P idx (σ i) (evalVProg C prog i) by
    obtain ⟨σ, e, g⟩ := this
    exact ⟨σ, e, fun i k hk => ⟨_, dense_get C B (σ i) k (idx k) (hb.index k hk), g i k hk⟩⟩
  induction prog using List.reverseRecOn with
  | nil => exact ⟨_, rfl, fun _ _ _ => hB.zero⟩
  | append_singleton pre s ih =>
    obtain ⟨σ, e1, g1⟩ := ih (fun s h => hk s (by simp [h])) (fun s h => hs s (by simp [h]))
    obtain ⟨σ', e2, g2⟩ := dense_vstep hB hb s (hk s (by simp)) (hs s (by simp)).1 (hs s (by simp)).2 g1
    refine ⟨σ', ?_, ?_⟩
    · rw [runVProg_append, e1, Res.bind_ok, e2]
    · rw [evalVProg_append]
      exact g2

/-- C113, sparse vectors over any type of keys. -/
theorem C113_sparse (hB : Blind C E) (prog : List (VStmt K S R)) (hk : ∀ s ∈ prog, ∀ k ∈ s.keys, P k) (hs : ∀ s ∈ prog, OnSparse s ∧ VRespects C E s)
    (hz : ∀ pre s, pre ++ [s] <+: prog → ZeroScale C E P (evalVProg C pre) s) :
    ∃ σ, runVProg C (Sparse.ops C) prog = .ok σ ∧ ∀ i, (σ i).WF ∧ ∀ k, P k → ∃ x, (Sparse.ops C).get (σ i) k = .ok x ∧ E (x.getD C.zero) (evalVProg C prog i k) := by
  suffices ∃ σ, runVProg C (Sparse.ops C) prog = .ok σ ∧ ∀ i, SparseHas C E P (σ i) (evalVProg C prog i) by
    obtain ⟨σ, e, g⟩ := this
    exact ⟨σ, e, fun i => ⟨(g i).1, fun k hk => ⟨_, rfl, (g i).2 k hk⟩⟩⟩
  induction prog using List.reverseRecOn with
  | nil => exact ⟨_, rfl, fun _ => ⟨List.nodup_nil, fun _ _ => hB.zero⟩⟩
  | append_singleton pre s ih =>
    obtain ⟨σ, e1, g1⟩ := ih (fun s h => hk s (by simp [h])) (fun s h => hs s (by simp [h])) fun pre' s' h => hz pre' s' (h.trans (List.prefix_append _ _))
    obtain ⟨σ', e2, g2⟩ := sparse_vstep hB s (hk s (by simp)) (hs s (by simp)).1 (hs s (by simp)).2 (hz pre s (List.prefix_refl _)) g1
    refine ⟨σ', ?_, ?_⟩
    · rw [runVProg_append, e1, Res.bind_ok, e2]
    · rw [evalVProg_append]
      exact g2

/-- Equality of exact coefficients is such a relation. -/
theorem ring_blind [CommRing S] (hC : C.IsRing) (hE : C.EqLawful) : Blind C (· = ·) := by
  refine ⟨fun _ _ _ h h' => h.trans h', fun _ _ h => h.symm, rfl, fun x y h h' => h.trans ((hE _ _).1 h'), fun _ _ h => by rw [h], ?_, fun _ _ _ _ h h' => by rw [h, h'],
    fun _ _ _ _ h h' => by rw [h, h'], fun x y h => ?_, fun x y h => ?_, fun x y h => ?_, fun x y h => ?_⟩
  · rw [hC.uminus, hC.zero, neg_zero]
  · rw [hC.add, hC.zero, add_zero, h]
  · rw [hC.sub, hC.zero, sub_zero, h]
  · rw [hC.add, hC.zero, zero_add, h]
  · rw [hC.sub, hC.uminus, hC.zero, zero_sub, h]

/-- C113: a program gives the same coefficients on dense and on sparse vectors over any basis whose keys can be hashed, up to a relation that does not see whether a zero is
stored. -/
theorem C113_agree (hB : Blind C E) (hb : BasisOn B P idx) (prog : List (VStmt K S R)) (hk : ∀ s ∈ prog, ∀ k ∈ s.keys, P k)
    (hs : ∀ s ∈ prog, OnDense s ∧ OnSparse s ∧ VRespects C E s) (hz : ∀ pre s, pre ++ [s] <+: prog → ZeroScale C E P (evalVProg C pre) s) :
    ∃ σ τ, runVProg C (Dense.ops C B) prog = .ok σ ∧ runVProg C (Sparse.ops C) prog = .ok τ ∧ ∀ i k, P k →
      ∃ x y, (Dense.ops C B).get (σ i) k = .ok x ∧ (Sparse.ops C).get (τ i) k = .ok y ∧ E (x.getD C.zero) (y.getD C.zero) := by
  obtain ⟨σ, e1, g1⟩ := C113_dense hB hb prog hk fun s h => ⟨(hs s h).1, (hs s h).2.2⟩
  obtain ⟨τ, e2, g2⟩ := C113_sparse hB prog hk (fun s h => (hs s h).2) hz
  refine ⟨σ, τ, e1, e2, fun i k hk => ?_⟩
  obtain ⟨x, x1, x2⟩ := g1 i k hk
  obtain ⟨y, y1, y2⟩ := (g2 i).2 k hk
  exact ⟨x, y, x1, y1, hB.trans _ _ _ x2 (hB.symm _ _ y2)⟩

end

end
end RA
