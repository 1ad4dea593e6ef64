import Verif.Proofs.CoeffRel
import Verif.Props.SparseProgram
import Verif.Props.SparseIter
import Verif.Props.Basis
import Verif.Props.Float

/-!
# The order of the hash map is unobservable (C83)

The entries of a sparse vector live in a `HashMap`, whose iteration order differs from run to run.  The theorems compare two runs in which the orders differ
in any way at any time.  No law is assumed of the coefficients, so they hold for floating-point numbers bit for bit.
-/

namespace RA
open Spec TensorKey TensorBasis DenseAlg

section
variable {K S R : Type} [DecidableEq K] (C : Coeff S R)

/-- The same entries, possibly in another order. -/
def Sparse.Reordered (a b : Sparse K S) : Prop := a.WF ∧ a.entries.Perm b.entries

namespace Sparse.Reordered
variable {C} {a b o o' : Sparse K S}

omit [DecidableEq K] in
theorem wf_right (h : Sparse.Reordered a b) : b.WF := (h.2.map Prod.fst).nodup_iff.1 h.1

theorem find (h : Sparse.Reordered a b) (k : K) : Sparse.find a.entries k = Sparse.find b.entries k := by
  apply Option.ext
  intro v
  exact ⟨fun hv => Sparse.find_of_mem h.wf_right (h.2.mem_iff.1 (Sparse.mem_of_find hv)),
    fun hv => Sparse.find_of_mem h.1 (h.2.mem_iff.2 (Sparse.mem_of_find hv))⟩

theorem of_find (ha : a.WF) (hb : b.WF) (h : ∀ k, Sparse.find a.entries k = Sparse.find b.entries k) : Sparse.Reordered a b := by
  refine ⟨ha, (List.perm_ext_iff_of_nodup (List.Nodup.of_map _ ha) (List.Nodup.of_map _ hb)).2 fun ⟨k, v⟩ => ?_⟩
  exact ⟨fun hm => Sparse.mem_of_find ((h k).symm.trans (Sparse.find_of_mem ha hm)), fun hm => Sparse.mem_of_find ((h k).trans (Sparse.find_of_mem hb hm))⟩

omit [DecidableEq K] in
theorem trans {c : Sparse K S} (h : Sparse.Reordered a b) (h' : Sparse.Reordered b c) : Sparse.Reordered a c := ⟨h.1, h.2.trans h'.2⟩

omit [DecidableEq K] in
theorem symm (h : Sparse.Reordered a b) : Sparse.Reordered b a := ⟨h.wf_right, h.2.symm⟩

omit [DecidableEq K] in
theorem new : Sparse.Reordered (Sparse.new : Sparse K S) Sparse.new := ⟨List.nodup_nil, .nil⟩

omit [DecidableEq K] in
theorem map (h : Sparse.Reordered a b) (f : S → S) :
    Sparse.Reordered (⟨a.entries.map fun e => (e.1, f e.2)⟩ : Sparse K S) ⟨b.entries.map fun e => (e.1, f e.2)⟩ := ⟨Sparse.noDup_map h.1 f, h.2.map _⟩

theorem insert (h : Sparse.Reordered a b) (k : K) (v : S) :
    Sparse.Reordered (⟨Sparse.hmInsert a.entries k v⟩ : Sparse K S) ⟨Sparse.hmInsert b.entries k v⟩ :=
  .of_find (Sparse.noDup_hmInsert h.1 k v) (Sparse.noDup_hmInsert h.wf_right k v) fun k' => by
    show Sparse.find (Sparse.hmInsert _ _ _) _ = Sparse.find (Sparse.hmInsert _ _ _) _
    rw [Sparse.find_hmInsert, Sparse.find_hmInsert, h.find]

theorem modify (h : Sparse.Reordered a b) (k : K) (f : S → S) :
    Sparse.Reordered (⟨Sparse.modifyAt a.entries k f⟩ : Sparse K S) ⟨Sparse.modifyAt b.entries k f⟩ := ⟨Sparse.noDup_modifyAt h.1 k f, h.2.map _⟩

theorem getMut (h : Sparse.Reordered a b) (k : K) (f : S → S) :
    ResRel (fun x y => x.1 = y.1 ∧ Sparse.Reordered x.2 y.2) (Sparse.getMut a k f) (Sparse.getMut b k f) := by
  unfold Sparse.getMut
  rw [h.find k]
  split_ifs
  · exact ⟨rfl, h.modify k f⟩
  · exact ⟨rfl, h⟩

theorem add (h : Sparse.Reordered a b) (ho : Sparse.Reordered o o') : ResRel Sparse.Reordered (Sparse.addInplace C a o) (Sparse.addInplace C b o') :=
  .of_find (Sparse.noDup_foldl _ (fun m e hm => Sparse.noDup_addStep C hm e) _ _ h.1)
    (Sparse.noDup_foldl _ (fun m e hm => Sparse.noDup_addStep C hm e) _ _ h.wf_right) fun k => by
    show Sparse.find (List.foldl _ _ _) _ = Sparse.find (List.foldl _ _ _) _
    rw [Sparse.foldl_find (Sparse.addStep C) (Sparse.mergeEntry C.add id fun x => C.eq x C.zero) (by intro x; cases x <;> rfl)
        (Sparse.addStep_find C) o.entries ho.1, Sparse.foldl_find (Sparse.addStep C) (Sparse.mergeEntry C.add id fun x => C.eq x C.zero)
        (by intro x; cases x <;> rfl) (Sparse.addStep_find C) o'.entries ho.wf_right, h.find, ho.find]

theorem sub (h : Sparse.Reordered a b) (ho : Sparse.Reordered o o') : ResRel Sparse.Reordered (Sparse.subInplace C a o) (Sparse.subInplace C b o') :=
  .of_find (Sparse.noDup_foldl _ (fun m e hm => Sparse.noDup_subStep C hm e) _ _ h.1)
    (Sparse.noDup_foldl _ (fun m e hm => Sparse.noDup_subStep C hm e) _ _ h.wf_right) fun k => by
    show Sparse.find (List.foldl _ _ _) _ = Sparse.find (List.foldl _ _ _) _
    rw [Sparse.foldl_find (Sparse.subStep C) (Sparse.mergeEntry C.sub C.uminus fun x => C.eq x C.zero) (by intro x; cases x <;> rfl)
        (Sparse.subStep_find C) o.entries ho.1, Sparse.foldl_find (Sparse.subStep C) (Sparse.mergeEntry C.sub C.uminus fun x => C.eq x C.zero)
        (by intro x; cases x <;> rfl) (Sparse.subStep_find C) o'.entries ho.wf_right, h.find, ho.find]

omit [DecidableEq K] in
theorem scale (h : Sparse.Reordered a b) (s : S) :
    ResRel Sparse.Reordered (Sparse.scalarLmultiplyInplace C a s) (Sparse.scalarLmultiplyInplace C b s) := by
  unfold Sparse.scalarLmultiplyInplace
  split_ifs
  · exact Sparse.Reordered.new
  · exact h.map fun x => C.mul x s

theorem fromItems (items : List (K × S)) :
    Sparse.Reordered (⟨items.foldl (fun m e => Sparse.hmInsert m e.1 e.2) []⟩ : Sparse K S) ⟨items.foldl (fun m e => Sparse.hmInsert m e.1 e.2) []⟩ :=
  ⟨Sparse.noDup_foldl _ (fun _ e hm => Sparse.noDup_hmInsert hm e.1 e.2) _ _ List.nodup_nil, .refl _⟩

end Sparse.Reordered

theorem eq_reordered {a b o o' : Sparse K S} (h : Sparse.Reordered a b) (h' : Sparse.Reordered o o') :
    (Sparse.ops C).eq a o = (Sparse.ops C).eq b o' := by
  show Sparse.eq C a o = Sparse.eq C b o'
  unfold Sparse.eq
  rw [h.2.length_eq, h'.2.length_eq]
  split_ifs
  · rfl
  · exact h.2.all_eq.trans (congrArg _ (funext fun e => by rw [h'.find]))

/-- C83, one call: on reordered operands every method ends the same way, gives the same answers, and leaves the same entries up to their order.
Value-returning methods panic in both runs (C30). -/
theorem C83_operations (a b o o' : Sparse K S) (ha : a.WF) (hab : a.entries.Perm b.entries) (ho : o.WF) (hoo : o.entries.Perm o'.entries) (k : K) (s : S)
    (r : R) (f : S → S) (T : VecOps (Sparse K S) K S R) (hT : T = Sparse.ops C) :
    let same := ResRel fun x y : Sparse K S => x.WF ∧ x.entries.Perm y.entries
    T.get a k = T.get b k ∧ T.eq a o = T.eq b o' ∧
    ResRel (fun x y => x.1 = y.1 ∧ x.2.WF ∧ x.2.entries.Perm y.2.entries) (T.getMut a k f) (T.getMut b k f) ∧
    same (T.clear a) (T.clear b) ∧ same (T.insertSingle a k s) (T.insertSingle b k s) ∧ same (T.uminusInplace a) (T.uminusInplace b) ∧
    same (T.addInplace a o) (T.addInplace b o') ∧ same (T.subInplace a o) (T.subInplace b o') ∧
    same (T.scalarLmultiplyInplace a s) (T.scalarLmultiplyInplace b s) ∧ same (T.scalarRmultiplyInplace a s) (T.scalarRmultiplyInplace b s) ∧
    same (T.scalarRdivideInplace a r) (T.scalarRdivideInplace b r) ∧ same (T.scalarLdivideInplace a r) (T.scalarLdivideInplace b r) ∧
    same (KeyExt.addScalarMultiply C T a k s) (KeyExt.addScalarMultiply C T b k s) ∧
    same (KeyExt.subScalarMultiply C T a k s) (KeyExt.subScalarMultiply C T b k s) ∧
    same (KeyExt.addScalarDivide C T a k r) (KeyExt.addScalarDivide C T b k r) ∧
    same (KeyExt.subScalarDivide C T a k r) (KeyExt.subScalarDivide C T b k r) ∧
    same (T.toOwned a) (T.toOwned b) ∧ same (T.uminus a) (T.uminus b) ∧ same (T.add a o) (T.add b o') ∧ same (T.sub a o) (T.sub b o') ∧
    same (T.addScalarRmultiply a o s) (T.addScalarRmultiply b o' s) ∧ same (T.subScalarRdivide a o r) (T.subScalarRdivide b o' r) := by
  subst hT
  have h : Sparse.Reordered a b := ⟨ha, hab⟩
  have h' : Sparse.Reordered o o' := ⟨ho, hoo⟩
  have hkey : ∀ (g : S → S) (t : S), ResRel Sparse.Reordered
      (do let (found, v') ← (Sparse.ops C).getMut a k g; if found then return v' else (Sparse.ops C).insertSingle v' k t)
      (do let (found, v') ← (Sparse.ops C).getMut b k g; if found then return v' else (Sparse.ops C).insertSingle v' k t) := fun g t => by
    refine .bind (h.getMut k g) fun x y hxy => ?_
    obtain ⟨x1, x2⟩ := x
    obtain ⟨y1, y2⟩ := y
    obtain ⟨rfl, h2⟩ := hxy
    dsimp only
    split
    · exact h2
    · exact h2.insert k t
  exact ⟨congrArg Res.ok (h.find k), eq_reordered C h h', h.getMut k f, Sparse.Reordered.new, h.insert k s, h.map _, h.add h', h.sub h', h.scale s, h.scale s, h.map fun x => C.div x r,
    h.map fun x => C.div x r,
    hkey _ _, hkey _ _, hkey _ _, hkey _ _, trivial, trivial, trivial, trivial, trivial, trivial⟩

/-- C83, constructors: a sparse vector built from items with distinct keys does not depend on their order, except for its own order. -/
theorem C83_from_iterator (items items' : List (K × S)) (hp : items.Perm items') (hnd : (items.map Prod.fst).Nodup) :
    ∃ x y, (Sparse.ops C).fromIterator items = .ok x ∧ (Sparse.ops C).fromIterator items' = .ok y ∧ x.WF ∧ x.entries.Perm y.entries ∧
      x.entries.Perm items := by
  have key : ∀ l : List (K × S), (l.map Prod.fst).Nodup → ∀ m : List (K × S), (m.map Prod.fst).Nodup → (∀ k ∈ m.map Prod.fst, k ∉ l.map Prod.fst) →
      l.foldl (fun m e => Sparse.hmInsert m e.1 e.2) m = m ++ l := by
    intro l hl
    induction l with
    | nil => intro m _ _; rw [List.append_nil]; rfl
    | cons e l ih =>
      intro m hm hd
      rw [List.map_cons, List.nodup_cons] at hl
      have he : Sparse.hmInsert m e.1 e.2 = m ++ [(e.1, e.2)] := by
        unfold Sparse.hmInsert
        rw [if_neg fun h => ?_]
        exact hd e.1 (Sparse.find_isSome.1 h) (by simp)
      rw [List.foldl_cons, he, ih hl.2, List.append_assoc]
      · rfl
      · rw [List.map_append, List.nodup_append]
        refine ⟨hm, by simp, fun a ha b hb hab => ?_⟩
        rw [List.map_cons, List.map_nil, List.mem_singleton] at hb
        exact hd a ha (by rw [hab, hb]; simp)
      · intro k hk
        rw [List.map_append, List.mem_append] at hk
        rcases hk with hk | hk
        · intro hk'
          exact hd k hk (by rw [List.map_cons]; exact List.mem_cons_of_mem _ hk')
        · rw [List.map_cons, List.map_nil, List.mem_singleton] at hk
          exact hk ▸ hl.1
  have h1 := key items hnd [] List.nodup_nil (by simp)
  have h2 := key items' ((hp.map Prod.fst).nodup_iff.1 hnd) [] List.nodup_nil (by simp)
  refine ⟨⟨items⟩, ⟨items'⟩, ?_, ?_, hnd, hp, .refl _⟩
  · exact congrArg (fun l => Res.ok (⟨l⟩ : Sparse K S)) h1
  · exact congrArg (fun l => Res.ok (⟨l⟩ : Sparse K S)) h2

example := C83_from_iterator intCoeff [((1 : Nat), (5 : Int)), (2, 7), (0, 1)] [(0, 1), (2, 7), (1, 5)] (by decide) (by decide)

/-- C83, from sparse to dense: iterating over reordered vectors gives the same dense vector, entry for entry in the same memory, if the keys have distinct
indices. -/
theorem C83_to_dense (B : Basis K) (a b : Sparse K S) (ha : a.WF) (hab : a.entries.Perm b.entries)
    (hidx : ∀ e ∈ a.entries, ∃ i, B.keyToIndex e.1 = .ok i)
    (hinj : ∀ e ∈ a.entries, ∀ e' ∈ a.entries, B.keyToIndex e.1 = B.keyToIndex e'.1 → e.1 = e'.1) :
    (Dense.ops C B).fromIterator a.intoIter = (Dense.ops C B).fromIterator b.intoIter := by
  let idx : K → Nat := fun k => match B.keyToIndex k with | .ok i => i | _ => 0
  have hk : ∀ e ∈ a.entries, B.keyToIndex e.1 = .ok (idx e.1) := fun e he => by
    obtain ⟨i, hi⟩ := hidx e he
    simp only [idx, hi]
  have hmap : ∀ l : List (K × S), (∀ e ∈ l, B.keyToIndex e.1 = .ok (idx e.1)) → l.mapM (fun e => do
      let i ← B.keyToIndex e.1
      return (i, e.2)) = (.ok (l.map fun e => (idx e.1, e.2)) : Res _) := by
    intro l hl
    induction l with
    | nil => rfl
    | cons e es ih =>
      rw [List.mapM_cons, hl e (by simp), ih (fun e' h => hl e' (by simp [h]))]
      rfl
  have hsort : (a.entries.map fun e => (idx e.1, e.2)).mergeSort (fun x y => decide (x.1 ≤ y.1)) =
      (b.entries.map fun e => (idx e.1, e.2)).mergeSort (fun x y => decide (x.1 ≤ y.1)) := by
    refine List.Perm.eq_of_pairwise (le := fun x y => x.1 ≤ y.1) ?_ ?_ ?_
      ((List.mergeSort_perm _ _).trans ((hab.map _).trans (List.mergeSort_perm _ _).symm))
    · intro x y hx hy h1 h2
      rw [List.mem_mergeSort, List.mem_map] at hx hy
      obtain ⟨e, he, rfl⟩ := hx
      obtain ⟨e', he', rfl⟩ := hy
      have he' := hab.mem_iff.2 he'
      have h3 := hinj e he e' he' (by rw [hk e he, hk e' he']; exact congrArg Res.ok (Nat.le_antisymm h1 h2))
      obtain ⟨k, v⟩ := e
      obtain ⟨k', v'⟩ := e'
      cases h3
      have := (Sparse.find_of_mem ha he).symm.trans (Sparse.find_of_mem ha he')
      cases this
      rfl
    · exact (List.pairwise_mergeSort (by simp; omega) (by simp; omega) _).imp fun h => by simpa using h
    · exact (List.pairwise_mergeSort (by simp; omega) (by simp; omega) _).imp fun h => by simpa using h
  show Dense.fromIterator C B a.entries = Dense.fromIterator C B b.entries
  unfold Dense.fromIterator
  rw [hmap a.entries hk, hmap b.entries fun e he => hk e (hab.mem_iff.2 he), Res.bind_ok, Res.bind_ok, hsort]

end

section
variable {S R : Type} (C : Coeff S R) (p : Profile) (N : Nat)

/-- The runs of a program over sparse vectors.  Before each statement and at the end every register may change its order. -/
inductive SparseRun : List (PStmt S R) → (Nat → Sparse TensorKey S) → Res (Nat → Sparse TensorKey S) → Prop
  | done (σ τ) : (∀ i, (σ i).entries.Perm (τ i).entries) → SparseRun [] σ (.ok τ)
  | step (s prog σ τ υ r) : (∀ i, (σ i).entries.Perm (τ i).entries) → runSparseStmt C p N τ s = .ok υ → SparseRun prog υ r → SparseRun (s :: prog) σ r
  | stop (s prog σ τ r) : (∀ i, (σ i).entries.Perm (τ i).entries) → runSparseStmt C p N τ s = r → (∀ υ, r ≠ .ok υ) → SparseRun (s :: prog) σ r

variable {C p N}

theorem runSparseStmt_reordered {σ τ : Nat → Sparse TensorKey S} (h : ∀ i, Sparse.Reordered (σ i) (τ i)) (s : PStmt S R) :
    ResRel (fun σ τ => ∀ i, Sparse.Reordered (σ i) (τ i)) (runSparseStmt C p N σ s) (runSparseStmt C p N τ s) := by
  have hset : ∀ i {x y : Sparse TensorKey S}, Sparse.Reordered x y → ∀ j, Sparse.Reordered (setReg σ i x j) (setReg τ i y j) := by
    intro i x y hxy j
    unfold setReg
    split
    · exact hxy
    · exact h j
  cases s with
  | zero i => exact hset i .new
  | word i w s => exact .bind_eq fun k => hset i (.insert .new k s)
  | terms i items => exact .bind_eq fun l => hset i (.fromItems l)
  | clear i => exact hset i .new
  | modify i w f => exact .bind_eq fun k => .bind ((h i).getMut k f) fun _ _ h => hset i h.2
  | neg i => exact hset i ((h i).map C.uminus)
  | add i j => exact .bind ((h i).add (h j)) fun _ _ h => hset i h
  | sub i j => exact .bind ((h i).sub (h j)) fun _ _ h => hset i h
  | scale i s => exact .bind ((h i).scale s) fun _ _ h => hset i h
  | div i r => exact hset i ((h i).map fun x => C.div x r)
  | erase i w => exact .bind_eq fun k => trivial
  | _ => exact trivial

theorem sparseRun_reordered {prog : List (PStmt S R)} {σ τ : Nat → Sparse TensorKey S} {r : Res (Nat → Sparse TensorKey S)} (h : SparseRun C p N prog σ r)
    (hσ : ∀ i, Sparse.Reordered (σ i) (τ i)) :
    ResRel (fun σ τ => ∀ i, Sparse.Reordered (σ i) (τ i)) r (prog.foldlM (runSparseStmt C p N) τ) := by
  induction h generalizing τ with
  | done σ υ hp => exact fun i => (show Sparse.Reordered (υ i) (σ i) from ⟨((hp i).map Prod.fst).nodup_iff.1 (hσ i).1, (hp i).symm⟩).trans (hσ i)
  | step s prog σ σ' υ r hp hs _ ih =>
    have h1 := runSparseStmt_reordered (C := C) (p := p) (N := N) (σ := σ') (τ := τ)
      (fun i => (show Sparse.Reordered (σ' i) (σ i) from ⟨((hp i).map Prod.fst).nodup_iff.1 (hσ i).1, (hp i).symm⟩).trans (hσ i)) s
    rw [hs] at h1
    rw [List.foldlM_cons]
    cases h2 : runSparseStmt C p N τ s with
    | ok τ' =>
      rw [h2] at h1
      exact ih h1
    | _ => rw [h2] at h1; exact h1.elim
  | stop s prog σ σ' r hp hs hr =>
    have h1 := runSparseStmt_reordered (C := C) (p := p) (N := N) (σ := σ') (τ := τ)
      (fun i => (show Sparse.Reordered (σ' i) (σ i) from ⟨((hp i).map Prod.fst).nodup_iff.1 (hσ i).1, (hp i).symm⟩).trans (hσ i)) s
    rw [hs] at h1
    rw [List.foldlM_cons]
    cases r with
    | ok υ => exact absurd rfl (hr υ)
    | _ => cases h2 : runSparseStmt C p N τ s <;> rw [h2] at h1 <;> first | exact trivial | exact h1.elim

/-- C83, whole programs: two runs of a program, with any orders at any time, end the same way, and then in every register `get` gives the same answers for
all keys and equality tests the same results. -/
theorem C83_programs (prog : List (PStmt S R)) (r r' : Res (Nat → Sparse TensorKey S)) (h : SparseRun C p N prog (fun _ => (Sparse.ops C).new) r)
    (h' : SparseRun C p N prog (fun _ => (Sparse.ops C).new) r') :
    ResRel (fun σ τ => (∀ i, (σ i).entries.Perm (τ i).entries) ∧ (∀ i k, (Sparse.ops C).get (σ i) k = (Sparse.ops C).get (τ i) k) ∧
      ∀ i j, (Sparse.ops C).eq (σ i) (σ j) = (Sparse.ops C).eq (τ i) (τ j)) r r' := by
  have h0 : ∀ _ : Nat, Sparse.Reordered ((Sparse.ops C).new : Sparse TensorKey S) (Sparse.ops C).new := fun _ => Sparse.Reordered.new
  have h1 := sparseRun_reordered h h0
  have h2 := sparseRun_reordered h' h0
  generalize List.foldlM (runSparseStmt C p N) (fun _ => (Sparse.ops C).new) prog = q at h1 h2
  cases r <;> cases q <;> first | exact h1.elim | skip
  all_goals cases r' <;> first | exact h2.elim | exact trivial | skip
  rename_i σ υ τ
  have h3 : ∀ i, Sparse.Reordered (σ i) (τ i) := fun i => Sparse.Reordered.trans (h1 i) (Sparse.Reordered.symm (h2 i))
  refine ⟨fun i => (h3 i).2, fun i k => congrArg Res.ok ((h3 i).find k), fun i j => ?_⟩
  exact eq_reordered C (h3 i) (h3 j)

/-- C83: the run in which no order ever changes is one of the runs. -/
theorem C83_runs (prog : List (PStmt S R)) (σ : Nat → Sparse TensorKey S) : SparseRun C p N prog σ (prog.foldlM (runSparseStmt C p N) σ) := by
  induction prog generalizing σ with
  | nil => exact .done _ _ fun _ => .refl _
  | cons s prog ih =>
    rw [List.foldlM_cons]
    cases h : runSparseStmt C p N σ s with
    | ok τ => exact .step _ _ _ _ _ _ (fun _ => .refl _) h (ih τ)
    | _ => exact .stop _ _ _ _ _ (fun _ => .refl _) h nofun

end

/-- C83, tensors: converting reordered sparse tensors over valid keys gives the same dense tensor. -/
theorem C83_to_dense_tensor {S R : Type} (C : Coeff S R) (p : Profile) (N : Nat) (h1 : 1 ≤ N) (hN : N < 2 ^ 32) (a b : Sparse TensorKey S) (ha : a.WF)
    (hab : a.entries.Perm b.entries) (hv : ∀ e ∈ a.entries, ∃ w, ValidWord N w ∧ w.length ≤ maxDepth N ∧ fromLetters p N w = .ok e.1) :
    (DenseAlg.ops C p N).fromIterator a.intoIter = (DenseAlg.ops C p N).fromIterator b.intoIter := by
  refine C83_to_dense C (tensorBasis p N) a b ha hab (fun e he => ?_) (fun e he e' he' h => ?_)
  · obtain ⟨w, hw, hl, hk⟩ := hv e he
    obtain ⟨i, hi, _⟩ := C09_key_index_key p N h1 hN w hw hl e.1 hk
    exact ⟨i, hi⟩
  · obtain ⟨w, hw, hl, hk⟩ := hv e he
    obtain ⟨w', hw', hl', hk'⟩ := hv e' he'
    exact C09_index_injective p N h1 hN w w' hw hw' hl hl' e.1 e'.1 hk hk' h

/-- C83: that the keys are distinct matters.  The sum of three floating-point items for one key depends on their order. -/
theorem C83_duplicates_matter (F : FloatFmt) (hF : F = .f32 ∨ F = .f64) :
    ∃ (l l' : List (Nat × Fl)) (x y : Dense Fl) (u v : Fl), l.Perm l' ∧ (Dense.ops (floatCoeff F) integerBasis).fromIterator l = .ok x ∧
      (Dense.ops (floatCoeff F) integerBasis).fromIterator l' = .ok y ∧ (Dense.ops (floatCoeff F) integerBasis).get x 0 = .ok (some u) ∧
      (Dense.ops (floatCoeff F) integerBasis).get y 0 = .ok (some v) ∧ (floatCoeff F).eq u v = false := by
  have hok := fmt_ok F hF
  have h1 := one_valid F hF
  have hbig : NumOf F (2 ^ F.prec) := by
    rcases hF with rfl | rfl
    · exact ⟨1, 24, by decide, by decide, by decide, by norm_num [FloatFmt.f32]⟩
    · exact ⟨1, 53, by decide, by decide, by decide, by norm_num [FloatFmt.f64]⟩
  have hbig2 : NumOf F (2 ^ F.prec + 2) := by
    rcases hF with rfl | rfl
    · exact ⟨2 ^ 23 + 1, 1, by decide, by decide, by decide, by norm_num [FloatFmt.f32]⟩
    · exact ⟨2 ^ 52 + 1, 1, by decide, by decide, by decide, by norm_num [FloatFmt.f64]⟩
  have htwo : NumOf F 2 := by rcases hF with rfl | rfl <;> exact ⟨1, 1, by decide, by decide, by decide, by norm_num⟩
  have hp : (1 : Rat) ≤ 2 ^ F.prec := one_le_pow₀ (by norm_num)
  have hget : ∀ l : List (Nat × Fl), l ≠ [] → (∀ e ∈ l, e.1 = 0) → ∃ x, (Dense.ops (floatCoeff F) integerBasis).fromIterator l = .ok x ∧
      (Dense.ops (floatCoeff F) integerBasis).get x 0 = .ok (some ((l.map (·.2)).foldl (Fl.add F) (.zero false))) := by
    intro l hne hl
    obtain ⟨x, hx, _, _, hd⟩ := Dense.fromIterator_ok (floatCoeff F) integerBasis l id (fun _ _ => rfl) hne 255 (fun e he => by rw [hl e he]; decide)
      (fun _ _ _ => rfl)
    refine ⟨x, hx, congrArg Res.ok ((hd 0 (by decide)).trans ?_)⟩
    rw [List.filter_eq_self.2 fun e he => by simpa using hl e he]
    rfl
  obtain ⟨x, hx, gx⟩ := hget [(0, .fin (2 ^ F.prec)), (0, .fin 1), (0, .fin 1)] (by simp) (by simp)
  obtain ⟨y, hy, gy⟩ := hget [(0, .fin 1), (0, .fin 1), (0, .fin (2 ^ F.prec))] (by simp) (by simp)
  refine ⟨_, _, x, y, _, _, ?_, hx, hy, gx, gy, ?_⟩
  · exact (List.perm_append_comm (l₁ := [(0, Fl.fin (2 ^ F.prec))]) (l₂ := [(0, .fin 1), (0, .fin 1)]))
  · have e0 : Fl.add F (.zero false) (.fin (2 ^ F.prec)) = .fin (2 ^ F.prec) := by
      show Fl.round F false (0 + 2 ^ F.prec) = _
      rw [zero_add, round_num F hok _ _ (by positivity) hbig]
    have e1 : Fl.add F (.zero false) (.fin 1) = .fin 1 := by
      show Fl.round F false (0 + 1) = _
      rw [zero_add, round_num F hok _ _ one_ne_zero h1]
    have e2 : Fl.add F (.fin 1) (.fin 1) = .fin 2 := by
      show Fl.round F false (1 + 1) = _
      rw [show (1 + 1 : Rat) = 2 by norm_num, round_num F hok _ _ (by norm_num) htwo]
    have e3 : Fl.add F (.fin 2) (.fin (2 ^ F.prec)) = .fin (2 ^ F.prec + 2) := by
      show Fl.round F false (2 + 2 ^ F.prec) = _
      rw [add_comm, round_num F hok false (2 ^ F.prec + 2) (by linarith) hbig2]
    show Fl.eq (Fl.add F (Fl.add F (Fl.add F (.zero false) _) _) _) (Fl.add F (Fl.add F (Fl.add F (.zero false) _) _) _) = false
    rw [e0, e1, e2, e3, add_one_tie F hF, add_one_tie F hF]
    simp [Fl.eq]

/-! ## Concrete cases -/

/-- Two orders of the same three floating-point entries. -/
example := C83_operations (floatCoeff .f32) (⟨[(1, .fin 5), (2, .nan), (3, .inf true)]⟩ : Sparse Nat Fl) ⟨[(3, .inf true), (1, .fin 5), (2, .nan)]⟩
  ⟨[(2, .fin 1), (4, .zero true)]⟩ ⟨[(4, .zero true), (2, .fin 1)]⟩ (by unfold Sparse.WF; decide) (by decide)
  (by unfold Sparse.WF; decide) (by decide)

example (p : Profile) := C83_to_dense_tensor (floatCoeff .f64) p 3 (by omega) (by omega) ⟨[(⟨3, 24⟩, .fin 5), (⟨0, 0⟩, .nan)]⟩
  ⟨[(⟨0, 0⟩, .nan), (⟨3, 24⟩, .fin 5)]⟩ (by unfold Sparse.WF; decide) (List.Perm.swap _ _ _) (by
    intro e he
    rcases List.mem_cons.1 he with rfl | he
    · exact ⟨[2, 3, 1], by decide, by decide +kernel, by cases p <;> decide +kernel⟩
    · rcases List.mem_cons.1 he with rfl | he
      · exact ⟨[], by decide, by decide +kernel, by cases p <;> decide +kernel⟩
      · cases he)

/-- A run of `x_0 = 3 * (1) + 5 * (2); x_0 = -x_0` in which the two entries change places between the statements. -/
example (p : Profile) : SparseRun intCoeff p 2 [.terms 0 [([1], 3), ([2], 5)], .neg 0] (fun _ => (Sparse.ops intCoeff).new)
    (.ok (setReg (setReg (fun _ => ⟨[]⟩) 0 ⟨[(⟨1, 1⟩, 5), (⟨1, 0⟩, 3)]⟩) 0 ⟨[(⟨1, 1⟩, -5), (⟨1, 0⟩, -3)]⟩)) := by
  refine .step _ _ _ (fun _ => ⟨[]⟩) (setReg (fun _ => ⟨[]⟩) 0 ⟨[(⟨1, 0⟩, 3), (⟨1, 1⟩, 5)]⟩) _ (fun _ => .refl _) ?_
    (.step _ _ _ (setReg (fun _ => ⟨[]⟩) 0 ⟨[(⟨1, 1⟩, 5), (⟨1, 0⟩, 3)]⟩) _ _ (fun i => ?_) rfl (.done _ _ fun _ => .refl _))
  · have hk : List.mapM (fun e : List Nat × Int => (fun k => (k, e.2)) <$> fromLetters p 2 e.1) [([1], 3), ([2], 5)] =
        .ok [(⟨1, 0⟩, 3), (⟨1, 1⟩, 5)] := by cases p <;> decide +kernel
    show (_ >>= _) = _
    rw [hk]
    rfl
  · unfold setReg
    split
    · exact List.Perm.swap _ _ _
    · exact .refl _

end RA
