import Verif.Props.SparseProgram
import Verif.Props.ExactRange
import Verif.Props.FloatExactProg

/-!
# Linear programs over sparse vectors with checked arithmetic (C109)
-/

namespace RA
open Spec TensorKey TensorBasis Fallible DenseAlg

section
variable {S R : Type} (F : FCoeff S R) (p : Profile) (N : Nat)

/-- A statement, executed with the methods of the crate on registers holding sparse vectors over tensor keys; the coefficient arithmetic may panic.  As in `runSparseStmt`,
products are recorded as `panic`. -/
def runSparseStmtF (σ : Nat → Sparse TensorKey S) : PStmt S R → Res (Nat → Sparse TensorKey S)
  | .zero i => .ok (setReg σ i Sparse.new)
  | .word i w s => do
    let k ← fromLetters p N w
    let v ← Sparse.fromKeyScalar k s
    return setReg σ i v
  | .terms i items => do
    let keys ← items.mapM (fun e => (fun k => (k, e.2)) <$> fromLetters p N e.1)
    let v ← Sparse.fromIterator keys
    return setReg σ i v
  | .copy i j => do
    let v ← Sparse.toOwned (σ j)
    return setReg σ i v
  | .swap i j => do
    let (x, y) ← Sparse.swap (σ i) (σ j)
    return setReg (setReg σ i x) j y
  | .clear i => do
    let v ← Sparse.clear (σ i)
    return setReg σ i v
  | .modify i w f => do
    let k ← fromLetters p N w
    let r ← Sparse.getMut (σ i) k f
    return setReg σ i r.2
  | .erase i w => do
    let k ← fromLetters p N w
    let v ← Sparse.erase (σ i) k
    return setReg σ i v
  | .neg i => do
    let v ← temp (sUminus F (σ i))
    return setReg σ i v
  | .add i j => do
    let v ← temp (sAdd F (σ i) (σ j))
    return setReg σ i v
  | .sub i j => do
    let v ← temp (sSub F (σ i) (σ j))
    return setReg σ i v
  | .scale i s => do
    let v ← temp (sMul F (σ i) s)
    return setReg σ i v
  | .div i r => do
    let v ← temp (sDiv F (σ i) r)
    return setReg σ i v
  | .mul .. | .comm .. | .addMul .. | .subMul .. => .panic

/-- A program, started with every register `new()`. -/
def runSparseProgF (prog : List (PStmt S R)) : Res (Nat → Sparse TensorKey S) := prog.foldlM (runSparseStmtF F p N) (fun _ => Sparse.new)

end

section
variable {z : Prop} {S S' R R' : Type} {Q : S → S' → Prop} {P : R → R' → Prop} {F : FCoeff S R} {F' : FCoeff S' R'} (p : Profile) (N : Nat)

theorem runSparseStmtF_ref (hF : FRef z Q P F F') {σ : Nat → Sparse TensorKey S} {σ' : Nat → Sparse TensorKey S'} (h : ∀ i, SRel Q (σ i) (σ' i)) {st : PStmt S R}
    {st' : PStmt S' R'} (hst : StmtRel Q P st st') : ResRef z (fun τ τ' => ∀ i, SRel Q (τ i) (τ' i)) (runSparseStmtF F p N σ st) (runSparseStmtF F' p N σ' st') := by
  have hset : ∀ {i : Nat} {x : Res (Sparse TensorKey S)} {x' : Res (Sparse TensorKey S')}, ResRef z (SRel Q) x x' →
      ResRef z (fun τ τ' => ∀ i, SRel Q (τ i) (τ' i)) (x >>= fun v => .ok (setReg σ i v)) (x' >>= fun v => .ok (setReg σ' i v)) :=
    fun hx => .bind hx fun _ _ hv => .ok (setReg_rel h _ hv)
  cases hst with
  | zero i => exact .ok (setReg_rel h i .nil)
  | word i w s s' hs => exact .bind_eq fun k => hset (.ok (Sparse.hmInsert_rel .nil k hs))
  | terms i l l' hl => exact .bind (.of_rel (keys_rel p N hl)) fun _ _ hk => hset (.of_rel (Sparse.fromIterator_rel hk))
  | copy i j => trivial
  | swap i j => trivial
  | clear i => exact hset (.ok .nil)
  | modify i w f f' hf => exact .bind_eq fun k => .bind (.of_rel (Sparse.getMut_rel (h i) k hf)) fun _ _ hv => .ok (setReg_rel h i hv.2)
  | erase i w => exact .bind_eq fun k => trivial
  | neg i => exact hset (OutRef.temp (sUminus_ref hF (h i)))
  | add i j => exact hset (OutRef.temp (sAdd_ref hF (h i) (h j)))
  | sub i j => exact hset (OutRef.temp (sSub_ref hF (h i) (h j)))
  | scale i s s' hs => exact hset (OutRef.temp (sMul_ref hF (h i) hs))
  | div i r r' hr => exact hset (OutRef.temp (sDiv_ref hF (h i) hr))
  | mul i j k D => trivial
  | comm i j k D => trivial
  | addMul i j k D => trivial
  | subMul i j k D => trivial

theorem runSparseProgF_ref (hF : FRef z Q P F F') {prog : List (PStmt S R)} {prog' : List (PStmt S' R')} (h : List.Forall₂ (StmtRel Q P) prog prog') :
    ResRef z (fun σ σ' => ∀ i, SRel Q (σ i) (σ' i)) (runSparseProgF F p N prog) (runSparseProgF F' p N prog') :=
  .foldlM h (fun _ _ _ _ hσ hst => runSparseStmtF_ref p N hF hσ hst) fun _ => .nil

end

/-! ## One operation over guarded coefficients -/

section
variable {K S R : Type} [DecidableEq K] [CommRing S] {ok : S → Prop}

omit [CommRing S] in
theorem eachLoop_guard {g : S → Res Unit × S} {h : S → S} (hg : ∀ x, g x = guardIn ok x (h x)) (l : List S) :
    ((∀ x ∈ l, ok (h x)) → eachLoop g l = (.ok (), l.map h)) ∧ ((∃ x ∈ l, ¬ ok (h x)) → (eachLoop g l).1 = .panic) := by
  induction l with
  | nil => exact ⟨fun _ => rfl, fun ⟨_, h, _⟩ => (nomatch h)⟩
  | cons x l ih =>
    by_cases hx : ok (h x)
    · have e : g x = (.ok (), h x) := by rw [hg, guardIn_pos hx]
      refine ⟨fun ha => ?_, fun ⟨y, hy, hn⟩ => ?_⟩
      · have := ih.1 fun y hy => ha y (by simp [hy])
        unfold eachLoop at this ⊢
        simp only [zipLoop, e, this, List.map_cons]
      · unfold eachLoop
        simp only [zipLoop, e]
        rcases List.mem_cons.1 hy with rfl | hy
        · exact (hn hx).elim
        · exact ih.2 ⟨y, hy, hn⟩
    · have e : g x = (.panic, x) := by rw [hg, guardIn_neg hx]
      refine ⟨fun ha => (hx (ha x (by simp))).elim, fun _ => ?_⟩
      unfold eachLoop
      simp only [zipLoop, e]

omit [DecidableEq K] [CommRing S] in
theorem sEach_guard {g : S → Res Unit × S} {h : S → S} (hg : ∀ x, g x = guardIn ok x (h x)) (a : Sparse K S) :
    ((∀ e ∈ a.entries, ok (h e.2)) → temp (sEach g a) = .ok ⟨a.entries.map fun e => (e.1, h e.2)⟩) ∧ ((∃ e ∈ a.entries, ¬ ok (h e.2)) → temp (sEach g a) = .panic) := by
  obtain ⟨h1, h2⟩ := eachLoop_guard hg (a.entries.map (·.2))
  refine ⟨fun ha => ?_, fun ⟨e, he, hn⟩ => ?_⟩
  · have := h1 fun x hx => by obtain ⟨e, he, rfl⟩ := List.mem_map.1 hx; exact ha e he
    unfold temp sEach
    rw [this, List.map_map]
    dsimp only
    rw [List.zip_map']
    rfl
  · have := h2 ⟨e.2, List.mem_map_of_mem (f := (·.2)) he, hn⟩
    unfold temp sEach
    simp only [this]

theorem assign_guard {f : S → Res S} (hf : ∀ x, f x = guardTo ok (-x)) (x : S) : assign f x = guardIn ok x (-x) := by
  unfold assign
  rw [hf]
  unfold guardTo guardIn
  split_ifs <;> rfl

/-- One turn of the loop of `add_inplace` or `sub_inplace`. -/
theorem merge_guard {g : S → S → Res Unit × S} {h : S → S → S} {z : S → Res Bool} {new : S → Res S} (hg : ∀ x y, g x y = guardIn ok x (h x y))
    (hz : ∀ x, ∃ b, z x = .ok b ∧ (b = true ↔ x = 0)) (y : S) (hnew : new y = guardTo ok (h 0 y)) (o : Option S) :
    (ok (h (o.getD 0) y) → (mergeF g z new o y).1 = .ok () ∧ (mergeF g z new o y).2.getD 0 = h (o.getD 0) y) ∧
    (¬ ok (h (o.getD 0) y) → (mergeF g z new o y).1 = .panic) := by
  cases o with
  | none =>
    simp only [mergeF, hnew, Option.getD_none]
    exact ⟨fun hk => by rw [guardTo_pos hk]; exact ⟨rfl, rfl⟩, fun hk => by rw [guardTo_neg hk]⟩
  | some x =>
    simp only [mergeF, hg, Option.getD_some]
    refine ⟨fun hk => ?_, fun hk => ?_⟩
    · rw [guardIn_pos hk]
      obtain ⟨b, hb, hb'⟩ := hz (h x y)
      simp only [hb]
      cases b with
      | true => exact ⟨trivial, (hb'.1 rfl).symm⟩
      | false => exact ⟨trivial, rfl⟩
    · rw [guardIn_neg hk]

/-- `add_inplace` and `sub_inplace`, `h` the sum or the difference. -/
theorem sparse_merge {F : FCoeff S R} (hF : F.Guards ok) (he : ∀ x y, ∃ b, F.eq x y = .ok b) (a o : Sparse K S) (ha : Sparse.NoDup a.entries) (ho : Sparse.NoDup o.entries)
    (hok : ∀ e ∈ o.entries, ok e.2) (out : Res Unit × Sparse K S) (h : S → S → S) (hout : (out = sAdd F a o ∧ h = (· + ·)) ∨ (out = sSub F a o ∧ h = (· - ·))) :
    ((∀ e ∈ o.entries, ok (h ((Sparse.find a.entries e.1).getD 0) e.2)) → ∃ r, temp out = .ok r ∧ Sparse.NoDup r.entries ∧
      (∀ k, (Sparse.find r.entries k).getD 0 = h ((Sparse.find a.entries k).getD 0) ((Sparse.find o.entries k).getD 0)) ∧
      ∀ k ∈ r.entries.map (·.1), k ∈ a.entries.map (·.1) ∨ k ∈ o.entries.map (·.1)) ∧
    ((∃ e ∈ o.entries, ¬ ok (h ((Sparse.find a.entries e.1).getD 0) e.2)) → temp out = .panic) := by
  have hz : ∀ x, ∃ b, F.eq x F.zero = .ok b ∧ (b = true ↔ x = 0) := by
    intro x
    obtain ⟨b, hb⟩ := he x F.zero
    exact ⟨b, hb, by rw [hF.eq _ _ _ hb, hF.zero]⟩
  have h0 : ∀ x, h x 0 = x := by
    intro x
    rcases hout with ⟨-, rfl⟩ | ⟨-, rfl⟩ <;> simp
  obtain ⟨turn, ht, hturn⟩ : ∃ turn : K × S → Res Unit × Option S,
      ((out = sAdd F a o ∧ turn = fun e => mergeF F.addIn (fun y => F.eq y F.zero) .ok (Sparse.find a.entries e.1) e.2) ∨
      (out = sSub F a o ∧ turn = fun e => mergeF F.subIn (fun y => F.eq y F.zero) F.uminus (Sparse.find a.entries e.1) e.2)) ∧
      ∀ e ∈ o.entries, (ok (h ((Sparse.find a.entries e.1).getD 0) e.2) → (turn e).1 = .ok () ∧ (turn e).2.getD 0 = h ((Sparse.find a.entries e.1).getD 0) e.2) ∧
        (¬ ok (h ((Sparse.find a.entries e.1).getD 0) e.2) → (turn e).1 = .panic) := by
    rcases hout with ⟨h1, rfl⟩ | ⟨h1, rfl⟩
    · exact ⟨_, .inl ⟨h1, rfl⟩, fun e hm => merge_guard hF.addIn hz e.2 (by rw [zero_add, guardTo_pos (hok e hm)]) _⟩
    · exact ⟨_, .inr ⟨h1, rfl⟩, fun e hm => merge_guard hF.subIn hz e.2 (by rw [zero_sub, hF.uminus]) _⟩
  obtain ⟨n1, before, rest, n2, n3, n4, n5, n6⟩ := C100_sparse_add F a o ha ho out turn ht
  have hall : (∀ e ∈ o.entries, ok (h ((Sparse.find a.entries e.1).getD 0) e.2)) → rest = [] := by
    intro hk
    cases rest with
    | nil => rfl
    | cons e later =>
      have hm : e ∈ o.entries := by rw [n2]; simp
      exact (n6.1 ((hturn e hm).1 (hk e hm)).1).elim
  refine ⟨fun hk => ?_, fun ⟨e, hm, hn⟩ => ?_⟩
  · have := hall hk
    subst this
    rw [List.append_nil] at n2
    refine ⟨out.2, by unfold temp; rw [n6], n1, fun k => ?_, fun k hk' => ?_⟩
    · cases hf : Sparse.find o.entries k with
      | none =>
        rw [n5 k (Sparse.find_eq_none.1 hf)]
        exact (h0 _).symm
      | some v =>
        have hm := Sparse.mem_of_find hf
        rw [n4 (k, v) (n2 ▸ hm)]
        exact ((hturn _ hm).1 (hk _ hm)).2
    · by_contra hc
      rw [not_or] at hc
      rw [← Sparse.find_isSome, n5 k hc.2, Sparse.find_eq_none.2 hc.1] at hk'
      cases hk'
  · cases rest with
    | nil =>
      rw [List.append_nil] at n2
      have := n3 e (n2 ▸ hm)
      rw [(hturn e hm).2 hn] at this
      cases this
    | cons e' later =>
      have hm' : e' ∈ o.entries := by rw [n2]; simp
      have hp : out.1 = .panic := by
        rw [n6.2.1]
        exact (hturn e' hm').2 fun hc => n6.1 ((hturn e' hm').1 hc).1
      unfold temp
      rw [hp]

end

/-! ## Programs -/

section
variable {S R : Type} [CommRing S] (ok : S → Prop) (N D : Nat)

/-- The sparse vector holds the coefficients `f`, all of them in order, and none at a longer word. -/
structure SparseHolds (v : Sparse TensorKey S) (f : List Nat → S) : Prop where
  nodup : Sparse.NoDup v.entries
  keys : ∀ e ∈ v.entries, ∃ w, ValidWord N w ∧ w.length ≤ D ∧ e.1 = keyOf N w
  coef : ∀ w, ValidWord N w → w.length ≤ maxDepth N → (Sparse.find v.entries (keyOf N w)).getD 0 = f w
  good : ∀ w, ValidWord N w → w.length ≤ D → ok (f w)

variable {ok N D}

theorem sparseHolds_set {σ : Nat → Sparse TensorKey S} {ρ : Nat → List Nat → S} {v : Sparse TensorKey S} {f : List Nat → S}
    (h : ∀ i, SparseHolds ok N D (σ i) (ρ i)) (i : Nat) (hv : SparseHolds ok N D v f) : ∀ j, SparseHolds ok N D (setReg σ i v j) (setReg ρ i f j) := by
  intro j
  unfold setReg
  split_ifs
  exacts [hv, h j]

theorem SparseHolds.entry {v : Sparse TensorKey S} {f : List Nat → S} (h : SparseHolds ok N D v f) (hm : D ≤ maxDepth N) {e : TensorKey × S} (he : e ∈ v.entries) :
    ∃ w, ValidWord N w ∧ w.length ≤ D ∧ e.1 = keyOf N w ∧ e.2 = f w := by
  obtain ⟨w, h1, h2, h3⟩ := h.keys e he
  refine ⟨w, h1, h2, h3, ?_⟩
  rw [← h.coef w h1 (h2.trans hm), ← h3, Sparse.find_of_mem h.nodup (v := e.2) he]
  rfl

/-- A word without an entry has coefficient zero. -/
theorem SparseHolds.absent {v : Sparse TensorKey S} {f : List Nat → S} (h : SparseHolds ok N D v f) (hm : D ≤ maxDepth N) {w : List Nat} (hw : ValidWord N w) (hl : w.length ≤ D) :
    (∃ e ∈ v.entries, e.1 = keyOf N w ∧ e.2 = f w) ∨ f w = 0 := by
  have := h.coef w hw (hl.trans hm)
  cases hf : Sparse.find v.entries (keyOf N w) with
  | none => rw [hf] at this; exact .inr this.symm
  | some x => rw [hf] at this; exact .inl ⟨_, Sparse.mem_of_find hf, rfl, this⟩

/-- Applying `h` to every entry. -/
theorem each_step {g : S → Res Unit × S} {h : S → S} (hg : ∀ x, g x = guardIn ok x (h x)) (h0 : h 0 = 0) (hok : ok 0) (hm : D ≤ maxDepth N) {v : Sparse TensorKey S} {f : List Nat → S}
    (hv : SparseHolds ok N D v f) :
    ((∀ w, ValidWord N w → w.length ≤ D → ok (h (f w))) ∧ ∃ r, temp (sEach g v) = .ok r ∧ SparseHolds ok N D r fun w => h (f w)) ∨
    ((¬ ∀ w, ValidWord N w → w.length ≤ D → ok (h (f w))) ∧ temp (sEach g v) = .panic) := by
  obtain ⟨h1, h2⟩ := sEach_guard hg v
  by_cases hc : ∀ w, ValidWord N w → w.length ≤ D → ok (h (f w))
  · refine .inl ⟨hc, _, h1 fun e he => ?_, Sparse.noDup_map hv.nodup h, fun e he => ?_, fun w hw hl => ?_, hc⟩
    · obtain ⟨w, a1, a2, -, a4⟩ := hv.entry hm he
      rw [a4]
      exact hc w a1 a2
    · obtain ⟨e', he', rfl⟩ := List.mem_map.1 he
      exact hv.keys e' he'
    · rw [Sparse.find_map, ← hv.coef w hw hl]
      cases Sparse.find v.entries (keyOf N w) <;> simp [h0]
  · refine .inr ⟨hc, h2 ?_⟩
    push Not at hc
    obtain ⟨w, hw, hl, hn⟩ := hc
    rcases hv.absent hm hw hl with ⟨e, he, -, e2⟩ | h'
    · exact ⟨e, he, by rwa [e2]⟩
    · rw [h', h0] at hn
      exact (hn hok).elim

/-- Adding or subtracting. -/
theorem merge_step {F : FCoeff S R} (hF : F.Guards ok) (he : ∀ x y, ∃ b, F.eq x y = .ok b) (hm : D ≤ maxDepth N) {a o : Sparse TensorKey S} {f g : List Nat → S}
    (ha : SparseHolds ok N D a f) (ho : SparseHolds ok N D o g) (out : Res Unit × Sparse TensorKey S) (h : S → S → S)
    (hout : (out = sAdd F a o ∧ h = (· + ·)) ∨ (out = sSub F a o ∧ h = (· - ·))) :
    ((∀ w, ValidWord N w → w.length ≤ D → ok (h (f w) (g w))) ∧ ∃ r, temp out = .ok r ∧ SparseHolds ok N D r fun w => h (f w) (g w)) ∨
    ((¬ ∀ w, ValidWord N w → w.length ≤ D → ok (h (f w) (g w))) ∧ temp out = .panic) := by
  have hgood : ∀ e ∈ o.entries, ok e.2 := by
    intro e hm'
    obtain ⟨w, a1, a2, -, a4⟩ := ho.entry hm hm'
    rw [a4]
    exact ho.good w a1 a2
  obtain ⟨h1, h2⟩ := sparse_merge hF he a o ha.nodup ho.nodup hgood out h hout
  by_cases hc : ∀ w, ValidWord N w → w.length ≤ D → ok (h (f w) (g w))
  · obtain ⟨r, r1, r2, r3, r4⟩ := h1 fun e hm' => by
      obtain ⟨w, a1, a2, a3, a4⟩ := ho.entry hm hm'
      rw [a3, ha.coef w a1 (a2.trans hm), a4]
      exact hc w a1 a2
    refine .inl ⟨hc, r, r1, r2, fun e hm' => ?_, fun w hw hl => ?_, hc⟩
    · rcases r4 e.1 (List.mem_map_of_mem (f := (·.1)) hm') with h' | h' <;> obtain ⟨e', he', h3⟩ := List.mem_map.1 h' <;> rw [← h3]
      exacts [ha.keys e' he', ho.keys e' he']
    · rw [r3, ha.coef w hw hl, ho.coef w hw hl]
  · refine .inr ⟨hc, h2 ?_⟩
    push Not at hc
    obtain ⟨w, hw, hl, hn⟩ := hc
    rcases ho.absent hm hw hl with ⟨e, he', e1, e2⟩ | h'
    · exact ⟨e, he', by rwa [e1, ha.coef w hw (hl.trans hm), e2]⟩
    · have : h (f w) 0 = f w := by
        rcases hout with ⟨-, rfl⟩ | ⟨-, rfl⟩ <;> simp
      rw [h', this] at hn
      exact (hn (ha.good w hw hl)).elim

theorem sparseHolds_new (h0 : ok 0) : SparseHolds ok N D (Sparse.new : Sparse TensorKey S) fun _ => 0 :=
  ⟨List.nodup_nil, fun _ he => (nomatch he), fun _ _ _ => rfl, fun _ _ _ => h0⟩

theorem bind_set {σ : Nat → Sparse TensorKey S} {ρ : Nat → List Nat → S} (hσ : ∀ i, SparseHolds ok N D (σ i) (ρ i)) {i : Nat} {x : Res (Sparse TensorKey S)} {f : List Nat → S}
    {P : Prop} (h : (P ∧ ∃ r, x = .ok r ∧ SparseHolds ok N D r f) ∨ (¬ P ∧ x = .panic)) :
    (P ∧ ∃ σ', (x >>= fun v => .ok (setReg σ i v)) = .ok σ' ∧ ∀ j, SparseHolds ok N D (σ' j) (setReg ρ i f j)) ∨ (¬ P ∧ (x >>= fun v => .ok (setReg σ i v)) = .panic) := by
  rcases h with ⟨hP, r, rfl, hr⟩ | ⟨hP, rfl⟩
  · exact .inl ⟨hP, _, rfl, sparseHolds_set hσ i hr⟩
  · exact .inr ⟨hP, rfl⟩

omit [CommRing S] in
theorem itemValues_once (items : List (List Nat × S)) (h : (items.map (·.1)).Nodup) (w : List Nat) :
    itemValues items w = [] ∨ ∃ x, (w, x) ∈ items ∧ itemValues items w = [x] := by
  have hn : ((items.filter fun e => decide (e.1 = w)).map (·.1)).Nodup := h.sublist (List.filter_sublist.map _)
  have hm : ∀ e ∈ items.filter fun e => decide (e.1 = w), e ∈ items ∧ e.1 = w := fun e he => by simpa using he
  unfold itemValues
  generalize items.filter (fun e => decide (e.1 = w)) = l at hn hm
  rcases l with _ | ⟨⟨u, x⟩, _ | ⟨e', l⟩⟩
  · exact .inl rfl
  · obtain ⟨h1, rfl⟩ := hm _ (List.mem_singleton.2 rfl)
    exact .inr ⟨x, h1, rfl⟩
  · have h1 : u = w := (hm (u, x) (by simp)).2
    have h2 := (hm e' (by simp)).2
    simp only [List.map_cons, List.nodup_cons] at hn
    exact (hn.1 (by rw [h1, h2]; simp)).elim

/-- One statement returns if and only if the numbers that it computes are in order. -/
theorem sparse_stepF {F : FCoeff S R} (p : Profile) (hF : F.Guards ok) (he : ∀ x y, ∃ b, F.eq x y = .ok b) (h0 : ok 0) (h1 : 1 ≤ N) (hN : N < 2 ^ 32) (hm : D ≤ maxDepth N)
    (s : PStmt S R) (hs : s.Within N D) (hlin : Linear s) (hr : s.Scalars ok) {σ : Nat → Sparse TensorKey S} {ρ : Nat → List Nat → S}
    (hσ : ∀ i, SparseHolds ok N D (σ i) (ρ i)) :
    ((∀ w, ValidWord N w → w.length ≤ D → s.NumbersIn ok ρ w) ∧ ∃ σ', runSparseStmtF F p N σ s = .ok σ' ∧ ∀ j, SparseHolds ok N D (σ' j) (s.value ρ j)) ∨
    ((¬ ∀ w, ValidWord N w → w.length ≤ D → s.NumbersIn ok ρ w) ∧ runSparseStmtF F p N σ s = .panic) := by
  have keyEq : ∀ u w, ValidWord N u → ValidWord N w → u.length ≤ maxDepth N → w.length ≤ maxDepth N → (keyOf N u = keyOf N w ↔ u = w) :=
    fun u w hu hw hlu hlw => C02_key_eq_iff p N h1 hN u w hu hw hlu hlw _ _ (fromLetters_ok p N h1 hN u hu hlu) (fromLetters_ok p N h1 hN w hw hlw)
  cases s with
  | zero i => exact .inl ⟨fun _ _ _ => trivial, _, rfl, sparseHolds_set hσ i (sparseHolds_new h0)⟩
  | clear i => exact .inl ⟨fun _ _ _ => trivial, _, rfl, sparseHolds_set hσ i (sparseHolds_new h0)⟩
  | word i w x =>
    have hk := fromLetters_ok p N h1 hN w hs.1 (hs.2.trans hm)
    refine .inl ⟨fun _ _ _ => trivial, setReg σ i ⟨[(keyOf N w, x)]⟩, ?_, sparseHolds_set hσ i ⟨by simp [Sparse.NoDup], fun e he => ?_, fun u hu hl => ?_, fun u hu hl => ?_⟩⟩
    · show (fromLetters p N w >>= fun k => Sparse.fromKeyScalar k x >>= fun v => .ok (setReg σ i v)) = _
      rw [hk]
      rfl
    · obtain rfl : e = (keyOf N w, x) := by simpa using he
      exact ⟨w, hs.1, hs.2, rfl⟩
    · have := keyEq u w hu hs.1 hl (hs.2.trans hm)
      rw [Sparse.find_cons]
      dsimp only
      by_cases he : u = w
      · subst he
        simp
      · rw [if_neg he, if_neg fun e => he (this.1 e.symm), Sparse.find_nil]
        rfl
    · split_ifs
      exacts [hr, h0]
  | terms i items =>
    have hmapM : items.mapM (fun e => (fun k => (k, e.2)) <$> fromLetters p N e.1) = .ok (items.map fun e => (keyOf N e.1, e.2)) := by
      have hs' : ∀ e ∈ items, ValidWord N e.1 ∧ e.1.length ≤ D := hs
      clear hs hlin hr
      induction items with
      | nil => rfl
      | cons e es ih =>
        rw [List.mapM_cons, fromLetters_ok p N h1 hN e.1 (hs' e (by simp)).1 ((hs' e (by simp)).2.trans hm), ih fun e' h => hs' e' (by simp [h])]
        rfl
    have hval : ∀ w, ValidWord N w → w.length ≤ maxDepth N → (Sparse.find ((items.map fun e => (keyOf N e.1, e.2)).foldl (fun m e => Sparse.hmInsert m e.1 e.2) []) (keyOf N w)).getD 0 =
        (itemValues items w).sum := by
      intro w hw hl
      rw [Sparse.find_foldl_insert, Sparse.find_nil, Option.or_none, List.filter_map, List.map_map]
      have hf : items.filter ((fun e : TensorKey × S => decide (e.1 = keyOf N w)) ∘ fun e => (keyOf N e.1, e.2)) = items.filter fun e => decide (e.1 = w) := by
        apply List.filter_congr
        intro e he
        simp only [Function.comp, decide_eq_decide]
        exact keyEq e.1 w (hs e he).1 hw ((hs e he).2.trans hm) hl
      rw [hf]
      show ((itemValues items w).getLast?).getD 0 = _
      rcases itemValues_once items hlin w with h' | ⟨x, -, h'⟩ <;> rw [h'] <;> simp
    refine .inl ⟨fun w hw hl => ?_, setReg σ i ⟨(items.map fun e => (keyOf N e.1, e.2)).foldl (fun m e => Sparse.hmInsert m e.1 e.2) []⟩, ?_,
      sparseHolds_set hσ i ⟨?_, fun e he => ?_, hval, fun w hw hl => ?_⟩⟩
    · show SumsIn ok 0 (itemValues items w)
      rcases itemValues_once items hlin w with h' | ⟨x, hx, h'⟩ <;> rw [h']
      · trivial
      · refine ⟨?_, trivial⟩
        rw [zero_add]
        exact hr _ hx
    · show (items.mapM (fun e => (fun k => (k, e.2)) <$> fromLetters p N e.1) >>= fun keys => Sparse.fromIterator keys >>= fun v => .ok (setReg σ i v)) = _
      rw [hmapM]
      rfl
    · exact Sparse.noDup_foldl _ (fun m e hm => Sparse.noDup_hmInsert hm _ _) _ _ List.nodup_nil
    · have : (Sparse.find ((items.map fun e => (keyOf N e.1, e.2)).foldl (fun m e => Sparse.hmInsert m e.1 e.2) []) e.1).isSome = true :=
        Sparse.find_isSome.2 (List.mem_map_of_mem (f := (·.1)) he)
      rw [Sparse.find_foldl_insert, Sparse.find_nil, Option.or_none, List.getLast?_isSome, Ne, List.map_eq_nil_iff, List.filter_eq_nil_iff] at this
      push Not at this
      obtain ⟨e', he', h'⟩ := this
      obtain ⟨e'', he'', rfl⟩ := List.mem_map.1 he'
      exact ⟨e''.1, (hs e'' he'').1, (hs e'' he'').2, (by simpa using h' : keyOf N e''.1 = e.1).symm⟩
    · show ok (itemValues items w).sum
      rcases itemValues_once items hlin w with h' | ⟨x, hx, h'⟩ <;> rw [h']
      · exact h0
      · rw [List.sum_singleton]
        exact hr _ hx
  | neg i => exact bind_set hσ (each_step (assign_guard hF.uminus) neg_zero h0 hm (hσ i))
  | add i j => exact bind_set hσ (merge_step hF he hm (hσ i) (hσ j) _ _ (.inl ⟨rfl, rfl⟩))
  | sub i j => exact bind_set hσ (merge_step hF he hm (hσ i) (hσ j) _ _ (.inr ⟨rfl, rfl⟩))
  | scale i x =>
    refine bind_set hσ (f := fun w => ρ i w * x) ?_
    obtain ⟨b, hb⟩ := he x F.zero
    unfold sMul
    rw [hb]
    cases b with
    | true =>
      have hx : x = 0 := ((hF.eq _ _ _ hb).1 rfl).trans hF.zero
      subst hx
      refine .inl ⟨fun w _ _ => ?_, _, rfl, ?_⟩
      · show ok (ρ i w * 0)
        rw [mul_zero]
        exact h0
      · simp only [mul_zero]
        exact sparseHolds_new h0
    | false => exact each_step (fun y => hF.mulIn y x) (zero_mul x) h0 hm (hσ i)
  | copy _ _ | swap _ _ | modify _ _ _ | erase _ _ | div _ _ | mul _ _ _ _ | comm _ _ _ _ | addMul _ _ _ _ | subMul _ _ _ _ => exact absurd hlin id

/-- A program returns if and only if the numbers that it computes are in order, and panics if not. -/
theorem sparse_guarded {F : FCoeff S R} (p : Profile) (hF : F.Guards ok) (he : ∀ x y, ∃ b, F.eq x y = .ok b) (h0 : ok 0) (h1 : 1 ≤ N) (hN : N < 2 ^ 32) (hm : D ≤ maxDepth N)
    (prog : List (PStmt S R)) (hs : ∀ s ∈ prog, s.Within N D ∧ Linear s) (hr : ∀ s ∈ prog, s.Scalars ok) :
    (NumbersIn ok N D (fun _ _ => 0) prog ∧ ∃ σ, runSparseProgF F p N prog = .ok σ ∧ ∀ i, SparseHolds ok N D (σ i) (valueProg prog i)) ∨
    (¬ NumbersIn ok N D (fun _ _ => 0) prog ∧ runSparseProgF F p N prog = .panic) := by
  have key : ∀ (prog : List (PStmt S R)) (σ : Nat → Sparse TensorKey S) (ρ : Nat → List Nat → S), (∀ s ∈ prog, s.Within N D ∧ Linear s) → (∀ s ∈ prog, s.Scalars ok) →
      (∀ i, SparseHolds ok N D (σ i) (ρ i)) →
      (NumbersIn ok N D ρ prog ∧ ∃ σ', prog.foldlM (runSparseStmtF F p N) σ = .ok σ' ∧ ∀ i, SparseHolds ok N D (σ' i) (prog.foldl PStmt.value ρ i)) ∨
      (¬ NumbersIn ok N D ρ prog ∧ prog.foldlM (runSparseStmtF F p N) σ = .panic) := by
    intro prog
    induction prog with
    | nil => exact fun σ ρ _ _ hσ => .inl ⟨trivial, σ, rfl, hσ⟩
    | cons s prog ih =>
      intro σ ρ hs hr hσ
      rw [List.foldlM_cons]
      rcases sparse_stepF p hF he h0 h1 hN hm s (hs s (by simp)).1 (hs s (by simp)).2 (hr s (by simp)) hσ with ⟨a1, σ1, a2, a3⟩ | ⟨a1, a2⟩
      · rw [a2, Res.bind_ok]
        rcases ih σ1 _ (fun t ht => hs t (by simp [ht])) (fun t ht => hr t (by simp [ht])) a3 with ⟨b1, b2⟩ | ⟨b1, b2⟩
        · exact .inl ⟨⟨a1, b1⟩, b2⟩
        · exact .inr ⟨fun hc => b1 hc.2, b2⟩
      · rw [a2]
        exact .inr ⟨fun hc => a1 hc.1, rfl⟩
  exact key prog _ _ hs hr fun _ => sparseHolds_new h0

end

section
variable (p : Profile) (N : Nat)

/-- C109.  A linear program over sparse vectors with checked integers returns if and only if every sum, difference, multiple and negative that it computes, at every word, is in
the range; otherwise it panics. -/
theorem C109_exact {lo hi : Int} (hlo : lo ≤ 0) (hhi : 0 ≤ hi) (h1 : 1 ≤ N) (hN : N < 2 ^ 32) (D : Nat) (hm : D ≤ maxDepth N) (prog : List (PStmt Int Int))
    (hs : ∀ s ∈ prog, s.Within N D ∧ Linear s) (hr : ∀ s ∈ prog, s.Scalars (Between lo hi)) :
    ((∃ σ, runSparseProgF (rangeInt lo hi) p N prog = .ok σ) ↔ NumbersIn (Between lo hi) N D (fun _ _ => 0) prog) ∧
    (runSparseProgF (rangeInt lo hi) p N prog = .panic ↔ ¬ NumbersIn (Between lo hi) N D (fun _ _ => 0) prog) := by
  rcases sparse_guarded p (rangeInt_guards lo hi) (fun _ _ => ⟨_, rfl⟩) ⟨hlo, hhi⟩ h1 hN hm prog hs hr with ⟨a, σ, b, -⟩ | ⟨a, b⟩
  · exact ⟨⟨fun _ => a, fun _ => ⟨σ, b⟩⟩, ⟨fun h => (nomatch h.symm.trans b), fun h => (h a).elim⟩⟩
  · exact ⟨⟨fun ⟨σ, h⟩ => (nomatch h.symm.trans b), fun h => (a h).elim⟩, ⟨fun _ => a, fun _ => b⟩⟩

/-- C109.  What it returns is exact: every key occurs at most once, is the key of a word of the truncated tensor algebra, and carries the coefficient that the program says, which
is in the range; words without an entry have coefficient zero. -/
theorem C109_values {lo hi : Int} (hlo : lo ≤ 0) (hhi : 0 ≤ hi) (h1 : 1 ≤ N) (hN : N < 2 ^ 32) (D : Nat) (hm : D ≤ maxDepth N) (prog : List (PStmt Int Int))
    (hs : ∀ s ∈ prog, s.Within N D ∧ Linear s) (hr : ∀ s ∈ prog, s.Scalars (Between lo hi)) (σ : Nat → Sparse TensorKey Int)
    (hσ : runSparseProgF (rangeInt lo hi) p N prog = .ok σ) (i : Nat) :
    (σ i).WF ∧ (∀ e ∈ (σ i).entries, ∃ w, ValidWord N w ∧ w.length ≤ D ∧ fromLetters p N w = .ok e.1 ∧ Between lo hi e.2) ∧
    ∀ w k, ValidWord N w → w.length ≤ maxDepth N → fromLetters p N w = .ok k → ∃ x, Sparse.get (σ i) k = .ok x ∧ x.getD 0 = valueProg prog i w := by
  rcases sparse_guarded p (rangeInt_guards lo hi) (fun _ _ => ⟨_, rfl⟩) ⟨hlo, hhi⟩ h1 hN hm prog hs hr with ⟨-, τ, b, c⟩ | ⟨-, b⟩
  · cases hσ.symm.trans b
    refine ⟨(c i).nodup, fun e he => ?_, fun w k hw hl hk => ⟨_, rfl, ?_⟩⟩
    · obtain ⟨w, a1, a2, a3, a4⟩ := (c i).entry hm he
      exact ⟨w, a1, a2, by rw [a3]; exact fromLetters_ok p N h1 hN w a1 (a2.trans hm), by rw [a4]; exact (c i).good w a1 a2⟩
    · cases (fromLetters_ok p N h1 hN w hw hl).symm.trans hk
      exact (c i).coef w hw hl
  · cases hσ.symm.trans b

/-- C109.  Dense and sparse vectors with checked integers are interchangeable in linear programs: they return on the same programs, with the same coefficient at every word, and
panic on the same programs. -/
theorem C109_dense_sparse_agree {lo hi : Int} (hlo : lo ≤ -1) (hhi : 1 ≤ hi) (h2 : 2 ≤ N) (hN : N < 2 ^ 32) (D : Nat) (hm : D ≤ maxDepth N) (hp : N ^ (D + 1) < 2 ^ 64)
    (prog : List (PStmt Int Int)) (hs : ∀ s ∈ prog, s.Within N D ∧ Linear s) (hr : ∀ s ∈ prog, s.Scalars (Between lo hi)) :
    (runProgF (rangeInt lo hi) p N prog = .panic ∧ runSparseProgF (rangeInt lo hi) p N prog = .panic) ∨
    ∃ σ τ, runProgF (rangeInt lo hi) p N prog = .ok σ ∧ runSparseProgF (rangeInt lo hi) p N prog = .ok τ ∧
      ∀ i w k, ValidWord N w → w.length ≤ maxDepth N → fromLetters p N w = .ok k →
        ∃ x y, Dense.get (tensorBasis p N) (σ i) k = .ok x ∧ Sparse.get (τ i) k = .ok y ∧ x.getD 0 = y.getD 0 := by
  have hal : ∀ s ∈ prog, s.Within N D ∧ s.Algebraic := fun s h => ⟨(hs s h).1, linear_algebraic (hs s h).2⟩
  have ha := linear_allowed prog (fun s h => (hs s h).2) fun _ => 0
  obtain ⟨d1, d2⟩ := C105_exact_signed p N hlo hhi h2 hN D hm hp prog hal ha hr
  obtain ⟨e1, e2⟩ := C109_exact p N (by omega) (by omega) (by omega) hN D hm prog hs hr
  by_cases hc : NumbersIn (Between lo hi) N D (fun _ _ => 0) prog
  · obtain ⟨σ, hσ⟩ := d1.2 hc
    obtain ⟨τ, hτ⟩ := e1.2 hc
    refine .inr ⟨σ, τ, hσ, hτ, fun i w k hw hl hk => ?_⟩
    obtain ⟨y, y1, y2⟩ := (C109_values p N (by omega) (by omega) (by omega) hN D hm prog hs hr τ hτ i).2.2 w k hw hl hk
    refine ⟨_, y, get_word p N (by omega) hN (σ i) w hw hl k hk, y1, ?_⟩
    rw [y2]
    exact ((guarded_returns p N (rangeInt_guards lo hi) ⟨by omega, by omega⟩ h2 hN hm hp prog hal ha hr).2 σ hσ).2 i w hw hl
  · exact .inl ⟨d2.2 hc, e2.2 hc⟩

variable {S R : Type} (C : Coeff S R)

/-- The programs of C67 are these programs when the coefficient operations return. -/
theorem sparse_run_total (prog : List (PStmt S R)) : runSparseProg C p N prog = runSparseProgF (.ofCoeff C) p N prog := by
  have hset : ∀ {σ : Nat → Sparse TensorKey S} {i : Nat} {v : Sparse TensorKey S}, (∀ i, Sparse.NoDup (σ i).entries) → Sparse.NoDup v.entries →
      ∀ j, Sparse.NoDup (setReg σ i v j).entries := by
    intro σ i v h hv j
    unfold setReg
    split_ifs
    exacts [hv, h j]
  have step : ∀ (σ : Nat → Sparse TensorKey S) (s : PStmt S R), (∀ i, Sparse.NoDup (σ i).entries) → runSparseStmt C p N σ s = runSparseStmtF (.ofCoeff C) p N σ s ∧
      ∀ τ, runSparseStmt C p N σ s = .ok τ → ∀ i, Sparse.NoDup (τ i).entries := by
    intro σ s h
    have hops : ∀ {x : Res (Sparse TensorKey S)} {q : Res Unit × Sparse TensorKey S} {i : Nat}, x = .ok q.2 → q.1 = .ok () → (∀ v, x = .ok v → Sparse.NoDup v.entries) →
        (x >>= fun v => .ok (setReg σ i v)) = (temp q >>= fun v => .ok (setReg σ i v)) ∧
        ∀ τ, (x >>= fun v => .ok (setReg σ i v)) = .ok τ → ∀ i, Sparse.NoDup (τ i).entries := by
      intro x q i h1 h2 h3
      subst h1
      unfold temp
      rw [h2]
      refine ⟨rfl, ?_⟩
      rintro τ ⟨⟩
      exact hset h (h3 _ rfl)
    have hkey : ∀ {A : Type} {k : Res A} {f g : A → Res (Nat → Sparse TensorKey S)}, (∀ a, f a = g a ∧ ∀ τ, f a = .ok τ → ∀ i, Sparse.NoDup (τ i).entries) →
        (k >>= f) = (k >>= g) ∧ ∀ τ, (k >>= f) = .ok τ → ∀ i, Sparse.NoDup (τ i).entries := by
      intro A k f g hfg
      cases k with
      | ok a => exact hfg a
      | _ => exact ⟨rfl, nofun⟩
    have htot := fun i j s r => C100_sparse_total C (σ i) (σ j) (h i) s r
    cases s with
    | zero i => exact ⟨rfl, by rintro τ ⟨⟩; exact hset h List.nodup_nil⟩
    | word i w s => exact hkey fun k => ⟨rfl, by rintro τ ⟨⟩; exact hset h (Sparse.noDup_hmInsert (m := []) List.nodup_nil _ _)⟩
    | terms i items =>
      exact hkey fun k => ⟨rfl, by rintro τ ⟨⟩; exact hset h (Sparse.noDup_foldl _ (fun m e hm => Sparse.noDup_hmInsert hm _ _) _ _ List.nodup_nil)⟩
    | copy i j => exact ⟨rfl, nofun⟩
    | swap i j => exact ⟨rfl, nofun⟩
    | clear i => exact ⟨rfl, by rintro τ ⟨⟩; exact hset h List.nodup_nil⟩
    | modify i w f =>
      refine hkey fun k => ⟨rfl, ?_⟩
      show ∀ τ, (Sparse.getMut (σ i) k f >>= fun r => .ok (setReg σ i r.2)) = .ok τ → _
      unfold Sparse.getMut
      split_ifs <;> rintro τ ⟨⟩
      exacts [hset h (Sparse.noDup_modifyAt (h i) k f), hset h (h i)]
    | erase i w => exact hkey fun k => ⟨rfl, nofun⟩
    | neg i =>
      refine hops (htot i i C.zero (C.ratFromDegree 0)).2.2.2.2.2.2.2.2.1 (htot i i C.zero (C.ratFromDegree 0)).2.2.2.2.2.2.2.2.2 ?_
      rintro v ⟨⟩
      exact Sparse.noDup_map (h i) C.uminus
    | add i j =>
      refine hops (htot i j C.zero (C.ratFromDegree 0)).1 (htot i j C.zero (C.ratFromDegree 0)).2.1 ?_
      rintro v ⟨⟩
      exact Sparse.noDup_foldl _ (fun m e hm => Sparse.noDup_addStep C hm e) _ _ (h i)
    | sub i j =>
      refine hops (htot i j C.zero (C.ratFromDegree 0)).2.2.1 (htot i j C.zero (C.ratFromDegree 0)).2.2.2.1 ?_
      rintro v ⟨⟩
      exact Sparse.noDup_foldl _ (fun m e hm => Sparse.noDup_subStep C hm e) _ _ (h i)
    | scale i s =>
      refine hops (htot i i s (C.ratFromDegree 0)).2.2.2.2.1 (htot i i s (C.ratFromDegree 0)).2.2.2.2.2.1 ?_
      show ∀ v, Sparse.scalarLmultiplyInplace C (σ i) s = .ok v → _
      unfold Sparse.scalarLmultiplyInplace
      split_ifs <;> rintro v ⟨⟩
      exacts [List.nodup_nil, Sparse.noDup_map (h i) fun x => C.mul x s]
    | div i r =>
      refine hops (htot i i C.zero r).2.2.2.2.2.2.1 (htot i i C.zero r).2.2.2.2.2.2.2.1 ?_
      rintro v ⟨⟩
      exact Sparse.noDup_map (h i) fun x => C.div x r
    | mul i j k D => exact ⟨rfl, nofun⟩
    | comm i j k D => exact ⟨rfl, nofun⟩
    | addMul i j k D => exact ⟨rfl, nofun⟩
    | subMul i j k D => exact ⟨rfl, nofun⟩
  have key : ∀ (prog : List (PStmt S R)) (σ : Nat → Sparse TensorKey S), (∀ i, Sparse.NoDup (σ i).entries) →
      prog.foldlM (runSparseStmt C p N) σ = prog.foldlM (runSparseStmtF (.ofCoeff C) p N) σ := by
    intro prog
    induction prog with
    | nil => exact fun _ _ => rfl
    | cons s prog ih =>
      intro σ h
      obtain ⟨h1, h2⟩ := step σ s h
      rw [List.foldlM_cons, List.foldlM_cons, ← h1]
      cases hc : runSparseStmt C p N σ s with
      | ok τ => exact ih τ (h2 τ hc)
      | _ => rfl
  exact key prog _ fun _ => List.nodup_nil

/-- C109.  Sparse programs, with division and changes of single entries: if a program over coefficients that may panic returns, the same program on the exact scalars returns, and
every register holds the exact coefficients. -/
theorem C109_programs {S' R' : Type} {F : FCoeff S' R'} {φ : S' → S} {P : R' → R → Prop} (hF : F.ExactFor φ P C) (prog : List (PStmt S' R')) (prog' : List (PStmt S R))
    (h : List.Forall₂ (StmtRel (Img φ) P) prog prog') :
    ReturnsAs F.OnlyPanics (fun σ i => (σ i).map φ) (runSparseProgF F p N prog) (runSparseProg C p N prog') :=
  returnsAs_of (runSparseProgF_ref p N (exact_ref hF) h) (fun _ _ h2 => funext fun i => (sRel_img ..).1 (h2 i)) (sparse_run_total p N C prog')

end

section
variable {F : FloatFmt} {R : Type} (p : Profile) (N : Nat)

/-- C109.  A linear program over sparse vectors with floating-point numbers in which every number that the program computes can be represented, taken exactly, makes no rounding
error. -/
theorem C109_float (hF : F = .f32 ∨ F = .f64) (h1 : 1 ≤ N) (hN : N < 2 ^ 32) (D : Nat) (hm : D ≤ maxDepth N) (prog : List (PStmt Rat R))
    (hs : ∀ s ∈ prog, s.Within N D ∧ Linear s) (prog' : List (PStmt Fl Fl)) {P : R → Fl → Prop} (h : List.Forall₂ (StmtRel (StandsFor F) P) prog prog')
    (hn : NumbersIn (Binary F.prec F.eMin F.eMax) N D (fun _ _ => 0) prog) :
    ∃ σ, runSparseProg (floatCoeff F) p N prog' = .ok σ ∧ ∀ i w, ValidWord N w → w.length ≤ maxDepth N →
      ∃ k x, fromLetters p N w = .ok k ∧ (Sparse.ops (floatCoeff F)).get (σ i) k = .ok x ∧
        (x.getD (floatCoeff F).zero).isFin = true ∧ (x.getD (floatCoeff F).zero).val = valueProg prog i w := by
  have hr : ∀ s ∈ prog, s.Scalars (NumOf F) := forall₂_left (fun _ _ hs => scalars_rel (ok := NumOf F) (fun _ _ h => standsFor_num (fmt_ok F hF) h) hs) h
  rcases sparse_guarded p (reprRat_guards F R) (fun _ _ => ⟨_, rfl⟩) (numOf_zero F (fmt_ok F hF)) h1 hN hm prog hs hr with ⟨-, τ, b, c⟩ | ⟨a, -⟩
  · obtain ⟨σ, h3, h4⟩ := (runSparseProgF_ref p N (float_ref hF (RingHom.id Rat) (fun _ _ h => h) (fun _ h => h) (reprRat_guards F R) (reprRat_safe F R))
      (progRel_div (P' := fun _ _ => False) h fun s h => linear_algebraic (hs s h).2)).ret b
    refine ⟨σ, by rw [sparse_run_total]; exact h3, fun i w hv hl => ⟨_, _, fromLetters_ok p N h1 hN w hv hl, rfl, ?_⟩⟩
    have hc := (c i).coef w hv hl
    rcases Sparse.find_rel (h4 i) (keyOf N w) with ⟨f1, f2⟩ | ⟨x, y, f1, f2, hxy⟩
    · rw [f1] at hc
      rw [f2, ← hc]
      exact ⟨rfl, rfl⟩
    · rw [f1] at hc
      rw [f2, ← hc]
      exact hxy.2
  · exact (a hn).elim

end

/-! ## Division -/

/-- `x = a`, `y = a`, `x = x - y`, `x = x / 0`. -/
def divideNothing : List (PStmt Int Int) := [.word 0 [1] 1, .word 1 [1] 1, .sub 0 1, .div 0 0]

/-- C109.  With division the two vector types differ: a dense vector divides the zeros that it stores as well. -/
theorem C109_division_differs (p : Profile) : runProgF checkedI64 p 2 divideNothing = .panic ∧ ∃ σ, runSparseProgF checkedI64 p 2 divideNothing = .ok σ ∧ (σ 0).entries = [] := by
  constructor
  · have h : (do let σ ← runProgF checkedI64 p 2 divideNothing; return (σ 0).data) = .panic := by cases p <;> decide +kernel
    cases hc : runProgF checkedI64 p 2 divideNothing with
    | panic => rfl
    | _ => rw [hc] at h; cases h
  · have h : (do let σ ← runSparseProgF checkedI64 p 2 divideNothing; return (σ 0).entries) = .ok [] := by cases p <;> decide +kernel
    obtain ⟨σ, h1, h2⟩ := bind_ok_inv h
    cases h2' : (σ 0).entries with
    | nil => exact ⟨σ, h1, h2'⟩
    | cons e l => rw [h2'] at h2; cases h2

/-! ## Examples -/

theorem linearProg_scalars {lo hi : Int} (hlo : lo ≤ -3) (hhi : 5 ≤ hi) : ∀ s ∈ linearProg, s.Scalars (Between lo hi) := by
  intro s hs
  simp only [linearProg, List.mem_cons, List.not_mem_nil, or_false] at hs
  rcases hs with rfl | rfl | rfl | rfl | rfl | rfl | rfl | rfl | rfl <;> simp only [PStmt.Scalars, Between] <;> first | trivial | (constructor <;> omega) | skip
  simp only [List.mem_cons, List.not_mem_nil, or_false, forall_eq_or_imp, forall_eq]
  omega

/-- From -17 to 15 `linearProg` returns. -/
example : (do let σ ← runSparseProgF (rangeInt (-17) 15) .debug 2 linearProg; return ((σ 0).entries.map Prod.snd, (σ 1).entries.map Prod.snd)) = .ok ([-17, 3], [15]) := by
  decide +kernel

/-- From -16 to 15 it panics with sparse vectors, and so it does with dense vectors. -/
example (p : Profile) : runSparseProgF (rangeInt (-16) 15) p 2 linearProg = .panic ∧ runProgF (rangeInt (-16) 15) p 2 linearProg = .panic := by
  have hn : ¬ NumbersIn (Between (-16) 15) 2 3 (fun _ _ => 0) linearProg := fun h => by
    have := h.2.2.2.2.2.2.2.1 [1] (by decide) (by decide)
    exact absurd this.1 (by decide +kernel)
  have h := (C109_exact p 2 (by omega) (by omega) (by omega) (by omega) 3 (by decide +kernel) linearProg linearProg_ok (linearProg_scalars (by omega) (by omega))).2.2 hn
  refine ⟨h, ?_⟩
  rcases C109_dense_sparse_agree p 2 (lo := -16) (hi := 15) (by omega) (by omega) (by omega) (by omega) 3 (by decide +kernel) (by decide) linearProg linearProg_ok
    (linearProg_scalars (by omega) (by omega)) with h' | ⟨σ, τ, -, h', -⟩
  · exact h'.1
  · cases h.symm.trans h'

example (p : Profile) (σ : Nat → Sparse TensorKey Int) (h : runSparseProgF (rangeInt (-17) 15) p 2 linearProg = .ok σ) :=
  C109_values p 2 (lo := -17) (hi := 15) (by omega) (by omega) (by omega) (by omega) 3 (by decide +kernel) linearProg linearProg_ok (linearProg_scalars (by omega) (by omega)) σ h 1

/-- `x = 7 a - b`, `x = x / 2`, the coefficient of `a` plus 1. -/
def halfProg : List (PStmt Int Int) := [.word 0 [1] 7, .word 1 [2] 1, .sub 0 1, .div 0 2, .modify 0 [1] (· + 1)]

theorem halfProg_rel : List.Forall₂ (StmtRel (Img id) Eq) halfProg halfProg :=
  .cons (.word _ _ _ _ rfl) (.cons (.word _ _ _ _ rfl) (.cons (.sub _ _) (.cons (.div _ _ _ rfl) (.cons (.modify _ _ _ _ fun _ _ h => congrArg (· + 1) h) .nil))))

example (p : Profile) : ∃ σ, runSparseProgF checkedI64 p 2 halfProg = .ok σ ∧ (σ 0).entries.map Prod.snd = [4, 0] ∧
    ∃ τ, runSparseProg truncCoeff p 2 halfProg = .ok τ ∧ (τ 0).entries.map Prod.snd = [4, 0] := by
  have h : (runSparseProgF checkedI64 p 2 halfProg >>= fun σ => .ok ((σ 0).entries.map Prod.snd)) = .ok [4, 0] := by cases p <;> decide +kernel
  obtain ⟨σ, h1, h2⟩ := bind_ok_inv h
  injection h2 with h2
  refine ⟨σ, h1, h2, _, (C109_programs p 2 truncCoeff (C103_integers _ _) halfProg halfProg halfProg_rel).1 σ h1, ?_⟩
  rw [← h2]
  unfold Sparse.map
  rw [List.map_map]
  rfl

/-- `x = a / 2 - 3/4 b`, `y = a / 2`, `x = x - y`, `x = x / 4`. -/
def dyadicLinear : List (PStmt Rat Unit) := [.word 0 [1] (1 / 2), .word 1 [2] (-3 / 4), .add 0 1, .word 1 [1] (1 / 2), .sub 0 1, .scale 0 (1 / 4)]
def dyadicLinearF : List (PStmt Fl Fl) :=
  [.word 0 [1] (.fin (1 / 2)), .word 1 [2] (.fin (-3 / 4)), .add 0 1, .word 1 [1] (.fin (1 / 2)), .sub 0 1, .scale 0 (.fin (1 / 4))]

example (p : Profile) : ∃ σ, runSparseProg (floatCoeff .f32) p 2 dyadicLinearF = .ok σ ∧ ∃ k x, fromLetters p 2 [2] = .ok k ∧ Sparse.get (σ 0) k = .ok x ∧
    (x.getD (floatCoeff .f32).zero).val = -3 / 16 := by
  have t : ∀ {x : Rat} (n e : Int), x ≠ 0 → x = n * 2 ^ e → |n| < 2 ^ 24 → -149 ≤ e → e ≤ 104 → StandsFor .f32 x (.fin x) :=
    fun n e h0 h h1 h2 h3 => ⟨⟨h0, h ▸ quarters n e h1 h2 h3⟩, rfl, rfl⟩
  have t2 : StandsFor .f32 (1 / 2) (.fin (1 / 2)) := t 1 (-1) (by norm_num) (by norm_num) (by decide) (by decide) (by decide)
  have t4 : StandsFor .f32 (-3 / 4) (.fin (-3 / 4)) := t (-3) (-2) (by norm_num) (by norm_num) (by decide) (by decide) (by decide)
  have t5 : StandsFor .f32 (1 / 4) (.fin (1 / 4)) := t 1 (-2) (by norm_num) (by norm_num) (by decide) (by decide) (by decide)
  obtain ⟨σ, h1, h2⟩ := C109_float (R := Unit) p 2 (.inl rfl) (by omega) (by omega) 1 (by decide +kernel) dyadicLinear (fun s h => by
      simp only [dyadicLinear, List.mem_cons, List.not_mem_nil, or_false] at h
      rcases h with rfl | rfl | rfl | rfl | rfl | rfl <;> simp only [PStmt.Within, Linear] <;> decide) dyadicLinearF (P := fun _ _ => True)
    (.cons (.word _ _ _ _ t2) (.cons (.word _ _ _ _ t4) (.cons (.add _ _) (.cons (.word _ _ _ _ t2) (.cons (.sub _ _) (.cons (.scale _ _ _ t5) .nil)))))) (by
    refine ⟨fun _ _ _ => trivial, fun _ _ _ => trivial, short_words ?_ ?_ ?_, fun _ _ _ => trivial, short_words ?_ ?_ ?_, short_words ?_ ?_ ?_, trivial⟩
    all_goals exact sixteenth_num _ (by decide +kernel))
  obtain ⟨k, x, k1, k2, -, k3⟩ := h2 0 [2] (by decide) (by decide +kernel)
  exact ⟨σ, h1, k, x, k1, k2, k3.trans (by decide +kernel)⟩

end RA
