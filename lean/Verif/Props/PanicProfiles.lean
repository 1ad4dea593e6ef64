import Verif.Props.PanicBuilds

/-!
# Caught panics in debug and release builds (C120)

Index arithmetic of the crate does not overflow on vectors of words of at most `D` letters, if `N ^ (D + 1)` fits in 64 bits.  So with coefficients whose own
panics do not depend on the build (checked arithmetic, say), a program whose panics are caught runs in the same way in debug and in release builds: the same
statements panic, the half-finished vectors are the same, and if it is undefined behaviour in one build it is in the other.
-/

namespace RA
open Spec TensorKey TensorBasis DenseAlg Fallible

section
variable {S R T : Type} (F : FCoeff S R) (p p' : Profile) {N D : Nat}

/-- The vector has no more entries than there are words of at most `D` letters.  It need not be complete. -/
def Small (N D : Nat) (d : Dense S) : Prop := d.size ≤ geomSum N (D + 1)

theorem block_of (N : Nat) {i n : Nat} (h : i < geomSum N n) : ∃ d < n, geomSum N d ≤ i ∧ i < geomSum N (d + 1) := by
  induction n with
  | zero => exact absurd h (Nat.not_lt_zero _)
  | succ n ih =>
    rcases Nat.lt_or_ge i (geomSum N n) with hi | hi
    · obtain ⟨d, hd, h1⟩ := ih hi
      exact ⟨d, by omega, h1⟩
    · exact ⟨n, by omega, hi, h⟩

theorem small_degree (h2 : 2 ≤ N) (hp : N ^ (D + 1) < 2 ^ 64) {d : Dense S} (h : Small N D d) :
    ∃ e ≤ D, ∀ q, Dense.degree (tensorBasis q N) d = .ok e := by
  rcases Nat.eq_zero_or_pos d.size with h0 | h0
  · exact ⟨0, by omega, fun q => by unfold Dense.degree; rw [if_pos h0]⟩
  · obtain ⟨e, he, h1, h3⟩ := block_of N (i := d.size - 1) (n := D + 1) (by unfold Small at h; omega)
    refine ⟨e, by omega, fun q => ?_⟩
    unfold Dense.degree
    rw [if_neg (by omega)]
    exact indexToDegree_ok q N h2 _ e (pow_lt64_mono h2 (by omega) hp) h1 h3

theorem foldlM_same {m : Type → Type} [Monad m] {A B : Type} {f g : B → A → m B} (l : List A) (h : ∀ a ∈ l, ∀ b, f b a = g b a) (b : B) :
    l.foldlM f b = l.foldlM g b := by
  induction l generalizing b with
  | nil => rfl
  | cons a l ih =>
    rw [List.foldlM_cons, List.foldlM_cons, h a (by simp)]
    exact congrArg _ (funext fun c => ih (fun x hx => h x (by simp [hx])) c)

theorem step_same (h2 : 2 ≤ N) (hp : N ^ (D + 1) < 2 ^ 64) (upd : Update S T) (lhs rhs : Dense S) {o k : Nat} (ho : o ≤ D) (hk : k ≤ o) (u : Unit) :
    mulAddStepF p N upd lhs rhs o u k = mulAddStepF p' N upd lhs rhs o u k := by
  have hr : ∀ d ≤ D, ∀ q, degreeRange q N d = .ok (geomSum N d, geomSum N (d + 1)) := fun d hd q => degreeRange_ok q N h2 d (pow_lt64_mono h2 (by omega) hp)
  unfold mulAddStepF
  rw [subW_ok hk, subW_ok hk, hr o ho p, hr o ho p', hr k (by omega) p, hr k (by omega) p']
  show Unw.bind (Unw.lift (.ok (o - k))) _ = Unw.bind (Unw.lift (.ok (o - k))) _
  funext st
  show (_ : Unw _ _) st = (_ : Unw _ _) st
  unfold Unw.bind Unw.lift
  dsimp only
  rw [hr (o - k) (by omega) p, hr (o - k) (by omega) p']

theorem product_same (h2 : 2 ≤ N) (hp : N ^ (D + 1) < 2 ^ 64) (func : ClosureU S T) {lhs rhs : Dense S} (hl : Small N D lhs) (hr : Small N D rhs) {D' : Nat} (hD : D' ≤ D)
    {st : Dense S × T} (hs : Small N D st.1) :
    mulAddIntoF F p N func lhs rhs (some D') st = mulAddIntoF F p' N func lhs rhs (some D') st ∧
      Small N D (mulAddIntoF F p N func lhs rhs (some D') st).2.1 := by
  obtain ⟨a, ha, ea⟩ := small_degree h2 hp hl
  obtain ⟨b, hb, eb⟩ := small_degree h2 hp hr
  obtain ⟨e, he, ee⟩ := small_degree h2 hp hs
  have hD64 := deg_lt64 h2 hp
  have hm : ∀ q, maxDeg q (some D') a b = .ok (min D' (a + b)) := fun q => maxDeg_ok q D' a b (by omega)
  have hle : min D' (a + b) ≤ D := (Nat.min_le_left _ _).trans hD
  have grow : ∀ q, growToF F q N (min D' (a + b)) st =
      (.ok (), if e < min D' (a + b) then (resizeF F st.1 (geomSum N (min D' (a + b) + 1)), st.2) else st) := by
    intro q
    rw [KeepsU.grow_eq, ee q]
    dsimp only
    split_ifs with hlt
    · rw [addW_ok (by omega), Res.bind_ok, startOfDegree_ok q N h2 _ (pow_lt64_mono h2 (by omega) hp)]
    · rfl
  have whole : ∀ q, mulAddIntoF F q N func lhs rhs (some D') st =
      (List.range (min D' (a + b) + 1)).reverse.foldlM (mulAddDegreeF q N (addProduct F func) lhs rhs a b) ()
        (if e < min D' (a + b) then (resizeF F st.1 (geomSum N (min D' (a + b) + 1)), st.2) else st) := by
    intro q
    unfold mulAddIntoF
    rw [ea q, eb q]
    show Unw.bind (Unw.lift (maxDeg q (some D') a b)) _ st = _
    rw [hm q]
    show Unw.bind (growToF F q N (min D' (a + b))) _ st = _
    unfold Unw.bind
    rw [grow q]
  rw [whole p, whole p']
  constructor
  · refine congrFun (foldlM_same _ (fun o ho u => ?_) ()) _
    have ho' : o ≤ D := by
      have := List.mem_range.1 (List.mem_reverse.1 ho)
      omega
    unfold mulAddDegreeF
    have hsub : ∀ q, (if o > b then subW q 32 o b else .ok 0) = (.ok (o - b) : Res Nat) := by
      intro q
      split_ifs with hc
      · exact subW_ok (by omega)
      · rw [Nat.sub_eq_zero_of_le (by omega)]
    rw [hsub p, hsub p']
    refine congrArg (fun f => (Unw.lift (.ok (o - b)) : Unw (Dense S × T) Nat) >>= f) (funext fun lo => ?_)
    refine foldlM_same _ (fun k hk u => ?_) ()
    have := List.mem_range'.1 (List.mem_reverse.1 hk)
    obtain ⟨i, hi, rfl⟩ := this
    exact step_same p p' h2 hp _ _ _ ho' (by omega) u
  · unfold Small
    rw [SizeU.degrees]
    split_ifs with hc
    · rw [resizeF_size]
      exact geomSum_mono (by omega)
    · exact hs

theorem tMulAdd_same (h2 : 2 ≤ N) (hp : N ^ (D + 1) < 2 ^ 64) (func : S → Res S) {v lhs rhs : Dense S} (hv : Small N D v) (hl : Small N D lhs) (hr : Small N D rhs) {D' : Nat}
    (hD : D' ≤ D) : tMulAdd F p N func v lhs rhs (some D') = tMulAdd F p' N func v lhs rhs (some D') ∧ Small N D (tMulAdd F p N func v lhs rhs (some D')).2 := by
  obtain ⟨h1, h3⟩ := product_same F p p' h2 hp (fun (t : Unit) x => (func x, t)) hl hr hD (st := (v, ())) hv
  unfold tMulAdd
  rw [← h1]
  exact ⟨rfl, h3⟩

theorem temp_small {q : Res Unit × Dense S} (hq : Small N D q.2) {v : Dense S} (h : temp q = .ok v) : Small N D v := by
  obtain ⟨o, d⟩ := q
  cases o <;> cases h
  exact hq

theorem comm_same (h2 : 2 ≤ N) (hp : N ^ (D + 1) < 2 ^ 64) {a b : Dense S} (ha : Small N D a) (hb : Small N D b) {D' : Nat} (hD : D' ≤ D) :
    tCommutator F p N a b (some D') = tCommutator F p' N a b (some D') ∧ ∀ v, tCommutator F p N a b (some D') = .ok v → Small N D v := by
  obtain ⟨h1, h3⟩ := tMulAdd_same F p p' h2 hp .ok (v := .new) (Nat.zero_le _) ha hb hD
  have key : ∀ q, tCommutator F q N a b (some D') = temp (tMulAdd F q N .ok .new a b (some D')) >>= fun r => temp (tMulAdd F q N F.uminus r b a (some D')) := fun _ => rfl
  rw [key p, key p', ← h1]
  generalize hr : temp (tMulAdd F p N .ok .new a b (some D')) = r
  cases r with
  | ok r =>
    obtain ⟨h4, h5⟩ := tMulAdd_same F p p' h2 hp F.uminus (temp_small h3 hr) hb ha hD
    rw [Res.bind_ok, Res.bind_ok, ← h4]
    exact ⟨rfl, fun v hv => temp_small h5 hv⟩
  | panic => exact ⟨(Res.bind_panic _).trans (Res.bind_panic _).symm, fun v hv => by rw [Res.bind_panic] at hv; cases hv⟩
  | ub => exact ⟨(Res.bind_ub _).trans (Res.bind_ub _).symm, fun v hv => by rw [Res.bind_ub] at hv; cases hv⟩
  | diverge => exact ⟨(Res.bind_diverge _).trans (Res.bind_diverge _).symm, fun v hv => by rw [Res.bind_diverge] at hv; cases hv⟩

/-- A word of at most `D` letters: its key, its index, and the size of the vectors that hold it. -/
theorem word_facts (h2 : 2 ≤ N) (hN : N < 2 ^ 32) (hm : D ≤ maxDepth N) (hp : N ^ (D + 1) < 2 ^ 64) {w : List Nat} (hw : ValidWord N w) (hl : w.length ≤ D) (q : Profile) :
    fromLetters q N w = .ok (keyOf N w) ∧ (tensorBasis q N).keyToIndex (keyOf N w) = .ok (wordIndex N w) ∧
      (tensorBasis q N).dimForKey (keyOf N w) = .ok (geomSum N (w.length + 1)) ∧ wordIndex N w < geomSum N (D + 1) := by
  refine ⟨fromLetters_ok q N (by omega) hN w hw (hl.trans hm), keyToIndex_keyOf q N (by omega) hN w hw (hl.trans hm), ?_, ?_⟩
  · have hD64 := deg_lt64 h2 hp
    show vectorDimensionForKey q N (keyOf N w) = _
    unfold vectorDimensionForKey
    rw [show TensorBasis.degree (keyOf N w) = w.length from rfl, addW_ok (by omega), Res.bind_ok, startOfDegree_ok q N h2 _ (pow_lt64_mono h2 (by omega) hp)]
  · exact (wordIndex_bounds hw).2.trans_le (geomSum_mono (by omega))

theorem mapM_same {A B : Type} {f : A → Res B} {g : A → B} (l : List A) (h : ∀ a ∈ l, f a = .ok (g a)) : l.mapM f = .ok (l.map g) := by
  induction l with
  | nil => rfl
  | cons a l ih =>
    rw [List.mapM_cons, h a (by simp), ih fun x hx => h x (by simp [hx])]
    rfl

theorem iterStep_length (l l' : List S) (items : List (Nat × S)) (h : items.foldlM (fromIteratorStepF F) l = .ok l') : l'.length = l.length := by
  induction items generalizing l with
  | nil => cases h; rfl
  | cons e items ih =>
    rw [List.foldlM_cons] at h
    obtain ⟨m, h1, h3⟩ := bind_inv h
    rw [ih m h3]
    unfold fromIteratorStepF at h1
    split at h1
    · cases h1
    · split at h1 <;> cases h1
      exact List.length_set

/-- Reading a list of words with coefficients. -/
theorem terms_same (h2 : 2 ≤ N) (hN : N < 2 ^ 32) (hm : D ≤ maxDepth N) (hp : N ^ (D + 1) < 2 ^ 64) (items : List (List Nat × S))
    (hw : ∀ e ∈ items, ValidWord N e.1 ∧ e.1.length ≤ D) : ∃ r : Res (Dense S), (∀ v, r = .ok v → Small N D v) ∧ ∀ q, (do
      let keys ← items.mapM (fun e => (fun k => (k, e.2)) <$> fromLetters q N e.1)
      fromIteratorF F (tensorBasis q N) keys) = r := by
  have hkeys : ∀ q, items.mapM (fun e => (fun k => (k, e.2)) <$> fromLetters q N e.1) = .ok (items.map fun e => (keyOf N e.1, e.2)) := fun q =>
    mapM_same items fun e he => by rw [(word_facts h2 hN hm hp (hw e he).1 (hw e he).2 q).1]; rfl
  have hvec : ∀ q, (items.map fun e => (keyOf N e.1, e.2)).mapM (fun e => do
      let i ← (tensorBasis q N).keyToIndex e.1
      return (i, e.2)) = .ok (items.map fun e => (wordIndex N e.1, e.2)) := by
    intro q
    rw [List.mapM_map]
    exact mapM_same items fun e he => by
      show ((tensorBasis q N).keyToIndex (keyOf N e.1) >>= _) = _
      rw [(word_facts h2 hN hm hp (hw e he).1 (hw e he).2 q).2.1]; rfl
  cases hlast : ((items.map fun e => (wordIndex N e.1, e.2)).mergeSort (fun a b => decide (a.1 ≤ b.1))).getLast? with
  | none =>
    refine ⟨.ok .new, fun v hv => by cases hv; exact Nat.zero_le _, fun q => ?_⟩
    rw [hkeys q, Res.bind_ok]
    unfold fromIteratorF
    rw [hvec q, Res.bind_ok, hlast]
    rfl
  | some last =>
    have hmem := List.mem_of_getLast? hlast
    rw [List.mem_mergeSort, List.mem_map] at hmem
    obtain ⟨e, he, rfl⟩ := hmem
    have hlt := (word_facts h2 hN hm hp (hw e he).1 (hw e he).2 .debug).2.2.2
    obtain ⟨d, hd, h1, h3⟩ := block_of N hlt
    refine ⟨((items.map fun e => (wordIndex N e.1, e.2)).mergeSort (fun a b => decide (a.1 ≤ b.1))).foldlM (fromIteratorStepF F)
      (List.replicate (geomSum N (d + 1)) F.zero) >>= fun l => .ok (.ofVec l), ?_, fun q => ?_⟩
    · intro v hv
      obtain ⟨l, hl, hv⟩ := bind_inv hv
      cases hv
      have := iterStep_length F _ _ _ hl
      show l.length ≤ _
      rw [this, List.length_replicate]
      exact geomSum_mono (by omega)
    · rw [hkeys q, Res.bind_ok]
      unfold fromIteratorF
      rw [hvec q, Res.bind_ok, hlast]
      dsimp only
      have : (tensorBasis q N).dimForIndex (wordIndex N e.1) = .ok (geomSum N (d + 1)) := by
        have hD64 := deg_lt64 h2 hp
        show vectorDimensionForIndex q N _ = _
        unfold vectorDimensionForIndex
        rw [indexToDegree_ok q N h2 _ d (pow_lt64_mono h2 (by omega) hp) h1 h3, Res.bind_ok, addW_ok (by omega), Res.bind_ok,
          startOfDegree_ok q N h2 _ (pow_lt64_mono h2 (by omega) hp)]
      rw [this, Res.bind_ok]
      rfl

theorem small_set {σ : Nat → Dense S} (h : ∀ i, Small N D (σ i)) (i : Nat) {v : Dense S} (hv : Small N D v) : ∀ j, Small N D (setReg σ i v j) := by
  intro j
  unfold setReg
  split_ifs
  exacts [hv, h j]

theorem small_assign {σ : Nat → Dense S} (h : ∀ i, Small N D (σ i)) (i : Nat) {r : Res (Dense S)} (hr : ∀ v, r = .ok v → Small N D v) :
    ∀ j, Small N D ((assignReg σ i r).2 j) := by
  cases r with
  | ok v => exact small_set h i (hr v rfl)
  | panic | ub | diverge => exact h

theorem small_write {d : Dense S} (h : Small N D d) {l : List S} (hl : l.length = d.data.length) : Small N D (d.writeSlice l) := by
  unfold Small Dense.size at *
  rw [Dense.writeSlice_data, hl]
  exact h

theorem small_makeMut {d : Dense S} (h : Small N D d) : Small N D d.makeMut := by
  unfold Small Dense.size at *
  rw [Dense.makeMut_data]
  exact h

theorem small_grow {d : Dense S} (h : Small N D d) {n : Nat} (hn : n ≤ geomSum N (D + 1)) : Small N D (grow F d n) := by
  unfold grow
  split_ifs
  · exact (resizeF_size F d n).trans_le hn
  · exact h

theorem change_same (h2 : 2 ≤ N) (hN : N < 2 ^ 32) (hm : D ≤ maxDepth N) (hp : N ^ (D + 1) < 2 ^ 64) {w : List Nat} (hw : ValidWord N w ∧ w.length ≤ D) (f : S → S) {d : Dense S}
    (hd : Small N D d) : changeEntry p N w f d = changeEntry p' N w f d ∧ Small N D (changeEntry p N w f d).2 := by
  have key : ∀ q, changeEntry q N w f d = (.ok (), match d.data[wordIndex N w]? with
      | some x => d.writeSlice (d.data.set (wordIndex N w) (f x))
      | none => d.makeMut) := by
    intro q
    obtain ⟨w1, w2, -, -⟩ := word_facts h2 hN hm hp hw.1 hw.2 q
    unfold changeEntry withArg
    rw [w1]
    show Unw.bind ((denseKeys (tensorBasis q N)).getMut (keyOf N w) fun x => (.ok (), f x)) _ d = _
    unfold Unw.bind denseKeys
    dsimp only
    rw [w2]
    dsimp only
    cases d.data[wordIndex N w]? <;> rfl
  rw [key p, key p']
  refine ⟨rfl, ?_⟩
  split
  · exact small_write hd (by simp)
  · exact small_makeMut hd

/-- C120.  One statement, on vectors of any storage and any number of entries up to that of the words of at most `D` letters: it ends in the same way in both
builds, with the same registers, and the vectors are within the same bound again. -/
theorem C120_step (h2 : 2 ≤ N) (hN : N < 2 ^ 32) (hm : D ≤ maxDepth N) (hp : N ^ (D + 1) < 2 ^ 64) (st : PStmt S R) (hs : st.Within N D) {σ : Nat → Dense S}
    (h : ∀ i, (σ i).size ≤ geomSum N (D + 1)) :
    runStmtU F p N σ st = runStmtU F p' N σ st ∧ ∀ i, ((runStmtU F p N σ st).2 i).size ≤ geomSum N (D + 1) := by
  have new : Small N D (.new : Dense S) := Nat.zero_le _
  cases st with
  | zero i => exact ⟨rfl, small_set h i new⟩
  | word i w s =>
    have key : ∀ q, (do
        let k ← fromLetters q N w
        dFromKeyScalar F (tensorBasis q N) k s) = modifyUnchecked (List.replicate (geomSum N (w.length + 1)) F.zero) (wordIndex N w) (fun _ => s) >>= fun l => .ok (.ofVec l) := by
      intro q
      obtain ⟨w1, w2, w3, -⟩ := word_facts h2 hN hm hp hs.1 hs.2 q
      rw [w1, Res.bind_ok]
      unfold dFromKeyScalar
      rw [w3, Res.bind_ok, w2, Res.bind_ok]
      rfl
    unfold runStmtU
    dsimp only
    rw [key p, key p']
    refine ⟨rfl, small_assign h i fun v hv => ?_⟩
    obtain ⟨l, hl, hv⟩ := bind_inv hv
    cases hv
    unfold modifyUnchecked at hl
    split at hl <;> cases hl
    show (List.modify _ _ _).length ≤ _
    rw [List.length_modify, List.length_replicate]
    exact geomSum_mono (by have := hs.2; omega)
  | terms i items =>
    obtain ⟨r, hr, key⟩ := terms_same F h2 hN hm hp items hs
    unfold runStmtU
    dsimp only
    rw [key p, key p']
    exact ⟨rfl, small_assign h i hr⟩
  | copy i j => exact ⟨rfl, small_set h i (h j)⟩
  | swap i j => exact ⟨rfl, small_set (small_set h i (h j)) j (h i)⟩
  | clear i =>
    refine ⟨rfl, small_set h i ?_⟩
    unfold dClear
    split
    · exact Nat.zero_le _
    · exact small_write (h i) (by simp)
    · exact Nat.zero_le _
  | modify i w f =>
    obtain ⟨h1, h3⟩ := change_same p p' h2 hN hm hp hs f (h i)
    unfold runStmtU
    dsimp only
    rw [← h1]
    exact ⟨rfl, small_set h i h3⟩
  | erase i w =>
    obtain ⟨h1, h3⟩ := change_same p p' h2 hN hm hp hs (fun _ => F.zero) (h i)
    unfold runStmtU
    dsimp only
    rw [← h1]
    exact ⟨rfl, small_set h i h3⟩
  | neg i => exact ⟨rfl, small_set h i (small_write (h i) (zipLoop_length _ _ _))⟩
  | div i r => exact ⟨rfl, small_set h i (small_write (h i) (zipLoop_length _ _ _))⟩
  | scale i s => exact ⟨rfl, small_set h i (small_write (small_makeMut (h i)) (by rw [Dense.makeMut_data]; exact zipLoop_length _ _ _))⟩
  | add i j => exact ⟨rfl, small_set h i (small_write (small_grow F (small_makeMut (h i)) (h j)) (zipLoop_length _ _ _))⟩
  | sub i j => exact ⟨rfl, small_set h i (small_write (small_grow F (h i) (h j)) (zipLoop_length _ _ _))⟩
  | mul i j k D' =>
    obtain ⟨h1, h3⟩ := tMulAdd_same F p p' h2 hp .ok new (h j) (h k) hs
    unfold runStmtU tMultiply
    dsimp only
    rw [← h1]
    exact ⟨rfl, small_assign h i fun v hv => temp_small h3 hv⟩
  | comm i j k D' =>
    have key := comm_same F p p' h2 hp (h j) (h k) hs
    unfold runStmtU
    dsimp only
    rw [← key.1]
    exact ⟨rfl, small_assign h i key.2⟩
  | addMul i j k D' =>
    obtain ⟨h1, h3⟩ := tMulAdd_same F p p' h2 hp .ok (h i) (h j) (h k) hs
    unfold runStmtU tAddMul
    dsimp only
    rw [← h1]
    exact ⟨rfl, small_set h i h3⟩
  | subMul i j k D' =>
    obtain ⟨h1, h3⟩ := tMulAdd_same F p p' h2 hp F.uminus (h i) (h j) (h k) hs
    unfold runStmtU tSubMul
    dsimp only
    rw [← h1]
    exact ⟨rfl, small_set h i h3⟩

theorem caught_small (h2 : 2 ≤ N) (hN : N < 2 ^ 32) (hm : D ≤ maxDepth N) (hp : N ^ (D + 1) < 2 ^ 64) (st : PStmt S R) (hs : st.Within N D) {σ : Nat → Dense S}
    (h : ∀ i, (σ i).size ≤ geomSum N (D + 1)) :
    runCaught F p N σ st = runCaught F p' N σ st ∧ ∀ τ, runCaught F p N σ st = .ok τ → ∀ i, (τ i).size ≤ geomSum N (D + 1) := by
  obtain ⟨h1, h3⟩ := C120_step F p p' h2 hN hm hp st hs h
  unfold runCaught
  rw [← h1]
  refine ⟨rfl, fun τ hτ => ?_⟩
  rcases hq : runStmtU F p N σ st with ⟨o, ρ⟩
  rw [hq] at hτ h3
  cases o <;> cases hτ
  all_goals exact h3

/-- C120.  A program whose panics are caught: the registers at the end, or that it is undefined behaviour or does not end, are the same in both builds. -/
theorem C120_program (h2 : 2 ≤ N) (hN : N < 2 ^ 32) (hm : D ≤ maxDepth N) (hp : N ^ (D + 1) < 2 ^ 64) (prog : List (PStmt S R)) (hs : ∀ s ∈ prog, s.Within N D)
    {σ : Nat → Dense S} (h : ∀ i, (σ i).size ≤ geomSum N (D + 1)) :
    prog.foldlM (runCaught F .debug N) σ = prog.foldlM (runCaught F .release N) σ := by
  induction prog generalizing σ with
  | nil => rfl
  | cons s prog ih =>
    obtain ⟨h1, h3⟩ := caught_small F .debug .release h2 hN hm hp s (hs s (by simp)) h
    rw [List.foldlM_cons, List.foldlM_cons, ← h1]
    cases hr : runCaught F .debug N σ s with
    | ok τ => exact ih (fun x hx => hs x (by simp [hx])) (h3 τ hr)
    | panic | ub | diverge => rfl

/-- C120.  The same statements return and the same statements panic. -/
theorem C120_outcomes (h2 : 2 ≤ N) (hN : N < 2 ^ 32) (hm : D ≤ maxDepth N) (hp : N ^ (D + 1) < 2 ^ 64) (prog : List (PStmt S R)) (hs : ∀ s ∈ prog, s.Within N D)
    {σ : Nat → Dense S} (h : ∀ i, (σ i).size ≤ geomSum N (D + 1)) : outcomes F .debug N σ prog = outcomes F .release N σ prog := by
  induction prog generalizing σ with
  | nil => rfl
  | cons s prog ih =>
    obtain ⟨h1, h3⟩ := C120_step F .debug .release h2 hN hm hp s (hs s (by simp)) h
    unfold outcomes
    rw [← h1]
    rcases hq : runStmtU F .debug N σ s with ⟨o, τ⟩
    rw [hq] at h3
    cases o with
    | ok u => exact congrArg _ (ih (fun x hx => hs x (by simp [hx])) h3)
    | panic => exact congrArg _ (ih (fun x hx => hs x (by simp [hx])) h3)
    | ub | diverge => rfl

/-- C120.  The caller's buffers: what the program wrote into them is the same in both builds. -/
theorem C120_memory {ι : Type} [DecidableEq ι] (h2 : 2 ≤ N) (hN : N < 2 ^ 32) (hm : D ≤ maxDepth N) (hp : N ^ (D + 1) < 2 ^ 64) (prog : List (PStmt S R))
    (hs : ∀ s ∈ prog, s.Within N D) {m : Memory ι S} (h : ∀ i, (m.reg i).size ≤ geomSum N (D + 1)) :
    prog.foldlM (runMemCaught F .debug N) m = prog.foldlM (runMemCaught F .release N) m := by
  induction prog generalizing m with
  | nil => rfl
  | cons s prog ih =>
    obtain ⟨h1, h3⟩ := C120_step F .debug .release h2 hN hm hp s (hs s (by simp)) h
    have e : runMemCaught F .debug N m s = runMemCaught F .release N m s := by unfold runMemCaught; rw [← h1]
    rw [List.foldlM_cons, List.foldlM_cons, ← e]
    cases hr : runMemCaught F .debug N m s with
    | ok m' =>
      refine ih (fun x hx => hs x (by simp [hx])) ?_
      unfold runMemCaught at hr
      rcases hq : runStmtU F .debug N m.reg s with ⟨o, τ⟩
      rw [hq] at hr h3
      cases o <;> cases hr
      all_goals exact h3
    | panic | ub | diverge => rfl

end

theorem fromKey_ub {S R K : Type} (F : FCoeff S R) (B : Basis K) {k : K} {n i : Nat} (hn : B.dimForKey k = .ok n) (hi : B.keyToIndex k = .ok i) (h : n ≤ i) (s : S) :
    dFromKeyScalar F B k s = .ub := by
  unfold dFromKeyScalar modifyUnchecked
  rw [hn, Res.bind_ok, hi, Res.bind_ok, List.length_replicate, if_neg (by omega)]
  rfl

theorem fromKey_panic {S R K : Type} (F : FCoeff S R) (B : Basis K) {k : K} (hn : B.dimForKey k = .panic) (s : S) : dFromKeyScalar F B k s = .panic := by
  unfold dFromKeyScalar
  rw [hn]
  rfl

theorem caught_word {S R : Type} (F : FCoeff S R) (p : Profile) (N : Nat) (σ : Nat → Dense S) (i : Nat) {w : List Nat} {s : S} {k : TensorKey} {r : Res (Dense S)}
    (hk : fromLetters p N w = .ok k) (hr : dFromKeyScalar F (tensorBasis p N) k s = r) :
    (r = .panic → runCaught F p N σ (.word i w s : PStmt S R) = .ok σ) ∧ (r = .ub → runCaught F p N σ (.word i w s : PStmt S R) = .ub) := by
  unfold runCaught runStmtU
  dsimp only
  rw [hk, Res.bind_ok, hr]
  constructor <;> rintro rfl <;> rfl

/-- C120, the bound on the alphabet and the depth cannot be left out: 31 letters, the word of twelve letters 31, within `max_depth`.  In a debug build the
constructor panics, the panic is caught, and the registers are as before.  In a release build it writes out of bounds. -/
theorem C120_limit {S R : Type} (F : FCoeff S R) (σ : Nat → Dense S) (i : Nat) (s : S) : ∃ w, ValidWord 31 w ∧ w.length ≤ maxDepth 31 ∧
    runCaught F .debug 31 σ (.word i w s : PStmt S R) = .ok σ ∧ runCaught F .release 31 σ (.word i w s : PStmt S R) = .ub := by
  have hd : maxDepth 31 = 12 := by decide +kernel
  have hv : ValidWord 31 (List.replicate 12 31) := by decide
  have hl : (List.replicate 12 31).length ≤ maxDepth 31 := by rw [hd]; decide
  refine ⟨List.replicate 12 31, hv, hl, ?_, ?_⟩
  · have hdim : (tensorBasis .debug 31).dimForKey (keyOf 31 (List.replicate 12 31)) = .panic := by
      show vectorDimensionForKey .debug 31 (keyOf 31 (List.replicate 12 31)) = _
      unfold vectorDimensionForKey
      rw [show TensorBasis.degree (keyOf 31 (List.replicate 12 31)) = 12 from rfl, addW_ok (by omega), Res.bind_ok, startOfDegree_debug_overflow 31 _ (by norm_num)]
    exact (caught_word F .debug 31 σ i (fromLetters_ok .debug 31 (by omega) (by omega) _ hv hl) (fromKey_panic F _ hdim s)).1 rfl
  · have hdim : (tensorBasis .release 31).dimForKey (keyOf 31 (List.replicate 12 31)) = .ok ((31 ^ 13 % 2 ^ 64 - 1) / 30) := by
      show vectorDimensionForKey .release 31 (keyOf 31 (List.replicate 12 31)) = _
      unfold vectorDimensionForKey
      rw [show TensorBasis.degree (keyOf 31 (List.replicate 12 31)) = 12 from rfl, addW_ok (by omega), Res.bind_ok,
        startOfDegree_release_overflow 31 (12 + 1) (by omega) (by norm_num) (by norm_num)]
    have hidx : (tensorBasis .release 31).keyToIndex (keyOf 31 (List.replicate 12 31)) = .ok (wordIndex 31 (List.replicate 12 31)) :=
      keyToIndex_keyOf .release 31 (by omega) (by omega) _ hv hl
    exact (caught_word F .release 31 σ i (fromLetters_ok .release 31 (by omega) (by omega) _ hv hl) (fromKey_ub F _ hdim hidx (by decide +kernel) s)).2 rfl

example : ∃ w, ValidWord 31 w ∧ w.length ≤ maxDepth 31 ∧ runCaught (rangeInt (-8) 7) .debug 31 (fun _ => .new) (.word 0 w 5 : PStmt Int Int) = .ok (fun _ => .new) ∧
    runCaught (rangeInt (-8) 7) .release 31 (fun _ => .new) (.word 0 w 5 : PStmt Int Int) = .ub := C120_limit _ _ _ _

/-! ## Without limits -/

section
variable {S R T α β V : Type} (F : FCoeff S R) (N : Nat)

/-- In a debug build the computation panics or does what it does in a release build. -/
def SimU (u u' : Unw V α) : Prop := ∀ s, (u s).1 = .panic ∨ u s = u' s

namespace SimU

theorem refl (u : Unw V α) : SimU u u := fun _ => .inr rfl

theorem lift {r r' : Res α} (h : Sim false false r r') : SimU (Unw.lift r : Unw V α) (Unw.lift r') := by
  intro s
  rcases h.elim with e | e
  · exact .inl e
  · rw [e]; exact .inr rfl

theorem bind {u u' : Unw V α} {g g' : α → Unw V β} (h : SimU u u') (hg : ∀ a, SimU (g a) (g' a)) : SimU (u >>= g) (u' >>= g') := by
  intro s
  show (Unw.bind u g s).1 = .panic ∨ Unw.bind u g s = Unw.bind u' g' s
  unfold Unw.bind
  rcases h s with e | e
  · rcases hq : u s with ⟨o, t⟩
    rw [hq] at e
    cases (e : o = .panic)
    exact .inl rfl
  · rw [← e]
    rcases u s with ⟨o, t⟩
    cases o with
    | ok a => exact hg a t
    | panic => exact .inl rfl
    | ub | diverge => exact .inr rfl

theorem foldlM {A : Type} {g g' : β → A → Unw V β} (h : ∀ b a, SimU (g b a) (g' b a)) (l : List A) (b : β) : SimU (l.foldlM g b) (l.foldlM g' b) := by
  induction l generalizing b with
  | nil => exact .refl _
  | cons a l ih => exact .bind (h b a) ih

end SimU

theorem product_sim (func : ClosureU S T) (lhs rhs : Dense S) (d : Option Nat) : SimU (mulAddIntoF F .debug N func lhs rhs d) (mulAddIntoF F .release N func lhs rhs d) := by
  unfold mulAddIntoF
  refine .bind (.lift (Dense.degree_sim N _)) fun _ => .bind (.lift (Dense.degree_sim N _)) fun _ => .bind (.lift (maxDeg_sim _ _ _)) fun _ => .bind ?_ fun _ => .foldlM (fun _ _ => ?_) _ _
  · unfold growToF
    refine .bind (.refl _) fun _ => .bind (.lift (Dense.degree_sim N _)) fun _ => ?_
    split
    · exact .bind (.lift (addW_sim _ _ _)) fun _ => .bind (.lift (startOfDegree_sim _ _)) fun _ => .refl _
    · exact .refl _
  · unfold mulAddDegreeF
    refine .bind (.lift ?_) fun _ => .foldlM (fun _ _ => ?_) _ _
    · split
      · exact subW_sim _ _ _
      · exact .refl _
    · unfold mulAddStepF
      exact .bind (.lift (subW_sim _ _ _)) fun _ => .bind (.refl _) fun _ => .bind (.lift (degreeRange_sim _ _)) fun _ => .bind (.refl _) fun _ =>
        .bind (.lift (degreeRange_sim _ _)) fun _ => .bind (.refl _) fun _ => .bind (.lift (degreeRange_sim _ _)) fun _ => .bind (.refl _) fun _ => .refl _

theorem tMulAdd_sim (func : S → Res S) (v lhs rhs : Dense S) (d : Option Nat) :
    (tMulAdd F .debug N func v lhs rhs d).1 = .panic ∨ tMulAdd F .debug N func v lhs rhs d = tMulAdd F .release N func v lhs rhs d := by
  unfold tMulAdd
  rcases product_sim F N (fun (t : Unit) x => (func x, t)) lhs rhs d (v, ()) with e | e
  · exact .inl e
  · rw [e]; exact .inr rfl

theorem temp_sim {q q' : Res Unit × V} (h : q.1 = .panic ∨ q = q') : Sim false false (temp q) (temp q') := by
  rcases h with e | rfl
  · refine .inl ?_
    unfold temp
    rw [e]
  · exact .refl _

theorem assign_sim (σ : Nat → Dense S) (i : Nat) {r r' : Res (Dense S)} (h : Sim false false r r') :
    (assignReg σ i r).1 = .panic ∨ assignReg σ i r = assignReg σ i r' := by
  rcases h.elim with rfl | rfl
  · exact .inl rfl
  · exact .inr rfl

theorem work_sim (σ : Nat → Dense S) (i : Nat) {q q' : Res Unit × Dense S} (h : q.1 = .panic ∨ q = q') :
    (workReg σ i q).1 = .panic ∨ workReg σ i q = workReg σ i q' := by
  rcases h with e | rfl
  · exact .inl e
  · exact .inr rfl

theorem change_sim (w : List Nat) (f : S → S) (d : Dense S) :
    (changeEntry .debug N w f d).1 = .panic ∨ changeEntry .debug N w f d = changeEntry .release N w f d := by
  unfold changeEntry withArg
  rcases (fromLetters_sim (a := false) (b := false) N w).elim with e | e
  · rw [e]; exact .inl rfl
  · rw [e]
    cases fromLetters .release N w with
    | ok k =>
      refine SimU.bind (fun d => ?_) (fun _ => .refl _) d
      rcases (keyToIndex_sim (a := false) (b := false) N k).elim with e | e
      · left
        show ((denseKeys (tensorBasis .debug N)).getMut k (fun x => (.ok (), f x)) d).1 = _
        unfold denseKeys
        dsimp only
        rw [show (tensorBasis .debug N).keyToIndex k = .panic from e]
      · right
        unfold denseKeys
        dsimp only
        rw [show (tensorBasis .debug N).keyToIndex k = (tensorBasis .release N).keyToIndex k from e]
    | panic => exact .inl rfl
    | ub | diverge => exact .inr rfl

/-- C120, without any limit on the alphabet, the depth or the sizes: a statement that does not panic in a debug build ends in the same way in a release build,
with the same registers. -/
theorem C120_debug_first (σ : Nat → Dense S) (st : PStmt S R) :
    (runStmtU F .debug N σ st).1 = .panic ∨ runStmtU F .debug N σ st = runStmtU F .release N σ st := by
  cases st with
  | zero i | copy i j | swap i j | clear i | neg i | add i j | sub i j | scale i s | div i r => exact .inr rfl
  | word i w s =>
    refine assign_sim σ i (.bind (fromLetters_sim _ _) fun k => ?_)
    unfold dFromKeyScalar
    exact .bind (vectorDimensionForKey_sim N k) fun _ => .bind (keyToIndex_sim N k) fun _ => .refl _
  | terms i items =>
    refine assign_sim σ i (.bind (.mapM (fun e => ?_) _) fun keys => ?_)
    · exact .bind (fromLetters_sim _ _) fun _ => .refl _
    · unfold fromIteratorF
      refine .bind (.mapM (fun e => .bind (keyToIndex_sim N _) fun _ => .refl _) _) fun vec => ?_
      split
      · exact .refl _
      · exact .bind (vectorDimensionForIndex_sim N _) fun _ => .refl _
  | modify i w f => exact work_sim σ i (change_sim N w f (σ i))
  | erase i w => exact work_sim σ i (change_sim N w (fun _ => F.zero) (σ i))
  | mul i j k D => exact assign_sim σ i (temp_sim (tMulAdd_sim F N _ _ _ _ _))
  | comm i j k D => exact assign_sim σ i (.bind (temp_sim (tMulAdd_sim F N _ _ _ _ _)) fun _ => temp_sim (tMulAdd_sim F N _ _ _ _ _))
  | addMul i j k D => exact work_sim σ i (tMulAdd_sim F N _ _ _ _ _)
  | subMul i j k D => exact work_sim σ i (tMulAdd_sim F N _ _ _ _ _)

/-- C120, without limits: if no statement of a program panics in a debug build, the release build runs in the same way, with the same registers at the end. -/
theorem C120_no_panic (prog : List (PStmt S R)) (σ : Nat → Dense S) (h : false ∉ outcomes F .debug N σ prog) :
    outcomes F .debug N σ prog = outcomes F .release N σ prog ∧ prog.foldlM (runCaught F .debug N) σ = prog.foldlM (runCaught F .release N) σ := by
  induction prog generalizing σ with
  | nil => exact ⟨rfl, rfl⟩
  | cons s prog ih =>
    rw [List.foldlM_cons, List.foldlM_cons]
    unfold outcomes at h ⊢
    rcases C120_debug_first F N σ s with e | e
    · rcases hq : runStmtU F .debug N σ s with ⟨o, τ⟩
      rw [hq] at e h
      cases (e : o = .panic)
      exact absurd (List.mem_cons_self ..) h
    · have hc : runCaught F .debug N σ s = runCaught F .release N σ s := by unfold runCaught; rw [e]
      have hd : runCaught F .debug N σ s = match runStmtU F .debug N σ s with
        | (.ok (), τ) => .ok τ
        | (.panic, τ) => .ok τ
        | (.ub, _) => .ub
        | (.diverge, _) => .diverge := rfl
      rw [← hc, hd, ← e]
      rcases hq : runStmtU F .debug N σ s with ⟨o, τ⟩
      rw [hq] at h
      cases o with
      | ok u =>
        obtain ⟨h1, h2⟩ := ih τ fun hc => h (List.mem_cons_of_mem _ hc)
        exact ⟨congrArg _ h1, h2⟩
      | panic => exact absurd (List.mem_cons_self ..) h
      | ub | diverge => exact ⟨rfl, rfl⟩

/-- C120, without limits and without catching: what a program returns in a debug build, it returns in a release build. -/
theorem C120_returns (prog : List (PStmt S R)) (σ τ : Nat → Dense S) (h : prog.foldlM (runStmtF F .debug N) σ = .ok τ) :
    prog.foldlM (runStmtF F .release N) σ = .ok τ := by
  induction prog generalizing σ with
  | nil => exact h
  | cons s prog ih =>
    rw [List.foldlM_cons] at h ⊢
    obtain ⟨ρ, h1, h2⟩ := bind_inv h
    have e : runStmtF F .release N σ s = .ok ρ := by
      rw [← C115_returns] at h1 ⊢
      rcases (temp_sim (C120_debug_first F N σ s)).elim with e | e
      · rw [e] at h1; cases h1
      · rw [← e]; exact h1
    rw [e]
    exact ih ρ h2

end

/-! ## A concrete case

`mixedProg` panics twice (`mixedProg_outcomes`). -/

example : mixedProg.foldlM (runCaught (rangeInt (-8) 7) .debug 2) (fun _ => .new) = mixedProg.foldlM (runCaught (rangeInt (-8) 7) .release 2) (fun _ => .new) :=
  C120_program _ (N := 2) (D := 2) (by omega) (by omega) (by decide +kernel) (by decide) mixedProg (fun s h => (mixedProg_within s h).1) fun _ => Nat.zero_le _

example : outcomes (rangeInt (-8) 7) .debug 2 (fun _ => .new) mixedProg = outcomes (rangeInt (-8) 7) .release 2 (fun _ => .new) mixedProg :=
  C120_outcomes _ (N := 2) (D := 2) (by omega) (by omega) (by decide +kernel) (by decide) mixedProg (fun s h => (mixedProg_within s h).1) fun _ => Nat.zero_le _

/-- Registers that are exclusive views of five entries each, which is not a whole number of degrees. -/
example (prog : List (PStmt Int Int)) (hs : ∀ s ∈ prog, s.Within 2 2) :
    prog.foldlM (runMemCaught (rangeInt (-8) 7) .debug 2) (⟨fun _ => ⟨.borrowedMut, [1, 2, 3, 4, 5], [1, 2, 3, 4, 5]⟩, some, fun _ => [1, 2, 3, 4, 5]⟩ : Memory Nat Int) =
    prog.foldlM (runMemCaught (rangeInt (-8) 7) .release 2) ⟨fun _ => ⟨.borrowedMut, [1, 2, 3, 4, 5], [1, 2, 3, 4, 5]⟩, some, fun _ => [1, 2, 3, 4, 5]⟩ :=
  C120_memory _ (N := 2) (D := 2) (by omega) (by omega) (by decide +kernel) (by decide) prog hs fun _ => (by decide : 5 ≤ geomSum 2 (2 + 1))

/-- Adding the five entries to themselves overflows at the fourth: the first three are doubled, in both builds. -/
example (p : Profile) : (runStmtU (rangeInt (-8) 7) p 2 (fun _ => ⟨.borrowedMut, [1, 2, 3, 4, 5], [1, 2, 3, 4, 5]⟩) (.add 0 1)).1 = .panic ∧
    ((runStmtU (rangeInt (-8) 7) p 2 (fun _ => ⟨.borrowedMut, [1, 2, 3, 4, 5], [1, 2, 3, 4, 5]⟩) (.add 0 1)).2 0).data = [2, 4, 6, 4, 5] := by
  cases p <;> decide +kernel

example (σ : Nat → Dense Int) (h : ∀ i, (σ i).size ≤ geomSum 2 (2 + 1)) := C120_step (rangeInt (-8) 7) .debug .release (N := 2) (D := 2) (by omega) (by omega)
  (by decide +kernel) (by decide) (.comm 0 1 2 2) (by show 2 ≤ 2; omega) h

/-- A product cut off at a degree beyond all limits. -/
example (σ : Nat → Dense Int) := C120_debug_first (rangeInt (-8) 7) 1000 σ (.mul 0 1 2 100000)

/-- The first four statements of `mixedProg` return. -/
example := C120_no_panic (rangeInt (-8) 7) 2 (mixedProg.take 4) (fun _ => .new) (by decide +kernel)

example (τ : Nat → Dense Int) (h : (mixedProg.take 4).foldlM (runStmtF (rangeInt (-8) 7) .debug 2) (fun _ => .new) = .ok τ) :
    (mixedProg.take 4).foldlM (runStmtF (rangeInt (-8) 7) .release 2) (fun _ => .new) = .ok τ := C120_returns _ _ _ _ _ h

example : showRegs ((mixedProg.take 4).foldlM (runStmtF (rangeInt (-8) 7) .debug 2) fun _ => .new) = .ok [[0, 2, 3], [0, 0, 3], [1]] := by decide +kernel

end RA
