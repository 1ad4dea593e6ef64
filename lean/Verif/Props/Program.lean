import Verif.Props.AlgebraLaws
import Verif.SpecProg

/-!
# Programs over dense tensors (C65): memory safety and results of whole histories
-/

namespace RA
open Spec TensorKey TensorBasis DenseAlg

section
variable {S R : Type} (C : Coeff S R) (p : Profile) (N : Nat)

/-- A statement, executed with the methods of the crate on registers holding dense tensors.  (`x_i` and `x_j` may be the same register, as with a clone of
the operand; the borrow checker excludes nothing else.) -/
def runStmt (σ : Nat → Dense S) : PStmt S R → Res (Nat → Dense S)
  | .zero i => .ok (setReg σ i (DenseAlg.ops C p N).new)
  | .word i w s => do
    let k ← fromLetters p N w
    let v ← (DenseAlg.ops C p N).fromKeyScalar k s
    return setReg σ i v
  | .terms i items => do
    let keys ← items.mapM (fun e => (fun k => (k, e.2)) <$> fromLetters p N e.1)
    let v ← (DenseAlg.ops C p N).fromIterator keys
    return setReg σ i v
  | .copy i j => do
    let v ← (DenseAlg.ops C p N).toOwned (σ j)
    return setReg σ i v
  | .swap i j => do
    let (x, y) ← (DenseAlg.ops C p N).swap (σ i) (σ j)
    return setReg (setReg σ i x) j y
  | .clear i => do
    let v ← (DenseAlg.ops C p N).clear (σ i)
    return setReg σ i v
  | .modify i w f => do
    let k ← fromLetters p N w
    let r ← (DenseAlg.ops C p N).getMut (σ i) k f
    return setReg σ i r.2
  | .erase i w => do
    let k ← fromLetters p N w
    let v ← (DenseAlg.ops C p N).erase (σ i) k
    return setReg σ i v
  | .neg i => do
    let v ← (DenseAlg.ops C p N).uminusInplace (σ i)
    return setReg σ i v
  | .add i j => do
    let v ← (DenseAlg.ops C p N).addInplace (σ i) (σ j)
    return setReg σ i v
  | .sub i j => do
    let v ← (DenseAlg.ops C p N).subInplace (σ i) (σ j)
    return setReg σ i v
  | .scale i s => do
    let v ← (DenseAlg.ops C p N).scalarRmultiplyInplace (σ i) s
    return setReg σ i v
  | .div i r => do
    let v ← (DenseAlg.ops C p N).scalarRdivideInplace (σ i) r
    return setReg σ i v
  | .mul i j k D => do
    let v ← (DenseAlg.ops C p N).multiply (σ j) (σ k) (some D)
    return setReg σ i v
  | .comm i j k D => do
    let v ← (DenseAlg.ops C p N).commutator C (σ j) (σ k) (some D)
    return setReg σ i v
  | .addMul i j k D => do
    let v ← (DenseAlg.ops C p N).addMul (σ i) (σ j) (σ k) (some D)
    return setReg σ i v
  | .subMul i j k D => do
    let v ← (DenseAlg.ops C p N).subMul C (σ i) (σ j) (σ k) (some D)
    return setReg σ i v

/-- A program, started with every register `new()`. -/
def runProg (prog : List (PStmt S R)) : Res (Nat → Dense S) := prog.foldlM (runStmt C p N) (fun _ => (DenseAlg.ops C p N).new)

/-- The vector holds the contents of the register. -/
def Holds (v : Dense S) (t : TReg S) : Prop :=
  v.mode ≠ .borrowedMut ∧ v.size = geomSum N t.levels ∧ ∀ w, ValidWord N w → stored N v w = t.coef w

theorem foldlM_keep {α β : Type} (P : β → Prop) (f : β → α → Res β) (h : ∀ b a b', P b → f b a = .ok b' → P b') (l : List α) (b b' : β)
    (hb : P b) (hr : l.foldlM f b = .ok b') : P b' := by
  induction l generalizing b with
  | nil => cases hr; exact hb
  | cons a l ih =>
    rw [List.foldlM_cons] at hr
    cases hf : f b a <;> rw [hf] at hr
    · exact ih _ (h _ _ _ hb hf) hr
    all_goals cases hr

theorem bind_inv {α β : Type} {x : Res α} {f : α → Res β} {b : β} (h : (x >>= f) = .ok b) : ∃ a, x = .ok a ∧ f a = .ok b := by
  cases x with
  | ok a => exact ⟨a, rfl, h⟩
  | panic | ub | diverge => cases h

theorem writeSlice_mode {v : Dense S} (h : v.mode ≠ .borrowedMut) (l : List S) : (v.writeSlice l).mode ≠ .borrowedMut := by
  obtain ⟨m, d, e⟩ := v
  cases m <;> simp_all [Dense.writeSlice, Dense.makeMut]

theorem makeMut_mode {v : Dense S} (h : v.mode ≠ .borrowedMut) : v.makeMut.mode ≠ .borrowedMut := by
  obtain ⟨m, d, e⟩ := v
  cases m <;> simp_all [Dense.makeMut]

theorem resize_mode (v : Dense S) (n : Nat) : (Dense.resize C v n).mode ≠ .borrowedMut := by
  obtain ⟨m, d, e⟩ := v
  cases m <;> simp [Dense.resize]

theorem mulAddInto_mode {s a b r : Dense S} {f : S → S} {d : Option Nat} (hs : s.mode ≠ .borrowedMut)
    (h : mulAddInto C p N s a b f d = .ok r) : r.mode ≠ .borrowedMut := by
  unfold mulAddInto at h
  obtain ⟨da, _, h⟩ := bind_inv h
  obtain ⟨db, _, h⟩ := bind_inv h
  obtain ⟨m, _, h⟩ := bind_inv h
  obtain ⟨s1, hg, h⟩ := bind_inv h
  have h1 : s1.mode ≠ .borrowedMut := by
    unfold growTo at hg
    obtain ⟨sd, _, hg⟩ := bind_inv hg
    split_ifs at hg
    · obtain ⟨d, _, hg⟩ := bind_inv hg
      obtain ⟨n, _, hg⟩ := bind_inv hg
      cases hg
      exact resize_mode C s n
    · cases hg
      exact hs
  refine foldlM_keep (fun v : Dense S => v.mode ≠ .borrowedMut) _ (fun v o v' hv hd => ?_) _ _ _ h1 h
  rw [mulAddDegree_eq] at hd
  refine foldlM_keep (fun v : Dense S => v.mode ≠ .borrowedMut) _ (fun v k v' hv hk => ?_) _ _ _ hv hd
  unfold mulAddStep at hk
  obtain ⟨_, _, hk⟩ := bind_inv hk
  obtain ⟨_, _, hk⟩ := bind_inv hk
  obtain ⟨_, _, hk⟩ := bind_inv hk
  obtain ⟨_, _, hk⟩ := bind_inv hk
  obtain ⟨_, _, hk⟩ := bind_inv hk
  obtain ⟨_, _, hk⟩ := bind_inv hk
  obtain ⟨_, _, hk⟩ := bind_inv hk
  obtain ⟨_, _, hk⟩ := bind_inv hk
  cases hk
  exact writeSlice_mode (makeMut_mode hv) _

variable {C p N}

theorem Holds.degIs (h2 : 2 ≤ N) {v : Dense S} {t : TReg S} (h : Holds N v t) : DegIs N v (t.levels - 1) := by
  have h1 := h.2.1
  unfold Dense.size at h1
  unfold DegIs
  rcases Nat.eq_zero_or_pos t.levels with h0 | h0
  · rw [h0] at h1 ⊢
    exact Or.inl ⟨h1, rfl⟩
  · right
    rw [h1, Nat.sub_add_cancel h0]
    exact ⟨geomSum_strict (by omega) (by omega), le_rfl⟩

theorem Holds.empty {v : Dense S} (hm : v.mode ≠ .borrowedMut) (h : v.data = []) : Holds N v TReg.empty :=
  ⟨hm, by simp [Dense.size, h, TReg.empty, geomSum], fun w _ => by simp [stored, h, TReg.empty]⟩

/-- Words beyond the levels are not stored. -/
theorem stored_none {v : Dense S} {n : Nat} (hv : v.size = geomSum N n) (w : List Nat) (hw : ValidWord N w) (h : n ≤ w.length) : stored N v w = none := by
  have := (wordIndex_bounds hw).1
  have := geomSum_mono (N := N) h
  unfold stored
  unfold Dense.size at hv
  rw [List.getElem?_eq_none (by omega)]

theorem geomSum_le_iff (h1 : 1 ≤ N) {a b : Nat} : geomSum N a ≤ geomSum N b ↔ a ≤ b := by
  constructor
  · intro h
    by_contra hc
    have := geomSum_strict (N := N) (a := b) (b := a) (by omega) (by omega)
    omega
  · exact fun h => geomSum_mono h

theorem geomSum_max (a b : Nat) : max (geomSum N a) (geomSum N b) = geomSum N (max a b) := by
  rcases Nat.le_total a b with h | h
  · rw [Nat.max_eq_right h, Nat.max_eq_right (geomSum_mono h)]
  · rw [Nat.max_eq_left h, Nat.max_eq_left (geomSum_mono h)]

variable (C p) in
/-- `multiply_and_add_into_impl` on registers: exactly when it is memory-safe, and its result. -/
theorem addProd_step (h2 : 2 ≤ N) {D D' : Nat} (hp : N ^ (D + 1) < 2 ^ 64) (hD : D' ≤ D) (f : S → S) {v a b : Dense S} {tv ta tb : TReg S}
    (hv : Holds N v tv) (ha : Holds N a ta) (hb : Holds N b tb) (lv : tv.levels ≤ D + 1) (la : ta.levels ≤ D + 1) (lb : tb.levels ≤ D + 1) :
    ((1 ≤ ta.levels ∧ 1 ≤ tb.levels ∧ (1 ≤ tv.levels ∨ 1 ≤ prodDeg D' ta.levels tb.levels)) →
      ∃ r, mulAddInto C p N v a b f (some D') = .ok r ∧ Holds N r (TReg.addProd C f tv ta tb D')) ∧
    (¬ (1 ≤ ta.levels ∧ 1 ≤ tb.levels ∧ (1 ≤ tv.levels ∨ 1 ≤ prodDeg D' ta.levels tb.levels)) →
      mulAddInto C p N v a b f (some D') = .ub) := by
  have dv := hv.degIs h2
  have da := ha.degIs h2
  have db := hb.degIs h2
  have sv := hv.2.1
  have sa := ha.2.1
  have sb := hb.2.1
  unfold Dense.size at sv sa sb
  have pw : ∀ n, n ≤ D → N ^ (n + 1) < 2 ^ 64 := fun n hn => pow_lt64_mono h2 (by omega) hp
  have hM : prodDeg D' ta.levels tb.levels ≤ D := (Nat.min_le_left _ _).trans hD
  have e : min D' (ta.levels - 1 + (tb.levels - 1)) = prodDeg D' ta.levels tb.levels := rfl
  have i1 : geomSum N (min (prodDeg D' ta.levels tb.levels) (ta.levels - 1) + 1) ≤ a.data.length ↔ 1 ≤ ta.levels := by
    rw [sa, geomSum_le_iff (by omega)]
    omega
  have i2 : geomSum N (min (prodDeg D' ta.levels tb.levels) (tb.levels - 1) + 1) ≤ b.data.length ↔ 1 ≤ tb.levels := by
    rw [sb, geomSum_le_iff (by omega)]
    omega
  have i3 : ((v.data.length ≤ geomSum N (prodDeg D' ta.levels tb.levels) ∧ 1 ≤ prodDeg D' ta.levels tb.levels) ∨
      geomSum N (prodDeg D' ta.levels tb.levels + 1) ≤ v.data.length) ↔ (1 ≤ tv.levels ∨ 1 ≤ prodDeg D' ta.levels tb.levels) := by
    rw [sv, geomSum_le_iff (by omega), geomSum_le_iff (by omega)]
    omega
  constructor
  · intro h
    obtain ⟨r, r1, r2, r3⟩ := mulAddInto_ok C p N h2 f v a b _ _ _ D' dv da db (pw _ (by omega)) (pw _ (by omega)) (pw _ (by omega))
      (by rw [e]; exact pw _ hM) (by rw [e]; exact i1.2 h.1) (by rw [e]; exact i2.2 h.2.1) (by rw [e]; exact i3.2 h.2.2)
    rw [e] at r2 r3
    refine ⟨r, r1, mulAddInto_mode C p N hv.1 r1, ?_, fun w hw => ?_⟩
    · unfold Dense.size
      rw [r2, sv, geomSum_max]
      rfl
    · have hc : ∀ (x : Dense S) (t : TReg S), Holds N x t → ∀ u, ValidWord N u → at? N x.data u = t.coef u := fun x t hx u hu => hx.2.2 u hu
      have hsp : splitProducts (fun y z => f (C.mul y z)) (at? N a.data) (at? N b.data) w =
          splitProducts (fun y z => f (C.mul y z)) ta.coef tb.coef w := by
        unfold splitProducts
        apply List.filterMap_congr
        intro uv huv
        have hs := (splits_spec w uv.1 uv.2).1 huv
        rw [hc a ta ha uv.1 (fun l hl => hw l (by rw [← hs]; simp [hl])), hc b tb hb uv.2 (fun l hl => hw l (by rw [← hs]; simp [hl]))]
      have h4 : at? N r.data w = _ := r3 w hw
      show at? N r.data w = _
      rw [h4, hsp, hc v tv hv w hw]
      rfl
  · intro h
    refine mulAddInto_ub C p N h2 f v a b _ _ _ D' dv da db (pw _ (by omega)) (pw _ (by omega)) (pw _ (by omega))
      (by rw [e]; exact pw _ hM) ?_
    rw [e]
    rintro ⟨h1, h3, h4⟩
    exact h ⟨i1.1 h1, i2.1 h3, i3.1 h4⟩

theorem holds_set {σ : Nat → Dense S} {τ : Nat → TReg S} {v : Dense S} {t : TReg S} (h : ∀ i, Holds N (σ i) (τ i)) (i : Nat) (hv : Holds N v t) :
    ∀ j, Holds N (setReg σ i v j) (setReg τ i t j) := by
  intro j
  unfold setReg
  split_ifs
  · exact hv
  · exact h j

theorem itemLevels_le {D : Nat} (items : List (List Nat × S)) (h : ∀ e ∈ items, e.1.length ≤ D) : itemLevels items ≤ D + 1 := by
  induction items with
  | nil => exact Nat.zero_le _
  | cons e es ih =>
    have := ih fun e' he => h e' (by simp [he])
    have := h e (by simp)
    show max _ (itemLevels es) ≤ _
    omega

theorem itemLevels_spec (items : List (List Nat × S)) (hne : items ≠ []) :
    (∀ e ∈ items, e.1.length + 1 ≤ itemLevels items) ∧ ∃ e ∈ items, e.1.length + 1 = itemLevels items := by
  induction items with
  | nil => exact absurd rfl hne
  | cons e es ih =>
    have hmax : itemLevels (e :: es) = max (e.1.length + 1) (itemLevels es) := rfl
    by_cases hes : es = []
    · subst hes
      have : itemLevels ([] : List (List Nat × S)) = 0 := rfl
      refine ⟨fun e' he => ?_, e, by simp, by omega⟩
      rw [List.mem_singleton] at he
      subst he
      omega
    · obtain ⟨h1, e0, h3, h4⟩ := ih hes
      constructor
      · intro e' he
        rcases List.mem_cons.1 he with rfl | he
        · omega
        · have := h1 e' he
          omega
      · rcases Nat.le_total (e.1.length + 1) (itemLevels es) with h | h
        · exact ⟨e0, by simp [h3], by omega⟩
        · exact ⟨e, by simp, by omega⟩

theorem levels_eval (σ : Nat → TReg S) (s : PStmt S R) (i : Nat) :
    (s.eval C σ i).levels = s.levels (fun j => (σ j).levels) i := by
  cases s <;> simp only [PStmt.eval, PStmt.levels, setReg, TReg.addProd, TReg.empty, apply_ite TReg.levels] <;> split_ifs <;>
    first | rfl | (subst_vars; rfl) | (simp [prodDeg]; done) | skip
  all_goals (simp only [prodDeg]; omega)

theorem levels_le {D : Nat} {N : Nat} (s : PStmt S R) (hs : s.Within N D) (l : Nat → Nat) (hl : ∀ i, l i ≤ D + 1) (i : Nat) : s.levels l i ≤ D + 1 := by
  cases s <;> simp only [PStmt.levels, setReg] <;> (try split_ifs) <;> first
    | exact hl _
    | exact Nat.zero_le _
    | exact Nat.succ_le_succ hs.2
    | exact itemLevels_le _ fun e he => (hs e he).2
    | exact max_le (hl _) (hl _)
    | exact Nat.succ_le_succ ((Nat.min_le_left _ _).trans hs)
    | exact max_le (hl _) (Nat.succ_le_succ ((Nat.min_le_left _ _).trans hs))

variable (C p) in
/-- One statement. -/
theorem runStmt_step (h2 : 2 ≤ N) (hN : N < 2 ^ 32) {D : Nat} (hm : D ≤ maxDepth N) (hp : N ^ (D + 1) < 2 ^ 64) (s : PStmt S R)
    (hs : s.Within N D) {σ : Nat → Dense S} {τ : Nat → TReg S} (h : ∀ i, Holds N (σ i) (τ i)) (hl : ∀ i, (τ i).levels ≤ D + 1) :
    (s.allowed (fun i => (τ i).levels) = true → ∃ σ', runStmt C p N σ s = .ok σ' ∧ ∀ i, Holds N (σ' i) (s.eval C τ i)) ∧
    (s.allowed (fun i => (τ i).levels) = false → runStmt C p N σ s = .ub) := by
  have data1 : ∀ (v r : Dense S) (t : TReg S) (g : S → S), Holds N v t → r = v.writeSlice (v.data.map g) →
      Holds N r ⟨t.levels, fun u => (t.coef u).map g⟩ := by
    rintro v r t g hv rfl
    refine ⟨writeSlice_mode hv.1 _, by simpa [Dense.size] using hv.2.1, fun w hw => ?_⟩
    unfold stored
    rw [Dense.writeSlice_data, List.getElem?_map]
    exact congrArg _ (hv.2.2 w hw)
  have key : ∀ w, ValidWord N w → w.length ≤ D → fromLetters p N w = .ok (keyOf N w) ∧
      (tensorBasis p N).keyToIndex (keyOf N w) = .ok (wordIndex N w) := fun w hw hl =>
    ⟨fromLetters_ok p N (by omega) hN w hw (hl.trans hm), keyToIndex_keyOf p N (by omega) hN w hw (hl.trans hm)⟩
  have mod1 : ∀ (v : Dense S) (t : TReg S) (w : List Nat) (f : S → S), Holds N v t → ValidWord N w → w.length ≤ D →
      ∃ b r, (DenseAlg.ops C p N).getMut v (keyOf N w) f = .ok (b, r) ∧
        Holds N r ⟨t.levels, fun u => if u = w then (t.coef u).map f else t.coef u⟩ := by
    intro v t w f hv hw hl
    have hg : (DenseAlg.ops C p N).getMut v (keyOf N w) f =
        if wordIndex N w < v.data.length then .ok (true, v.writeSlice (v.data.modify (wordIndex N w) f)) else .ok (false, v.makeMut) := by
      show Dense.getMut _ _ _ _ = _
      unfold Dense.getMut
      rw [(key w hw hl).2]
      rfl
    rw [hg]
    split_ifs with hi
    · refine ⟨_, _, rfl, writeSlice_mode hv.1 _, by simpa [Dense.size] using hv.2.1, fun u hu => ?_⟩
      have h3 := hv.2.2 u hu
      unfold stored at h3 ⊢
      rw [Dense.writeSlice_data]
      dsimp only
      rw [← h3]
      by_cases he : u = w
      · subst he
        simp
      · rw [if_neg he, List.getElem?_modify_ne _ _ fun e => he (wordIndex_inj hu hw e.symm)]
    · refine ⟨_, _, rfl, makeMut_mode hv.1, by simpa [Dense.size] using hv.2.1, fun u hu => ?_⟩
      have h3 := hv.2.2 u hu
      unfold stored at h3 ⊢
      rw [Dense.makeMut_data, h3]
      dsimp only
      split_ifs with he
      · subst he
        rw [← h3, List.getElem?_eq_none (by omega)]
        rfl
      · rfl
  have comb : ∀ (g : S → S → S) (v o r : Dense S) (tv tw : TReg S), Holds N v tv → Holds N o tw → r.mode ≠ .borrowedMut →
      r.data = Dense.combine C g v.data o.data →
      Holds N r ⟨max tv.levels tw.levels, fun u => mergeEntry g C.zero (tv.coef u) (tw.coef u)⟩ := by
    intro g v o r tv tw hv ho hmode hr
    refine ⟨hmode, ?_, fun u hu => ?_⟩
    · have h1 := hv.2.1
      have h3 := ho.2.1
      unfold Dense.size at h1 h3 ⊢
      rw [hr, Dense.combine_length, h1, h3, geomSum_max]
    · have h1 := hv.2.2 u hu
      have h3 := ho.2.2 u hu
      unfold stored at h1 h3 ⊢
      rw [hr, Dense.combine_getElem?, h1, h3]
      dsimp only
      cases tv.coef u <;> cases tw.coef u <;> rfl
  cases s with
  | zero i => exact ⟨fun _ => ⟨_, rfl, holds_set h i (Holds.empty (by show Mode.owned ≠ _; decide) rfl)⟩, fun h => by cases h⟩
  | word i w x =>
    refine ⟨fun _ => ?_, fun h => by cases h⟩
    have hpw : N ^ (w.length + 1) < 2 ^ 64 := pow_lt64_mono h2 (by have := hs.2; omega) hp
    have hdim : (tensorBasis p N).dimForKey (keyOf N w) = .ok (geomSum N (w.length + 1)) := by
      show vectorDimensionForKey p N (keyOf N w) = _
      unfold vectorDimensionForKey
      have := maxDepth_le N
      have := hs.2
      rw [show degree (keyOf N w) = w.length from rfl, addW_ok (by omega), Res.bind_ok, startOfDegree_ok p N h2 _ hpw]
    have hb := wordIndex_bounds hs.1
    have hr := Dense.fromKeyScalar_ok C _ hdim (key w hs.1 hs.2).2 hb.2 x
    have hH : Holds N (Dense.ofVec ((List.replicate (geomSum N (w.length + 1)) C.zero).modify (wordIndex N w) fun _ => x))
        ⟨w.length + 1, fun u => if u = w then some x else if u.length ≤ w.length then some C.zero else none⟩ := by
      refine ⟨by simp [Dense.ofVec], by simp [Dense.size], fun u hu => ?_⟩
      unfold stored
      rw [Dense.ofVec_data]
      dsimp only
      by_cases he : u = w
      · subst he
        simp [hb.2]
      · have hne : wordIndex N u ≠ wordIndex N w := fun e => he (wordIndex_inj hu hs.1 e)
        have hub := wordIndex_bounds hu
        rw [if_neg he, List.getElem?_modify_ne _ _ hne.symm, List.getElem?_replicate]
        by_cases hlen : u.length ≤ w.length
        · have := geomSum_mono (N := N) (a := u.length + 1) (b := w.length + 1) (by omega)
          rw [if_pos hlen, if_pos (by omega)]
        · have := geomSum_mono (N := N) (a := w.length + 1) (b := u.length) (by omega)
          rw [if_neg hlen, if_neg (by omega)]
    refine ⟨_, ?_, holds_set h i hH⟩
    show (fromLetters p N w >>= fun k => Dense.fromKeyScalar C (tensorBasis p N) k x >>= fun v => pure (setReg σ i v)) = _
    rw [(key w hs.1 hs.2).1, Res.bind_ok, hr]
    rfl
  | terms i items =>
    refine ⟨fun hok => ?_, fun h => by cases h⟩
    clear hok
    have hmapM : items.mapM (fun e => (fun k => (k, e.2)) <$> fromLetters p N e.1) = .ok (items.map fun e => (keyOf N e.1, e.2)) := by
      have hs' : ∀ e ∈ items, ValidWord N e.1 ∧ e.1.length ≤ D := hs
      clear hs
      induction items with
      | nil => rfl
      | cons e es ih =>
        rw [List.mapM_cons, (key e.1 (hs' e (by simp)).1 (hs' e (by simp)).2).1, ih fun e' h => hs' e' (by simp [h])]
        rfl
    suffices ∃ r, (DenseAlg.ops C p N).fromIterator (items.map fun e => (keyOf N e.1, e.2)) = .ok r ∧
        Holds N r ⟨itemLevels items, fun u => if u.length < itemLevels items then some ((itemValues items u).foldl C.add C.zero) else none⟩ by
      obtain ⟨r, r1, r2⟩ := this
      refine ⟨_, ?_, holds_set h i r2⟩
      show (items.mapM (fun e => (fun k => (k, e.2)) <$> fromLetters p N e.1) >>= fun keys =>
        (DenseAlg.ops C p N).fromIterator keys >>= fun v => pure (setReg σ i v)) = _
      rw [hmapM, Res.bind_ok, r1]
      rfl
    by_cases hne : items = []
    · subst hne
      exact ⟨Dense.new, C18_from_iterator_empty C _, by simp [Dense.new, Dense.ofVec], rfl, fun w _ => rfl⟩
    · obtain ⟨l1, e0, he0, l2⟩ := itemLevels_spec items hne
      have hD : itemLevels items ≤ D + 1 := itemLevels_le items fun e he => (hs e he).2
      have hps : N ^ (itemLevels items - 1 + 1) < 2 ^ 64 := pow_lt64_mono h2 (by omega) hp
      obtain ⟨r, r1, r2, r3⟩ := C18_from_iterator C p N h2 hN items (itemLevels items - 1) (fun e he => (hs e he).1)
        (fun e he => by have := l1 e he; omega) ⟨e0, he0, by omega⟩ (by omega) hps _ hmapM
      rw [Nat.sub_add_cancel (by omega)] at r2
      refine ⟨r, r1, ?_, r2, fun u hu => ?_⟩
      · unfold Dense.ops at r1
        change Dense.fromIterator C _ _ = _ at r1
        unfold Dense.fromIterator at r1
        obtain ⟨vec, _, r1⟩ := bind_inv r1
        cases hlast : (vec.mergeSort (fun a b => decide (a.1 ≤ b.1))).getLast? with
        | none => rw [hlast] at r1; cases r1; simp [Dense.new, Dense.ofVec]
        | some last =>
          rw [hlast] at r1
          obtain ⟨dim, _, r1⟩ := bind_inv r1
          refine foldlM_keep (fun v : Dense S => v.mode ≠ .borrowedMut) _ (fun v o v' hv hd => ?_) _ _ _ (by simp [Dense.fromDimension, Dense.ofVec]) r1
          unfold Dense.fromIteratorStep at hd
          obtain ⟨l, _, hd⟩ := bind_inv hd
          cases hd
          exact writeSlice_mode hv _
      · dsimp only
        by_cases hlu : u.length < itemLevels items
        · have hk := key u hu (by omega)
          have h3 := r3 u _ hu (by omega) hk.1
          have h4 := C33_get C p N (by omega) hN r u hu (by omega) _ hk.1
          have h5 : Res.ok (stored N r u) = _ := h4.symm.trans h3
          rw [if_pos (by omega)] at h5
          rw [if_pos hlu]
          injection h5
        · rw [if_neg hlu, stored_none r2 u hu (by omega)]
  | copy i j =>
    exact ⟨fun _ => ⟨_, rfl, holds_set h i ⟨by simp [Dense.ofVec], (h j).2.1, (h j).2.2⟩⟩, fun h => by cases h⟩
  | swap i j => exact ⟨fun _ => ⟨_, rfl, holds_set (holds_set h i (h j)) j (h i)⟩, fun h => by cases h⟩
  | clear i =>
    refine ⟨fun _ => ?_, fun h => by cases h⟩
    have hm := (h i).1
    have : ∃ r, (DenseAlg.ops C p N).clear (σ i) = .ok r ∧ r.mode ≠ .borrowedMut ∧ r.data = [] := by
      show ∃ r, Dense.clear C (σ i) = .ok r ∧ _
      generalize σ i = v at hm ⊢
      obtain ⟨m, d, e⟩ := v
      cases m
      · exact ⟨_, rfl, by simp, rfl⟩
      · exact ⟨_, rfl, by simp, rfl⟩
      · exact absurd rfl hm
    obtain ⟨r, r1, r2, r3⟩ := this
    refine ⟨_, ?_, holds_set h i (Holds.empty r2 r3)⟩
    show ((DenseAlg.ops C p N).clear (σ i) >>= fun v => pure (setReg σ i v)) = _
    rw [r1]
    rfl
  | modify i w f =>
    refine ⟨fun _ => ?_, fun h => by cases h⟩
    obtain ⟨b, r, r1, r2⟩ := mod1 (σ i) (τ i) w f (h i) hs.1 hs.2
    refine ⟨_, ?_, holds_set h i r2⟩
    show (fromLetters p N w >>= fun k => (DenseAlg.ops C p N).getMut (σ i) k f >>= fun r => pure (setReg σ i r.2)) = _
    rw [(key w hs.1 hs.2).1, Res.bind_ok, r1]
    rfl
  | erase i w =>
    refine ⟨fun _ => ?_, fun h => by cases h⟩
    obtain ⟨b, r, r1, r2⟩ := mod1 (σ i) (τ i) w (fun _ => C.zero) (h i) hs.1 hs.2
    refine ⟨_, ?_, holds_set h i r2⟩
    show (fromLetters p N w >>= fun k => ((DenseAlg.ops C p N).getMut (σ i) k (fun _ => C.zero) >>= fun r => pure r.2) >>= fun r =>
      pure (setReg σ i r)) = _
    rw [(key w hs.1 hs.2).1, Res.bind_ok, r1]
    rfl
  | neg i => exact ⟨fun _ => ⟨_, rfl, holds_set h i (data1 _ _ _ C.uminus (h i) rfl)⟩, fun h => by cases h⟩
  | add i j =>
    refine ⟨fun _ => ?_, fun h => by cases h⟩
    obtain ⟨r, r1, r2⟩ := Dense.addInplace_data C (σ i) (σ j)
    have hmode : r.mode ≠ .borrowedMut := by
      unfold Dense.addInplace at r1
      dsimp only at r1
      split_ifs at r1 <;> cases r1
      · exact writeSlice_mode (resize_mode C _ _) _
      · exact writeSlice_mode (makeMut_mode (h i).1) _
    refine ⟨_, ?_, holds_set h i (comb C.add _ _ r _ _ (h i) (h j) hmode r2)⟩
    show (Dense.addInplace C (σ i) (σ j) >>= fun v => pure (setReg σ i v)) = _
    rw [r1]
    rfl
  | sub i j =>
    refine ⟨fun _ => ?_, fun h => by cases h⟩
    obtain ⟨r, r1, r2⟩ := Dense.subInplace_data C (σ i) (σ j)
    have hmode : r.mode ≠ .borrowedMut := by
      unfold Dense.subInplace at r1
      dsimp only at r1
      split_ifs at r1 <;> cases r1
      · exact writeSlice_mode (resize_mode C _ _) _
      · exact writeSlice_mode (h i).1 _
    refine ⟨_, ?_, holds_set h i (comb C.sub _ _ r _ _ (h i) (h j) hmode r2)⟩
    show (Dense.subInplace C (σ i) (σ j) >>= fun v => pure (setReg σ i v)) = _
    rw [r1]
    rfl
  | scale i x => exact ⟨fun _ => ⟨_, rfl, holds_set h i (data1 _ _ _ (fun y => C.mul y x) (h i) rfl)⟩, fun h => by cases h⟩
  | div i x => exact ⟨fun _ => ⟨_, rfl, holds_set h i (data1 _ _ _ (fun y => C.div y x) (h i) rfl)⟩, fun h => by cases h⟩
  | mul i j k D' =>
    have hn : Holds N (Dense.new : Dense S) TReg.empty := Holds.empty (by simp [Dense.new, Dense.ofVec]) rfl
    obtain ⟨h3, h4⟩ := addProd_step C p h2 hp hs id hn (h j) (h k) (Nat.zero_le _) (hl j) (hl k)
    refine ⟨fun ha => ?_, fun ha => ?_⟩
    · obtain ⟨a1, a2, a3⟩ := of_decide_eq_true ha
      obtain ⟨r, r1, r2⟩ := h3 ⟨a1, a2, Or.inr a3⟩
      refine ⟨_, ?_, holds_set h i r2⟩
      show (mulAddInto C p N Dense.new (σ j) (σ k) id (some D') >>= fun v => pure (setReg σ i v)) = _
      rw [r1]
      rfl
    · have a1 := of_decide_eq_false ha
      show (mulAddInto C p N Dense.new (σ j) (σ k) id (some D') >>= fun v => pure (setReg σ i v)) = _
      rw [h4 (by rintro ⟨b1, b2, b3 | b3⟩; exacts [absurd b3 (by simp [TReg.empty]), a1 ⟨b1, b2, b3⟩])]
      rfl
  | comm i j k D' =>
    have hn : Holds N (Dense.new : Dense S) TReg.empty := Holds.empty (by simp [Dense.new, Dense.ofVec]) rfl
    obtain ⟨h3, h4⟩ := addProd_step C p h2 hp hs id hn (h j) (h k) (Nat.zero_le _) (hl j) (hl k)
    have hlift : runStmt C p N σ (.comm i j k D') = ((mulAddInto C p N Dense.new (σ j) (σ k) id (some D') >>= fun r =>
      mulAddInto C p N r (σ k) (σ j) C.uminus (some D')) >>= fun v => pure (setReg σ i v)) := rfl
    rw [hlift]
    refine ⟨fun ha => ?_, fun ha => ?_⟩
    · obtain ⟨a1, a2, a3⟩ := of_decide_eq_true ha
      obtain ⟨r, r1, r2⟩ := h3 ⟨a1, a2, Or.inr a3⟩
      have hlr : (TReg.addProd C id TReg.empty (τ j) (τ k) D').levels ≤ D + 1 := by
        show max 0 (prodDeg D' _ _ + 1) ≤ _
        have : prodDeg D' (τ j).levels (τ k).levels ≤ D' := Nat.min_le_left _ _
        have : D' ≤ D := hs
        omega
      obtain ⟨r', r3, r4⟩ := (addProd_step C p h2 hp hs C.uminus r2 (h k) (h j) hlr (hl k) (hl j)).1
        ⟨a2, a1, Or.inl (by show 1 ≤ max 0 (prodDeg D' _ _ + 1); omega)⟩
      refine ⟨_, ?_, holds_set h i r4⟩
      rw [r1, Res.bind_ok, r3]
      rfl
    · have a1 := of_decide_eq_false ha
      rw [h4 (by rintro ⟨b1, b2, b3 | b3⟩; exacts [absurd b3 (by simp [TReg.empty]), a1 ⟨b1, b2, b3⟩])]
      rfl
  | addMul i j k D' =>
    obtain ⟨h3, h4⟩ := addProd_step C p h2 hp hs id (h i) (h j) (h k) (hl i) (hl j) (hl k)
    refine ⟨fun ha => ?_, fun ha => ?_⟩
    · obtain ⟨r, r1, r2⟩ := h3 (of_decide_eq_true ha)
      refine ⟨_, ?_, holds_set h i r2⟩
      show (mulAddInto C p N (σ i) (σ j) (σ k) id (some D') >>= fun v => pure (setReg σ i v)) = _
      rw [r1]
      rfl
    · show (mulAddInto C p N (σ i) (σ j) (σ k) id (some D') >>= fun v => pure (setReg σ i v)) = _
      rw [h4 (of_decide_eq_false ha)]
      rfl
  | subMul i j k D' =>
    obtain ⟨h3, h4⟩ := addProd_step C p h2 hp hs C.uminus (h i) (h j) (h k) (hl i) (hl j) (hl k)
    refine ⟨fun ha => ?_, fun ha => ?_⟩
    · obtain ⟨r, r1, r2⟩ := h3 (of_decide_eq_true ha)
      refine ⟨_, ?_, holds_set h i r2⟩
      show (mulAddInto C p N (σ i) (σ j) (σ k) C.uminus (some D') >>= fun v => pure (setReg σ i v)) = _
      rw [r1]
      rfl
    · show (mulAddInto C p N (σ i) (σ j) (σ k) C.uminus (some D') >>= fun v => pure (setReg σ i v)) = _
      rw [h4 (of_decide_eq_false ha)]
      rfl

variable (C p N)

/-- The registers at the start of a program. -/
def emptyRegs : Nat → TReg S := fun _ => TReg.empty

variable {N} in
theorem runProg_from (h2 : 2 ≤ N) (hN : N < 2 ^ 32) {D : Nat} (hm : D ≤ maxDepth N) (hp : N ^ (D + 1) < 2 ^ 64) (prog : List (PStmt S R))
    (hs : ∀ s ∈ prog, s.Within N D) (σ : Nat → Dense S) (τ : Nat → TReg S) (h : ∀ i, Holds N (σ i) (τ i)) (hl : ∀ i, (τ i).levels ≤ D + 1) :
    (allowedProg (fun i => (τ i).levels) prog = true →
      ∃ σ', prog.foldlM (runStmt C p N) σ = .ok σ' ∧ ∀ i, Holds N (σ' i) (evalProg C τ prog i)) ∧
    (allowedProg (fun i => (τ i).levels) prog = false → prog.foldlM (runStmt C p N) σ = .ub) := by
  induction prog generalizing σ τ with
  | nil => exact ⟨fun _ => ⟨σ, rfl, h⟩, fun h => by cases h⟩
  | cons s prog ih =>
    obtain ⟨h3, h4⟩ := runStmt_step C p h2 hN hm hp s (hs s (by simp)) h hl
    have hlev : (fun i => (s.eval C τ i).levels) = s.levels fun i => (τ i).levels := funext fun i => levels_eval τ s i
    have hl' : ∀ i, (s.eval C τ i).levels ≤ D + 1 := fun i => by
      rw [levels_eval]
      exact levels_le (N := N) s (hs s (by simp)) _ hl i
    rw [List.foldlM_cons]
    cases ha : s.allowed fun i => (τ i).levels with
    | true =>
      obtain ⟨σ', r1, r2⟩ := h3 ha
      have := ih (fun s' h' => hs s' (by simp [h'])) σ' (s.eval C τ) r2 hl'
      rw [hlev] at this
      rw [r1, Res.bind_ok]
      simp only [allowedProg, ha, Bool.true_and]
      exact this
    | false =>
      rw [h4 ha]
      simp [allowedProg, ha]

/-- C65, what holds: every program over words of length at most `D` and products up to degree at most `D`, in which every product is allowed (two non-empty
factors, a target that is not empty when the degree is 0), runs without panic and without undefined behaviour, for all coefficient types, and at the end
each register stores exactly the words of the reference semantics, with exactly its coefficients.  In particular every vector a program can make stores all
words up to a degree. -/
theorem C65_programs_partial (h2 : 2 ≤ N) (hN : N < 2 ^ 32) (D : Nat) (hm : D ≤ maxDepth N) (hp : N ^ (D + 1) < 2 ^ 64) (prog : List (PStmt S R))
    (hs : ∀ s ∈ prog, s.Within N D) (ha : allowedProg (fun _ => 0) prog = true) :
    ∃ σ, runProg C p N prog = .ok σ ∧ ∀ i, (σ i).size = geomSum N (evalProg C emptyRegs prog i).levels ∧
      ∀ w k, ValidWord N w → w.length ≤ maxDepth N → fromLetters p N w = .ok k →
        (DenseAlg.ops C p N).get (σ i) k = .ok ((evalProg C emptyRegs prog i).coef w) := by
  obtain ⟨σ, h1, h3⟩ := (runProg_from C p h2 hN hm hp prog hs (fun _ => Dense.new) emptyRegs
    (fun _ => Holds.empty (by simp [Dense.new, Dense.ofVec]) rfl) (fun _ => Nat.zero_le _)).1 ha
  refine ⟨σ, h1, fun i => ⟨(h3 i).2.1, fun w k hw hl hk => ?_⟩⟩
  rw [C33_get C p N (by omega) hN (σ i) w hw hl k hk, (h3 i).2.2 w hw]

/-- C65, exactly: all other programs are undefined behaviour.  So the check on word lengths and degrees alone decides memory safety. -/
theorem C65_unsafe (h2 : 2 ≤ N) (hN : N < 2 ^ 32) (D : Nat) (hm : D ≤ maxDepth N) (hp : N ^ (D + 1) < 2 ^ 64) (prog : List (PStmt S R))
    (hs : ∀ s ∈ prog, s.Within N D) : runProg C p N prog = .ub ↔ allowedProg (fun _ => 0) prog = false := by
  refine ⟨fun h => ?_, fun h => ?_⟩
  · by_contra hc
    obtain ⟨σ, h1, _⟩ := C65_programs_partial C p N h2 hN D hm hp prog hs (by simpa using hc)
    cases h1.symm.trans h
  · exact (runProg_from C p h2 hN hm hp prog hs (fun _ => Dense.new) emptyRegs
      (fun _ => Holds.empty (by simp [Dense.new, Dense.ofVec]) rfl) (fun _ => Nat.zero_le _)).2 h

/-- C65, full statement: no program made of the methods of the crate is undefined behaviour. -/
def C65_programs_full : Prop := ∀ (D : Nat) (prog : List (PStmt S R)), D ≤ maxDepth N → N ^ (D + 1) < 2 ^ 64 → (∀ s ∈ prog, s.Within N D) →
  runProg C p N prog ≠ .ub

/-- C65 is false for every alphabet, coefficient type and profile. -/
theorem C65_programs_refuted (h2 : 2 ≤ N) (hN : N < 2 ^ 32) : ¬ C65_programs_full C p N := by
  intro h
  have hd := two_le_maxDepth N (by omega) hN
  have hp : N ^ (1 + 1) < 2 ^ 64 := by
    have : N * N ≤ (2 ^ 32 - 1) * (2 ^ 32 - 1) := Nat.mul_le_mul (by omega) (by omega)
    rw [Nat.pow_succ, Nat.pow_one]
    omega
  have hw : ∀ s ∈ [PStmt.zero 0, .mul (S := S) (R := R) 1 0 0 1], s.Within N 1 := by
    intro s hs
    simp only [List.mem_cons, List.not_mem_nil, or_false] at hs
    rcases hs with rfl | rfl
    · trivial
    · exact le_rfl
  exact h 1 [.zero 0, .mul 1 0 0 1] (by omega) hp hw ((C65_unsafe C p N h2 hN 1 (by omega) hp _ hw).2 (by simp [allowedProg, PStmt.allowed, PStmt.levels, setReg]))

/-! ## C66: over exact coefficients programs compute in the free algebra -/

/-- The register holds the given element of the free algebra. -/
def Means [CommRing S] (t : TReg S) (f : List Nat → S) : Prop :=
  (∀ w : List Nat, t.levels ≤ w.length → t.coef w = none) ∧ ∀ w, (t.coef w).getD 0 = f w

variable {C} in
theorem addProd_means [CommRing S] (hC : C.IsRing) {tv ta tb : TReg S} {v a b : List Nat → S} (hv : Means tv v) (ha : Means ta a) (hb : Means tb b)
    (g : S → S) (c : S) (hg : ∀ x, g x = c * x) (D : Nat) :
    Means (TReg.addProd C g tv ta tb D) fun w => v w + c * cutProd D a b w := by
  have hzero : ∀ (t : TReg S) (f : List Nat → S), Means t f → ∀ u : List Nat, t.levels - 1 < u.length → f u = 0 := by
    intro t f h u hu
    rw [← h.2 u, h.1 u (by omega)]
    rfl
  constructor
  · intro w hw
    have h1 : max tv.levels (prodDeg D ta.levels tb.levels + 1) ≤ w.length := hw
    show (if w.length ≤ prodDeg D ta.levels tb.levels then _ else tv.coef w) = none
    rw [if_neg (by omega), hv.1 w (by omega)]
  · intro w
    show (if w.length ≤ prodDeg D ta.levels tb.levels then _ else tv.coef w).getD 0 = _
    dsimp only
    unfold cutProd
    split_ifs with h1 h3 h3
    · rw [Option.getD_some]
      have e1 : C.add = (· + ·) := by funext x y; exact hC.add x y
      have e2 : (fun y z => g (C.mul y z)) = fun x y => c * (x * y) := by funext x y; rw [hg, hC.mul]
      have e3 : splitProducts (fun x y => c * (x * y)) ta.coef tb.coef w = (splitProducts (· * ·) ta.coef tb.coef w).map (c * ·) := by
        unfold splitProducts
        rw [List.map_filterMap]
        apply List.filterMap_congr
        intro uv _
        cases ta.coef uv.1 <;> cases tb.coef uv.2 <;> rfl
      rw [e1, e2, e3, foldl_add_sum, List.sum_map_mul_left, List.map_id', splitProducts_sum, hC.zero, hv.2 w]
      congr 2
      exact conv_congr w (fun u _ => ha.2 u) (fun u _ => hb.2 u)
    · unfold prodDeg at h1
      omega
    · rw [hv.2 w]
      have : conv a b w = 0 := by
        rw [conv_eq_sum]
        apply List.sum_eq_zero
        intro x hx
        rw [List.mem_map] at hx
        obtain ⟨k, hk, rfl⟩ := hx
        rw [List.mem_range] at hk
        unfold prodDeg at h1
        by_cases hc : ta.levels - 1 < k
        · rw [hzero ta a ha _ (by simp; omega), zero_mul]
        · rw [hzero tb b hb _ (by simp; omega), mul_zero]
      rw [this, mul_zero, add_zero]
    · rw [hv.2 w, mul_zero, add_zero]

theorem means_set [CommRing S] {τ : Nat → TReg S} {ρ : Nat → List Nat → S} {t : TReg S} {f : List Nat → S} (h : ∀ i, Means (τ i) (ρ i)) (i : Nat)
    (ht : Means t f) : ∀ j, Means (setReg τ i t j) (setReg ρ i f j) := by
  intro j
  unfold setReg
  split_ifs
  · exact ht
  · exact h j

variable {C} in
theorem stmt_means [CommRing S] (hC : C.IsRing) (s : PStmt S R) (hs : s.Algebraic) {τ : Nat → TReg S} {ρ : Nat → List Nat → S}
    (h : ∀ i, Means (τ i) (ρ i)) : ∀ i, Means (s.eval C τ i) (s.value ρ i) := by
  have h0 : Means (TReg.empty : TReg S) fun _ => 0 := ⟨fun _ _ => rfl, fun _ => rfl⟩
  have map1 : ∀ (t : TReg S) (f : List Nat → S) (g : S → S), Means t f → g 0 = 0 → Means ⟨t.levels, fun u => (t.coef u).map g⟩ fun u => g (f u) := by
    intro t f g ht hg
    refine ⟨fun w hw => by dsimp only at hw ⊢; rw [ht.1 w hw]; rfl, fun w => ?_⟩
    dsimp only
    rw [← ht.2 w]
    cases t.coef w
    · exact hg.symm
    · rfl
  have merge : ∀ (t u : TReg S) (f g : List Nat → S) (op op' : S → S → S), Means t f → Means u g → (∀ x y, op x y = op' x y) → (∀ x, op' x 0 = x) →
      Means ⟨max t.levels u.levels, fun w => mergeEntry op C.zero (t.coef w) (u.coef w)⟩ fun w => op' (f w) (g w) := by
    intro t u f g op op' ht hu ho ho0
    refine ⟨fun w hw => ?_, fun w => ?_⟩
    · dsimp only at hw ⊢
      rw [ht.1 w (by omega), hu.1 w (by omega)]
      rfl
    · dsimp only
      rw [← ht.2 w, ← hu.2 w]
      cases t.coef w <;> cases u.coef w <;> simp [mergeEntry, ho, ho0, hC.zero]
  have neg : ∀ x, C.uminus x = -1 * x := fun x => by rw [hC.uminus]; ring
  cases s with
  | zero i | clear i => exact means_set h i h0
  | word i w x =>
    refine means_set h i ⟨fun u hu => ?_, fun u => ?_⟩
    · dsimp only at hu ⊢
      rw [if_neg (by rintro rfl; omega), if_neg (by omega)]
    · dsimp only
      split_ifs <;> simp [hC.zero]
  | terms i items =>
    refine means_set h i ⟨fun u hu => ?_, fun u => ?_⟩
    · dsimp only at hu ⊢
      rw [if_neg (by omega)]
    · dsimp only
      have e1 : C.add = (· + ·) := by funext x y; exact hC.add x y
      split_ifs with hl
      · rw [e1, foldl_add_sum, hC.zero, zero_add, Option.getD_some]
      · have : itemValues items u = [] := by
          unfold itemValues
          rw [List.map_eq_nil_iff, List.filter_eq_nil_iff]
          intro e he
          have := (itemLevels_spec items (by rintro rfl; cases he)).1 e he
          simp only [decide_eq_true_eq]
          rintro rfl
          omega
        rw [this]
        rfl
  | copy i j => exact means_set h i (h j)
  | swap i j => exact means_set (means_set h i (h j)) j (h i)
  | modify i w f => exact absurd hs id
  | erase i w =>
    refine means_set h i ⟨fun u hu => ?_, fun u => ?_⟩
    · dsimp only at hu ⊢
      rw [(h i).1 u hu]
      split_ifs <;> rfl
    · dsimp only
      rw [← (h i).2 u]
      split_ifs
      · cases (τ i).coef u <;> simp [hC.zero]
      · rfl
  | neg i =>
    refine means_set h i ?_
    have := map1 (τ i) (ρ i) C.uminus (h i) (by rw [hC.uminus, neg_zero])
    simpa only [hC.uminus] using this
  | add i j => exact means_set h i (merge _ _ _ _ C.add (· + ·) (h i) (h j) hC.add add_zero)
  | sub i j => exact means_set h i (merge _ _ _ _ C.sub (· - ·) (h i) (h j) hC.sub sub_zero)
  | scale i x =>
    refine means_set h i ?_
    have := map1 (τ i) (ρ i) (fun y => C.mul y x) (h i) (by rw [hC.mul, zero_mul])
    simpa only [hC.mul] using this
  | div i x => exact absurd hs id
  | mul i j k D =>
    refine means_set h i ?_
    have := addProd_means hC h0 (h j) (h k) id 1 (fun x => (one_mul x).symm) D
    simpa only [zero_add, one_mul] using this
  | comm i j k D =>
    refine means_set h i ?_
    have h1 := addProd_means hC h0 (h j) (h k) id 1 (fun x => (one_mul x).symm) D
    have h3 := addProd_means hC h1 (h k) (h j) C.uminus (-1) neg D
    simpa only [zero_add, one_mul, neg_one_mul, ← sub_eq_add_neg] using h3
  | addMul i j k D =>
    refine means_set h i ?_
    have := addProd_means hC (h i) (h j) (h k) id 1 (fun x => (one_mul x).symm) D
    simpa only [one_mul] using this
  | subMul i j k D =>
    refine means_set h i ?_
    have := addProd_means hC (h i) (h j) (h k) C.uminus (-1) neg D
    simpa only [neg_one_mul, ← sub_eq_add_neg] using this

/-- C66.  Over exact coefficients an allowed program computes in the free associative algebra: at the end, reading register `i` at a word gives the
coefficient of that word in the element the program describes; an absent entry means the coefficient is zero. -/
theorem C66_programs_exact [CommRing S] (hC : C.IsRing) (h2 : 2 ≤ N) (hN : N < 2 ^ 32) (D : Nat) (hm : D ≤ maxDepth N) (hp : N ^ (D + 1) < 2 ^ 64)
    (prog : List (PStmt S R)) (hs : ∀ s ∈ prog, s.Within N D ∧ s.Algebraic) (ha : allowedProg (fun _ => 0) prog = true) :
    ∃ σ, runProg C p N prog = .ok σ ∧ ∀ i w k, ValidWord N w → w.length ≤ maxDepth N → fromLetters p N w = .ok k →
      ∃ x, (DenseAlg.ops C p N).get (σ i) k = .ok x ∧ x.getD 0 = valueProg prog i w := by
  obtain ⟨σ, h1, h3⟩ := C65_programs_partial C p N h2 hN D hm hp prog (fun s h => (hs s h).1) ha
  have key : ∀ (prog : List (PStmt S R)) (τ : Nat → TReg S) (ρ : Nat → List Nat → S), (∀ s ∈ prog, s.Algebraic) → (∀ i, Means (τ i) (ρ i)) →
      ∀ i, Means (prog.foldl (PStmt.eval C) τ i) (prog.foldl PStmt.value ρ i) := by
    intro prog
    induction prog with
    | nil => exact fun τ ρ _ h => h
    | cons s prog ih => exact fun τ ρ hs h => ih _ _ (fun s' h' => hs s' (by simp [h'])) (stmt_means hC s (hs s (by simp)) h)
  have hM := key prog emptyRegs (fun _ _ => 0) (fun s h => (hs s h).2) fun _ => ⟨fun _ _ => rfl, fun _ => rfl⟩
  exact ⟨σ, h1, fun i w k hw hl hk => ⟨_, (h3 i).2 w k hw hl hk, (hM i).2 w⟩⟩

end

/-- `x0 = (1) + 2·(2)`, `x1 = 3·(2)`, `x2 = [x0, x1] + x1 x1`, the entry at `(2 2)` removed, the result negated and `x0` subtracted. -/
def sampleProg : List (PStmt Int Int) :=
  [.word 0 [1] 1, .word 3 [2] 2, .add 0 3, .word 1 [2] 3, .comm 2 0 1 3, .addMul 2 1 1 3, .erase 2 [2, 2], .scale 2 (-1), .sub 2 0]

/-- The sample program meets the hypotheses of C65 and C66, ... -/
theorem sampleProg_ok : (∀ s ∈ sampleProg, s.Within 2 3 ∧ s.Algebraic) ∧ allowedProg (fun _ => 0) sampleProg = true := by
  refine ⟨?_, by decide +kernel⟩
  intro s hs
  simp only [sampleProg, List.mem_cons, List.not_mem_nil, or_false] at hs
  rcases hs with rfl | rfl | rfl | rfl | rfl | rfl | rfl | rfl | rfl <;> (simp only [PStmt.Within, PStmt.Algebraic]; decide)

/-- ... and this is what it computes. -/
example : (do let σ ← runProg intCoeff .debug 2 sampleProg; return (σ 2).data) = .ok [0, -1, -2, 0, -3, 3, 0] := by decide +kernel

example : (valueProg sampleProg 2 [1, 2], valueProg sampleProg 2 [2, 1], valueProg sampleProg 2 [2], valueProg sampleProg 2 [2, 2]) = (-3, 3, -2, 0) := by
  decide +kernel

example := C65_programs_partial intCoeff .release 2 (by omega) (by omega) 3 (by decide +kernel) (by decide) sampleProg
  (fun s h => (sampleProg_ok.1 s h).1) sampleProg_ok.2

example := C66_programs_exact intCoeff .release 2 intCoeff_isRing (by omega) (by omega) 3 (by decide +kernel) (by decide) sampleProg
  sampleProg_ok.1 sampleProg_ok.2

/-- The same first register from a list of terms. -/
example := C66_programs_exact intCoeff .debug 2 intCoeff_isRing (by omega) (by omega) 3 (by decide +kernel) (by decide)
  [.terms 0 [([1], 1), ([2], 5), ([2], -3)], .mul 1 0 0 2]
  (by
    intro s hs
    simp only [List.mem_cons, List.not_mem_nil, or_false] at hs
    rcases hs with rfl | rfl <;> (simp only [PStmt.Within, PStmt.Algebraic]; decide))
  (by decide +kernel)

/-- Clearing an operand makes the next product undefined behaviour, also in floating point. -/
example : runProg (floatCoeff .f64) .release 3 [.word 0 [1] (.fin 1), .mul 1 0 0 2, .clear 0, .mul 1 0 1 2] = .ub :=
  (C65_unsafe (floatCoeff .f64) .release 3 (by omega) (by omega) 2 (by decide +kernel) (by decide) _ (by
    intro s hs
    simp only [List.mem_cons, List.not_mem_nil, or_false] at hs
    rcases hs with rfl | rfl | rfl | rfl <;> simp only [PStmt.Within] <;> decide)).2 (by decide +kernel)

example : ¬ C65_programs_full intCoeff .debug 5 := C65_programs_refuted intCoeff .debug 5 (by omega) (by omega)

end RA
