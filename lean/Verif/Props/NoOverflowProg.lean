import Verif.Props.NoOverflow
import Verif.SpecMassProg

/-!
# When programs with checked arithmetic return (C105)
-/

namespace RA
open Spec TensorKey TensorBasis Fallible DenseAlg

section
variable {S R : Type} {F : FCoeff S R} {μ : S → Nat} {B : Nat} (p : Profile) (N : Nat)

/-! ## The sizes of the registers

They do not depend on the coefficients: the same program with coefficients of a type with one element has registers of the same size. -/

/-- The statement without its coefficients. -/
def shape : PStmt S R → PStmt Unit Unit
  | .zero i => .zero i
  | .word i w _ => .word i w ()
  | .terms i items => .terms i (items.map fun e => (e.1, ()))
  | .copy i j => .copy i j
  | .swap i j => .swap i j
  | .clear i => .clear i
  | .modify i w _ => .modify i w id
  | .erase i w => .erase i w
  | .neg i => .neg i
  | .add i j => .add i j
  | .sub i j => .sub i j
  | .scale i _ => .scale i ()
  | .div i _ => .div i ()
  | .mul i j k D => .mul i j k D
  | .comm i j k D => .comm i j k D
  | .addMul i j k D => .addMul i j k D
  | .subMul i j k D => .subMul i j k D

/-- Coefficients of a type with one element. -/
def unitCoeff : Coeff Unit Unit :=
  { zero := (), one := (), mone := (), uminus := id, inv := id, add := fun _ _ => (), sub := fun _ _ => (), mul := fun _ _ => (), div := fun _ _ => (),
    fromDegree := fun _ => (), ratFromDegree := fun _ => (), eq := fun _ _ => true }

theorem shape_rel (st : PStmt S R) : StmtRel (fun _ _ => True) (fun _ _ => True) st (shape st) := by
  cases st with
  | terms i l =>
    refine .terms _ _ _ ?_
    rw [List.forall₂_map_right_iff]
    exact List.forall₂_same.2 fun _ _ => ⟨rfl, trivial⟩
  | modify i w f => exact .modify _ _ _ _ fun _ _ _ => trivial
  | _ => constructor <;> trivial

theorem shape_levels (l : Nat → Nat) (st : PStmt S R) : (shape st).levels l = st.levels l ∧ (shape st).allowed l = st.allowed l := by
  have h : ∀ items : List (List Nat × S), itemLevels (items.map fun e => (e.1, ())) = itemLevels items := by
    intro items
    unfold itemLevels
    rw [List.foldr_map]
  cases st with
  | terms i items => exact ⟨congrArg (setReg l i) (h items), rfl⟩
  | _ => exact ⟨rfl, rfl⟩

theorem shape_within {D : Nat} {st : PStmt S R} (h : st.Within N D) : (shape st).Within N D := by
  cases st with
  | terms i items =>
    intro e he
    obtain ⟨e', he', rfl⟩ := List.mem_map.1 he
    exact h e' he'
  | _ => exact h

/-- Comparisons are not used. -/
theorem runStmtF_noeq (σ : Nat → Dense S) (st : PStmt S R) : runStmtF F p N σ st = runStmtF { F with eq := fun _ _ => .panic } p N σ st := by
  cases st <;> rfl

theorem noeq_ref {z : Prop} (hz : z → F.OnlyPanics) : FRef z (fun _ _ => True) (fun _ _ => True) { F with eq := fun _ _ => .panic } (.ofCoeff unitCoeff) :=
  ⟨trivial, trivial, trivial, fun _ _ _ _ _ _ => trivial, fun x _ _ => ref_of_image (fun _ _ => trivial) fun h => (hz h).uminus x,
    fun x _ y _ _ _ => ref_of_image (fun _ _ => trivial) fun h => (hz h).mul x y, fun x _ y _ _ _ => ref_of_image (fun _ _ => trivial) fun h => (hz h).div x y,
    fun x _ y _ _ _ => ref_of_image (fun _ _ => trivial) fun h => (hz h).addIn x y, fun x _ y _ _ _ => ref_of_image (fun _ _ => trivial) fun h => (hz h).subIn x y,
    fun x _ y _ _ _ => ref_of_image (fun _ _ => trivial) fun h => (hz h).mulIn x y, fun x _ y _ _ _ => ref_of_image (fun _ _ => trivial) fun h => (hz h).divIn x y⟩

/-- The registers and their contents without the coefficients. -/
def ShapeIs (σ : Nat → Dense S) (l : Nat → Nat) : Prop :=
  ∃ (σ' : Nat → Dense Unit) (τ : Nat → TReg Unit), (∀ i, DRel (fun _ _ => True) (σ i) (σ' i)) ∧ (∀ i, Holds N (σ' i) (τ i)) ∧ l = fun i => (τ i).levels

variable {N} in
theorem ShapeIs.size {σ : Nat → Dense S} {l : Nat → Nat} (h : ShapeIs N σ l) (i : Nat) : (σ i).size = geomSum N (l i) := by
  obtain ⟨σ', τ, h1, h2, rfl⟩ := h
  rw [Dense.size_rel (h1 i)]
  exact (h2 i).2.1

variable {N} in
theorem shape_step (h2 : 2 ≤ N) (hN : N < 2 ^ 32) {D : Nat} (hm : D ≤ maxDepth N) (hp : N ^ (D + 1) < 2 ^ 64) (st : PStmt S R) (hw : st.Within N D)
    {σ σ' : Nat → Dense S} {l : Nat → Nat} (h : ShapeIs N σ l) (hl : ∀ i, l i ≤ D + 1) (hr : runStmtF F p N σ st = .ok σ') : ShapeIs N σ' (st.levels l) := by
  obtain ⟨σ1, τ, h1, h3, rfl⟩ := h
  rw [runStmtF_noeq] at hr
  obtain ⟨σ2, h4, h5⟩ := (runStmtF_ref p N (noeq_ref (False.elim)) h1 (shape_rel st)).ret hr
  rw [← runStmtF_total] at h4
  obtain ⟨h6, h7⟩ := runStmt_step unitCoeff p h2 hN hm hp (shape st) (shape_within N hw) h3 hl
  cases ha : (shape st).allowed fun i => (τ i).levels with
  | false => rw [h7 ha] at h4; cases h4
  | true =>
    obtain ⟨σ3, h8, h9⟩ := h6 ha
    cases h4.symm.trans h8
    refine ⟨σ2, _, h5, h9, ?_⟩
    rw [← (shape_levels _ st).1]
    exact (funext fun i => levels_eval τ (shape st) i).symm

/-! ## The magnitudes -/

theorem cutProd_nonneg {D : Nat} {f g : List Nat → Int} (hf : ∀ w, 0 ≤ f w) (hg : ∀ w, 0 ≤ g w) (w : List Nat) : 0 ≤ cutProd D f g w := by
  unfold cutProd
  split_ifs
  · rw [conv_eq_sum]
    refine List.sum_nonneg fun x hx => ?_
    obtain ⟨k, _, rfl⟩ := List.mem_map.1 hx
    exact mul_nonneg (hf _) (hg _)
  · exact le_rfl

theorem set_nonneg {ρ : Nat → List Nat → Int} (h : ∀ i w, 0 ≤ ρ i w) (i : Nat) {f : List Nat → Int} (hf : ∀ w, 0 ≤ f w) : ∀ j w, 0 ≤ setReg ρ i f j w := by
  intro j
  unfold setReg
  split_ifs
  exacts [hf, h j]

theorem stmtMass_nonneg (st : PStmt S R) {ρ : Nat → List Nat → Int} (h : ∀ i w, 0 ≤ ρ i w) : ∀ i w, 0 ≤ st.mass μ ρ i w := by
  cases st with
  | zero i | clear i => exact set_nonneg h i fun _ => le_rfl
  | word i w s => exact set_nonneg h i fun u => by split_ifs <;> omega
  | terms i items =>
    refine set_nonneg h i fun u => List.sum_nonneg fun x hx => ?_
    obtain ⟨e, _, rfl⟩ := List.mem_map.1 hx
    exact Int.natCast_nonneg _
  | copy i j => exact set_nonneg h i (h j)
  | swap i j => exact set_nonneg (set_nonneg h i (h j)) j (h i)
  | erase i w => exact set_nonneg h i fun u => by split_ifs; exacts [le_rfl, h i u]
  | neg i | modify i w f | div i r => exact h
  | add i j | sub i j => exact set_nonneg h i fun u => add_nonneg (h i u) (h j u)
  | scale i s => exact set_nonneg h i fun u => mul_nonneg (h i u) (Int.natCast_nonneg _)
  | mul i j k D => exact set_nonneg h i (cutProd_nonneg (h j) (h k))
  | comm i j k D => exact set_nonneg h i fun u => add_nonneg (cutProd_nonneg (h j) (h k) u) (cutProd_nonneg (h k) (h j) u)
  | addMul i j k D | subMul i j k D => exact set_nonneg h i fun u => add_nonneg (h i u) (cutProd_nonneg (h j) (h k) u)

/-- A product added to a vector of any degree. -/
theorem mulAdd_within' (h2 : 2 ≤ N) (hF : F.Within μ B) {func : S → Res S} (hf : ∀ x, μ x ≤ B → ∃ z, func x = .ok z ∧ μ z ≤ μ x) (s a b : Dense S)
    (ls la lb D E : Nat) (hs : s.size = geomSum N ls) (ha : a.size = geomSum N la) (hb : b.size = geomSum N lb) (hls : ls ≤ E + 1) (hla : la ≤ E + 1) (hlb : lb ≤ E + 1)
    (hD : D ≤ E) (hp : N ^ (E + 1) < 2 ^ 64) (h1a : 1 ≤ la) (h1b : 1 ≤ lb) (hself : 1 ≤ ls ∨ 1 ≤ prodDeg D la lb) (ms ma mb : List Nat → Int) (hma : ∀ u, 0 ≤ ma u)
    (hmb : ∀ u, 0 ≤ mb u) (ha' : ∀ w, ValidWord N w → w.length ≤ E → sizeAt F μ N a w ≤ ma w) (hb' : ∀ w, ValidWord N w → w.length ≤ E → sizeAt F μ N b w ≤ mb w)
    (hs' : ∀ w, ValidWord N w → w.length ≤ E → sizeAt F μ N s w ≤ ms w) (hB : ∀ w, ValidWord N w → w.length ≤ E → ms w + cutProd D ma mb w ≤ B) :
    ∃ r, temp (tMulAdd F p N func s a b (some D)) = .ok r ∧ r.size = geomSum N (max ls (prodDeg D la lb + 1)) ∧
      ∀ w, ValidWord N w → w.length ≤ E → sizeAt F μ N r w ≤ ms w + cutProd D ma mb w := by
  obtain ⟨da, rfl⟩ : ∃ da, la = da + 1 := ⟨la - 1, by omega⟩
  obtain ⟨db, rfl⟩ : ∃ db, lb = db + 1 := ⟨lb - 1, by omega⟩
  change 1 ≤ ls ∨ 1 ≤ min D (da + db) at hself
  change ∃ r : Dense S, _ ∧ r.size = geomSum N (max ls (min D (da + db) + 1)) ∧ _
  have hpm : N ^ (min D (da + db) + 1) < 2 ^ 64 := pow_lt64_mono h2 (by omega) hp
  have hda : HasDegree N a da := FullTo.hasDegree h2 ⟨ha, pow_lt64_mono h2 (by omega) hp⟩
  have hdb : HasDegree N b db := FullTo.hasDegree h2 ⟨hb, pow_lt64_mono h2 (by omega) hp⟩
  have hds : HasDegree N s (ls - 1) := by
    rcases Nat.eq_zero_or_pos ls with rfl | h
    · exact ⟨.inl ⟨hs, rfl⟩, pow_lt64_mono h2 (by omega) hp⟩
    · exact FullTo.hasDegree h2 ⟨by rw [hs, Nat.sub_add_cancel h], pow_lt64_mono h2 (by omega) hp⟩
  have hself' : (s.size ≤ geomSum N (min D (da + db)) ∧ 1 ≤ min D (da + db)) ∨ geomSum N (min D (da + db) + 1) ≤ s.size := by
    rw [hs]
    rcases Nat.lt_or_ge (min D (da + db)) ls with h | h
    · exact .inr (geomSum_mono h)
    · exact .inl ⟨geomSum_mono h, by omega⟩
  have hfit : OperandsFit N a b da db (min D (da + db)) :=
    ⟨by rw [ha]; exact geomSum_mono (by omega), by rw [hb]; exact geomSum_mono (by omega)⟩
  obtain ⟨r, g1, g2, g3⟩ := C100_product F p N h2 s a b _ da db D hds hda hdb hpm hfit hself' Unit (fun t x => (func x, t)) () _ rfl
  have hcn := cutProd_nonneg (D := D) hma hmb
  have hwc : ∀ w, ValidWord N w → w.length ≤ min D (da + db) → max (sizeAt F μ N s w) 0 + weight μ ((callOrder N (min D (da + db)) da db).map fun uv =>
      (uv, ((stored N a uv.1).getD F.zero, (stored N b uv.2).getD F.zero))) w ≤ ms w + cutProd D ma mb w := by
    intro w hw hd
    have c1 := hs' w hw (by omega)
    have c2 : max (sizeAt F μ N s w) 0 = sizeAt F μ N s w := max_eq_left (Int.natCast_nonneg _)
    have c3 := weight_le_conv (μ := μ) N (min D (da + db)) da db (fun u => (stored N a u).getD F.zero) (fun u => (stored N b u).getD F.zero) ma mb hma hmb
      (fun u hu hl => ha' u hu (by omega)) (fun u hu hl => hb' u hu (by omega)) w
    rw [c2]
    unfold cutProd
    rw [if_pos (by omega)]
    linarith
  have hw := runUpdates_within hF hf (fun w => max (sizeAt F μ N s w) 0 + weight μ ((callOrder N (min D (da + db)) da db).map fun uv =>
      (uv, ((stored N a uv.1).getD F.zero, (stored N b uv.2).getD F.zero))) w) _ (fun e he => ?_)
    (fun w => (stored N s w).getD F.zero) (fun w => by
      have : (μ ((stored N s w).getD F.zero) : Int) = sizeAt F μ N s w := rfl
      simp only [this]
      linarith [le_max_left (sizeAt F μ N s w) 0])
  · refine ⟨r, ?_, ?_, fun w hw' hd => ?_⟩
    · unfold tMulAdd temp
      simp only [g1, hw.1]
    · rw [g2, hs, geomSum_max]
    · unfold sizeAt
      rw [g3 w hw']
      split_ifs with hl
      · exact (hw.2 w).trans (hwc w hw' hl)
      · have := hs' w hw' hd
        unfold sizeAt at this
        linarith [hcn w]
  · obtain ⟨uv, huv, rfl⟩ := List.mem_map.1 he
    have hm := (mem_callOrder N).1 huv
    have hv : ValidWord N (uv.1 ++ uv.2) := fun c hc => (List.mem_append.1 hc).elim (hm.1 c) (hm.2.1 c)
    have hd : (uv.1 ++ uv.2).length ≤ min D (da + db) := by rw [List.length_append]; omega
    exact (hwc _ hv hd).trans (hB _ hv (by omega))

theorem sumF_within (hF : F.Within μ B) (l : List S) : ∀ x, μ x + (l.map μ).sum ≤ B →
    ∃ y, sumF F.addIn x l = .ok y ∧ μ y ≤ μ x + (l.map μ).sum := by
  induction l with
  | nil => exact fun x _ => ⟨x, rfl, by simp⟩
  | cons z l ih =>
    intro x h
    rw [List.map_cons, List.sum_cons] at h
    obtain ⟨h1, h2⟩ := hF.addIn x z (by omega)
    obtain ⟨y, h3, h4⟩ := ih (F.addIn x z).2 (by omega)
    refine ⟨y, ?_, ?_⟩
    · unfold sumF
      rw [h1]
      exact h3
    · rw [List.map_cons, List.sum_cons]
      omega

theorem fromIteratorF_within (hF : F.Within μ B) (h2 : 2 ≤ N) (hN : N < 2 ^ 32) {D : Nat} (hm : D ≤ maxDepth N) (hp : N ^ (D + 1) < 2 ^ 64) (items : List (List Nat × S))
    (hw : ∀ e ∈ items, ValidWord N e.1 ∧ e.1.length ≤ D) (hB : ∀ w, ValidWord N w → w.length ≤ D → ((itemValues items w).map μ).sum ≤ B) :
    ∃ r, (items.mapM (fun e => (fun k => (k, e.2)) <$> fromLetters p N e.1) >>= fromIteratorF F (tensorBasis p N)) = .ok r ∧
      ∀ w, ValidWord N w → w.length ≤ D → μ ((stored N r w).getD F.zero) ≤ ((itemValues items w).map μ).sum := by
  have hmapM : items.mapM (fun e => (fun k => (k, e.2)) <$> fromLetters p N e.1) = .ok (items.map fun e => (keyOf N e.1, e.2)) := by
    clear hB
    induction items with
    | nil => rfl
    | cons e es ih =>
      rw [List.mapM_cons, fromLetters_ok p N (by omega) hN e.1 (hw e (by simp)).1 ((hw e (by simp)).2.trans hm), ih fun e' h => hw e' (by simp [h])]
      rfl
  rw [hmapM, Res.bind_ok]
  by_cases hne : items = []
  · subst hne
    refine ⟨.new, ?_, fun w _ _ => ?_⟩
    · unfold fromIteratorF
      rw [List.map_nil, List.mapM_nil, Res.pure_eq, Res.bind_ok, List.mergeSort_nil]
      rfl
    · unfold stored
      rw [show (Dense.new : Dense S).data = [] from rfl, List.getElem?_nil, Option.getD_none, hF.zero]
      exact Nat.zero_le _
  obtain ⟨l1, e0, he0, l2⟩ := itemLevels_spec items hne
  have hD : itemLevels items ≤ D + 1 := itemLevels_le items fun e he => (hw e he).2
  obtain ⟨M, hM⟩ : ∃ M, itemLevels items = M + 1 := ⟨itemLevels items - 1, by omega⟩
  have hpM : N ^ (M + 1) < 2 ^ 64 := pow_lt64_mono h2 (by omega) hp
  let idx : TensorKey → Nat := fun k => match (tensorBasis p N).keyToIndex k with | .ok i => i | _ => 0
  have hidx : ∀ e ∈ items, (tensorBasis p N).keyToIndex (keyOf N e.1) = .ok (wordIndex N e.1) := fun e he =>
    keyToIndex_keyOf p N (by omega) hN e.1 (hw e he).1 ((hw e he).2.trans hm)
  have hidx' : ∀ e ∈ items, idx (keyOf N e.1) = wordIndex N e.1 := fun e he => by simp only [idx, hidx e he]
  have hlt : ∀ e ∈ items, wordIndex N e.1 < geomSum N (M + 1) := by
    intro e he
    have := (wordIndex_bounds (hw e he).1).2
    have := geomSum_mono (N := N) (show e.1.length + 1 ≤ M + 1 by have := l1 e he; omega)
    omega
  have hd64 := deg_lt64 h2 hpM
  obtain ⟨c1, c2⟩ := C101_from_iterator F (tensorBasis p N) (items.map fun e => (keyOf N e.1, e.2)) idx
    (by
      intro e he
      obtain ⟨e', he', rfl⟩ := List.mem_map.1 he
      rw [hidx e' he', hidx' e' he'])
    (by
      intro h
      rw [List.map_eq_nil_iff] at h
      exact hne h)
    (geomSum N (M + 1))
    (by
      intro e he
      obtain ⟨e', he', rfl⟩ := List.mem_map.1 he
      simp only
      rw [hidx' e' he']
      exact hlt e' he')
    (by
      intro e he hmax
      obtain ⟨e', he', rfl⟩ := List.mem_map.1 he
      have hmx := hmax (keyOf N e0.1, e0.2) (List.mem_map.2 ⟨e0, he0, rfl⟩)
      simp only at hmx ⊢
      rw [hidx' e' he', hidx' e0 he0] at hmx
      have hbm := (wordIndex_bounds (hw e0 he0).1).1
      rw [show e0.1.length = M by omega] at hbm
      rw [hidx' e' he']
      show vectorDimensionForIndex p N _ = _
      unfold vectorDimensionForIndex
      rw [indexToDegree_ok p N h2 _ M hpM (by omega) (hlt e' he'), Res.bind_ok, addW_ok (by omega), Res.bind_ok, startOfDegree_ok p N h2 _ hpM])
  have hvals : ∀ w, ValidWord N w → ((items.map fun e => (keyOf N e.1, e.2)).filter fun e => idx e.1 = wordIndex N w).map (·.2) = itemValues items w := by
    intro w hv
    rw [List.filter_map, List.map_map]
    unfold itemValues
    congr 1
    refine List.filter_congr fun e he => ?_
    simp only [Function.comp, hidx' e he]
    rw [decide_eq_decide]
    exact ⟨fun h => wordIndex_inj (hw e he).1 hv h, fun h => by rw [h]⟩
  have hz : μ F.zero = 0 := hF.zero
  have hsum : ∀ w, ValidWord N w → w.length ≤ D → ∃ y, sumF F.addIn F.zero (itemValues items w) = .ok y ∧ μ y ≤ ((itemValues items w).map μ).sum := fun w hv hl => by
    obtain ⟨y, y1, y2⟩ := sumF_within hF (itemValues items w) F.zero (by rw [hz, Nat.zero_add]; exact hB w hv hl)
    exact ⟨y, y1, by rwa [hz, Nat.zero_add] at y2⟩
  obtain ⟨r, hr⟩ := c2 fun i hi => by
    obtain ⟨w, hv, hl, rfl⟩ := index_word N (by omega) hi
    obtain ⟨y, y1, -⟩ := hsum w hv (by omega)
    rw [hvals w hv]
    exact ⟨y, y1⟩
  obtain ⟨-, r2, r3⟩ := c1 r hr
  refine ⟨r, hr, fun w hv hl => ?_⟩
  unfold stored
  by_cases hi : wordIndex N w < geomSum N (M + 1)
  · obtain ⟨y, y1, y2⟩ := r3 _ hi
    rw [hvals w hv] at y1
    obtain ⟨y', y3, y4⟩ := hsum w hv hl
    cases y1.symm.trans y3
    rw [y2, Option.getD_some]
    exact y4
  · rw [List.getElem?_eq_none (by unfold Dense.size at r2; omega), Option.getD_none, hz]
    exact Nat.zero_le _

/-- One statement. -/
theorem stmt_within (hF : F.Within μ B) (h2 : 2 ≤ N) (hN : N < 2 ^ 32) {D : Nat} (hm : D ≤ maxDepth N) (hp : N ^ (D + 1) < 2 ^ 64) (st : PStmt S R) (hw : st.Within N D)
    (hal : st.Algebraic) {σ : Nat → Dense S} {l : Nat → Nat} (hsz : ∀ i, (σ i).size = geomSum N (l i)) (hl : ∀ i, l i ≤ D + 1) (ha : st.allowed l = true)
    {ρ : Nat → List Nat → Int} (h0 : ∀ i w, 0 ≤ ρ i w) (h : ∀ i w, ValidWord N w → w.length ≤ D → sizeAt F μ N (σ i) w ≤ ρ i w)
    (hB : ∀ i w, ValidWord N w → w.length ≤ D → st.mass μ ρ i w ≤ B) :
    ∃ σ', runStmtF F p N σ st = .ok σ' ∧ ∀ i w, ValidWord N w → w.length ≤ D → sizeAt F μ N (σ' i) w ≤ st.mass μ ρ i w := by
  have hset : ∀ {σ : Nat → Dense S} {ρ : Nat → List Nat → Int} (i : Nat) {v : Dense S} {f : List Nat → Int},
      (∀ i w, ValidWord N w → w.length ≤ D → sizeAt F μ N (σ i) w ≤ ρ i w) → (∀ w, ValidWord N w → w.length ≤ D → sizeAt F μ N v w ≤ f w) →
      ∀ j w, ValidWord N w → w.length ≤ D → sizeAt F μ N (setReg σ i v j) w ≤ setReg ρ i f j w := by
    intro σ ρ i v f h hv j
    unfold setReg
    split_ifs
    exacts [hv, h j]
  have hat : ∀ {i : Nat} {f : List Nat → Int}, (∀ j w, ValidWord N w → w.length ≤ D → setReg ρ i f j w ≤ B) → ∀ w, ValidWord N w → w.length ≤ D → f w ≤ B := by
    intro i f h w hv hd
    have := h i w hv hd
    unfold setReg at this
    rwa [if_pos rfl] at this
  have hnil : ∀ {v : Dense S}, v.data = [] → ∀ w, sizeAt F μ N v w = 0 := fun hv w => by
    unfold sizeAt stored
    rw [hv, List.getElem?_nil, Option.getD_none, hF.zero]
    rfl
  have hle : ∀ i, (σ i).size ≤ geomSum N (D + 1) := fun i => by rw [hsz]; exact geomSum_mono (hl i)
  have hok : ∀ x : S, μ x ≤ B → ∃ z, (.ok x : Res S) = .ok z ∧ μ z ≤ μ x := fun x _ => ⟨x, rfl, le_rfl⟩
  have hnew : (.new : Dense S).size = geomSum N 0 := rfl
  have hrun : ∀ {i : Nat} {x : Res (Dense S)} {r : Dense S}, x = .ok r → (x >>= fun v => .ok (setReg σ i v)) = .ok (setReg σ i r) := fun h => by rw [h, Res.bind_ok]
  cases st with
  | zero i => exact ⟨_, rfl, hset i h fun w _ _ => (hnil rfl w).le⟩
  | word i v s =>
    obtain ⟨r, h3, -, h5⟩ := fromKeyScalar_word (⟨F.zero, F.one, F.mone, id, fun _ => F.one, fun x _ => x, fun x _ => x, fun x _ => x, fun x _ => x, fun _ => F.one,
      fun _ => (), fun _ _ => true⟩ : Coeff S Unit) p N h2 hN v hw.1 (hw.2.trans hm) (pow_lt64_mono h2 (by have := hw.2; omega) hp) s
    obtain ⟨k, k1, k2⟩ := bind_ok_inv h3
    refine ⟨setReg σ i r, ?_, hset i h fun w hv hd => ?_⟩
    · show (fromLetters p N v >>= fun k => dFromKeyScalar F (tensorBasis p N) k s >>= fun v => .ok (setReg σ i v)) = _
      rw [k1, Res.bind_ok]
      exact hrun k2
    · unfold sizeAt
      rw [show (stored N r w).getD F.zero = _ from h5 w hv]
      split_ifs with c
      · exact le_rfl
      · rw [hF.zero]; rfl
  | terms i items =>
    have hc : ∀ w, (((itemValues items w).map fun s => (μ s : Int)).sum) = (((itemValues items w).map μ).sum : Nat) := fun w => by
      rw [Nat.cast_list_sum, List.map_map]
      rfl
    obtain ⟨r, r1, r2⟩ := fromIteratorF_within p N hF h2 hN hm hp items hw fun w hv hd => by
      have := hat hB w hv hd
      rw [hc] at this
      exact_mod_cast this
    obtain ⟨keys, k1, k2⟩ := bind_ok_inv r1
    refine ⟨setReg σ i r, ?_, hset i h fun w hv hd => ?_⟩
    · show (items.mapM (fun e => (fun k => (k, e.2)) <$> fromLetters p N e.1) >>= fun keys => fromIteratorF F (tensorBasis p N) keys >>= fun v => .ok (setReg σ i v)) = _
      rw [k1, Res.bind_ok]
      exact hrun k2
    · rw [hc]
      exact Int.ofNat_le.2 (r2 w hv hd)
  | copy i j => exact ⟨_, rfl, hset i h (h j)⟩
  | swap i j => exact ⟨_, rfl, hset j (hset i h (h j)) (h i)⟩
  | clear i =>
    refine ⟨_, rfl, hset i h fun w _ _ => ?_⟩
    generalize σ i = v
    obtain ⟨m, d, e⟩ := v
    cases m
    · exact (hnil rfl w).le
    · exact (hnil rfl w).le
    · have : (stored N (dClear F (⟨.borrowedMut, d, e⟩ : Dense S)) w).getD F.zero = F.zero := by
        unfold stored dClear
        simp only [Dense.writeSlice_data, List.getElem?_map]
        cases d[wordIndex N w]? <;> rfl
      unfold sizeAt
      rw [this, hF.zero]
      rfl
  | modify | div => exact hal.elim
  | erase i v =>
    have hk := keyToIndex_keyOf p N (by omega) hN v hw.1 (hw.2.trans hm)
    have hg : Dense.getMut (tensorBasis p N) (σ i) (keyOf N v) (fun _ => F.zero) =
        if wordIndex N v < (σ i).data.length then .ok (true, (σ i).writeSlice ((σ i).data.modify (wordIndex N v) fun _ => F.zero)) else .ok (false, (σ i).makeMut) := by
      unfold Dense.getMut
      rw [show (tensorBasis p N).keyToIndex (keyOf N v) = _ from hk]
      rfl
    have hrun : ∀ b r, Dense.getMut (tensorBasis p N) (σ i) (keyOf N v) (fun _ => F.zero) = .ok (b, r) → runStmtF F p N σ (.erase i v) = .ok (setReg σ i r) := by
      intro b r hr
      show (fromLetters p N v >>= fun k => dErase F (tensorBasis p N) (σ i) k >>= fun v => .ok (setReg σ i v)) = _
      rw [fromLetters_ok p N (by omega) hN v hw.1 (hw.2.trans hm), Res.bind_ok]
      unfold dErase
      rw [hr]
      rfl
    by_cases hi : wordIndex N v < (σ i).data.length
    · rw [if_pos hi] at hg
      refine ⟨_, hrun _ _ hg, hset i h fun w hv hd => ?_⟩
      unfold sizeAt stored
      rw [Dense.writeSlice_data]
      by_cases he : w = v
      · subst he
        rw [if_pos rfl, List.getElem?_modify_eq, List.getElem?_eq_getElem hi]
        simp [hF.zero]
      · rw [if_neg he, List.getElem?_modify_ne _ _ fun e => he (wordIndex_inj hv hw.1 e.symm)]
        exact h i w hv hd
    · rw [if_neg hi] at hg
      refine ⟨_, hrun _ _ hg, hset i h fun w hv hd => ?_⟩
      unfold sizeAt stored
      rw [Dense.makeMut_data]
      by_cases he : w = v
      · subst he
        rw [if_pos rfl, List.getElem?_eq_none (by omega), Option.getD_none, hF.zero]
        rfl
      · rw [if_neg he]
        exact h i w hv hd
  | neg i =>
    have hg : ∀ v, 1 * μ v ≤ B → (F.uminus v >>= fun _ => (.ok () : Res Unit)) = .ok () ∧ μ (match F.uminus v with
        | .ok y => y
        | _ => v) ≤ 1 * μ v := fun v hv => by
      obtain ⟨z, z1, z2⟩ := hF.uminus v (by omega)
      rw [z1]
      exact ⟨rfl, by rw [one_mul]; exact z2⟩
    obtain ⟨z1, -, z3⟩ := each_within (c := 1) N (by omega) hF.zero (g := fun v => (F.uminus v >>= fun _ => (.ok () : Res Unit), match F.uminus v with
        | .ok y => y
        | _ => v)) hg (dUminus_loop (σ i)) (hle i) _ (h i) fun w hv hd => by rw [Nat.cast_one, one_mul]; exact hB i w hv hd
    refine ⟨_, hrun (temp_ok z1), fun j w hv hd => ?_⟩
    unfold setReg
    split_ifs with c
    · subst c
      have := z3 w hv hd
      rwa [Nat.cast_one, one_mul] at this
    · exact h j w hv hd
  | add i j =>
    obtain ⟨z1, -, z3⟩ := combine_within N (by omega) hF.zero hF.addIn (C100_dense_add F (σ i) (σ j)).1 (hle j) _ _ (h i) (h j) (hat hB)
    exact ⟨_, hrun (temp_ok z1), hset i h z3⟩
  | sub i j =>
    obtain ⟨z1, -, z3⟩ := combine_within N (by omega) hF.zero hF.subIn (C100_dense_add F (σ i) (σ j)).2 (hle j) _ _ (h i) (h j) (hat hB)
    exact ⟨_, hrun (temp_ok z1), hset i h z3⟩
  | scale i s =>
    have hg : ∀ v, μ s * μ v ≤ B → (F.mulIn v s).1 = .ok () ∧ μ (F.mulIn v s).2 ≤ μ s * μ v := fun v hv => by
      rw [mul_comm] at hv ⊢
      exact hF.mulIn v s hv
    obtain ⟨z1, -, z3⟩ := each_within N (by omega) hF.zero (g := fun v => F.mulIn v s) hg (dMul_loop F (σ i) s) (hle i) _ (h i) fun w hv hd => by
      rw [mul_comm]; exact hat hB w hv hd
    exact ⟨_, hrun (temp_ok z1), hset i h fun w hv hd => by rw [mul_comm]; exact z3 w hv hd⟩
  | mul i j k D' =>
    obtain ⟨a1, a2, a3⟩ := of_decide_eq_true ha
    obtain ⟨r, r1, -, r3⟩ := mulAdd_within' p N h2 hF hok .new (σ j) (σ k) 0 (l j) (l k) D' D hnew (hsz j) (hsz k) (by omega) (hl j) (hl k) hw hp a1 a2 (.inr a3)
      (fun _ => 0) _ _ (h0 j) (h0 k) (h j) (h k) (fun w _ _ => (hnil rfl w).le) fun w hv hd => by rw [zero_add]; exact hat hB w hv hd
    exact ⟨_, hrun r1,
      hset i h fun w hv hd => (r3 w hv hd).trans_eq (zero_add _)⟩
  | comm i j k D' =>
    obtain ⟨a1, a2, a3⟩ := of_decide_eq_true ha
    have hpos := fun w => cutProd_nonneg (D := D') (h0 k) (h0 j) w
    have hBw := hat hB
    obtain ⟨r, r1, r2, r3⟩ := mulAdd_within' p N h2 hF hok .new (σ j) (σ k) 0 (l j) (l k) D' D hnew (hsz j) (hsz k) (by omega) (hl j) (hl k) hw hp a1 a2 (.inr a3)
      (fun _ => 0) _ _ (h0 j) (h0 k) (h j) (h k) (fun w _ _ => (hnil rfl w).le) fun w hv hd => by
        rw [zero_add]; linarith [hBw w hv hd, hpos w]
    obtain ⟨q, q1, -, q3⟩ := mulAdd_within' p N h2 hF hF.uminus r (σ k) (σ j) _ (l k) (l j) D' D r2 (hsz k) (hsz j)
      (by unfold prodDeg; have : D' ≤ D := hw; omega) (hl k) (hl j) hw hp a2 a1 (.inl (by omega))
      (cutProd D' (ρ j) (ρ k)) _ _ (h0 k) (h0 j) (h k) (h j) (fun w hv hd => (r3 w hv hd).trans_eq (zero_add _)) hBw
    refine ⟨_, ?_, hset i h q3⟩
    refine hrun ?_
    unfold tCommutator tAddMul tSubMul
    rw [r1, Res.bind_ok]
    exact q1
  | addMul i j k D' =>
    obtain ⟨a1, a2, a3⟩ := of_decide_eq_true ha
    obtain ⟨r, r1, -, r3⟩ := mulAdd_within' p N h2 hF hok (σ i) (σ j) (σ k) (l i) (l j) (l k) D' D (hsz i) (hsz j) (hsz k) (hl i) (hl j) (hl k) hw hp a1 a2 a3
      _ _ _ (h0 j) (h0 k) (h j) (h k) (h i) (hat hB)
    exact ⟨_, hrun r1, hset i h r3⟩
  | subMul i j k D' =>
    obtain ⟨a1, a2, a3⟩ := of_decide_eq_true ha
    obtain ⟨r, r1, -, r3⟩ := mulAdd_within' p N h2 hF hF.uminus (σ i) (σ j) (σ k) (l i) (l j) (l k) D' D (hsz i) (hsz j) (hsz k) (hl i) (hl j) (hl k) hw hp a1 a2 a3
      _ _ _ (h0 j) (h0 k) (h j) (h k) (h i) (hat hB)
    exact ⟨_, hrun r1, hset i h r3⟩

/-- C105.  A program of ring operations whose products are allowed runs without a panic if, after each of its statements, the sizes of all terms add up to at most `B` for
each register and each word of length at most `D`.  The coefficients in the registers are bounded by these sums. -/
theorem C105_returns (hF : F.Within μ B) (h2 : 2 ≤ N) (hN : N < 2 ^ 32) (D : Nat) (hm : D ≤ maxDepth N) (hp : N ^ (D + 1) < 2 ^ 64) (prog : List (PStmt S R))
    (hs : ∀ s ∈ prog, s.Within N D ∧ s.Algebraic) (ha : allowedProg (fun _ => 0) prog = true) (hB : MassBelow μ N D B (fun _ _ => 0) prog) :
    ∃ σ, runProgF F p N prog = .ok σ ∧ ∀ i, (σ i).size = geomSum N (prog.foldl PStmt.levels (fun _ => 0) i) ∧
      ∀ w, ValidWord N w → w.length ≤ D → (μ ((stored N (σ i) w).getD F.zero) : Int) ≤ prog.foldl (PStmt.mass μ) (fun _ _ => 0) i w := by
  have key : ∀ (prog : List (PStmt S R)) (σ : Nat → Dense S) (l : Nat → Nat) (ρ : Nat → List Nat → Int), (∀ s ∈ prog, s.Within N D ∧ s.Algebraic) →
      ShapeIs N σ l → (∀ i, l i ≤ D + 1) → allowedProg l prog = true → (∀ i w, 0 ≤ ρ i w) → (∀ i w, ValidWord N w → w.length ≤ D → sizeAt F μ N (σ i) w ≤ ρ i w) →
      MassBelow μ N D B ρ prog → ∃ σ', prog.foldlM (runStmtF F p N) σ = .ok σ' ∧ ∀ i, (σ' i).size = geomSum N (prog.foldl PStmt.levels l i) ∧
        ∀ w, ValidWord N w → w.length ≤ D → sizeAt F μ N (σ' i) w ≤ prog.foldl (PStmt.mass μ) ρ i w := by
    intro prog
    induction prog with
    | nil => exact fun σ l ρ _ h _ _ _ h3 _ => ⟨σ, rfl, fun i => ⟨h.size i, h3 i⟩⟩
    | cons s prog ih =>
      intro σ l ρ hs h hl ha h0 h3 hB
      obtain ⟨ha1, ha2⟩ := Bool.and_eq_true_iff.1 ha
      have hs1 := hs s (by simp)
      obtain ⟨σ1, r1, r2⟩ := stmt_within p N hF h2 hN hm hp s hs1.1 hs1.2 h.size hl ha1 h0 h3 hB.1
      obtain ⟨σ2, r3, r4⟩ := ih σ1 (s.levels l) (s.mass μ ρ) (fun s' h' => hs s' (by simp [h'])) (shape_step p h2 hN hm hp s hs1.1 h hl r1)
        (levels_le (N := N) s hs1.1 l hl) ha2 (stmtMass_nonneg s h0) r2 hB.2
      exact ⟨σ2, by rw [List.foldlM_cons, r1, Res.bind_ok]; exact r3, r4⟩
  refine key prog _ _ _ hs ?_ (fun _ => Nat.zero_le _) ha (fun _ _ => le_rfl) (fun i w _ _ => ?_) hB
  · exact ⟨fun _ => .new, emptyRegs, fun _ => Dense.new_rel, fun _ => Holds.empty (by simp [Dense.new, Dense.ofVec]) rfl, rfl⟩
  · unfold sizeAt stored
    rw [show (Dense.new : Dense S).data = [] from rfl, List.getElem?_nil, Option.getD_none, hF.zero]
    rfl

theorem cutProd_sum_le {D : Nat} {f g : List Nat → Int} {A A' : Int} (hf : ∀ w, 0 ≤ f w) (hg : ∀ w, 0 ≤ g w) (hA : ∀ W : Finset (List Nat), ∑ w ∈ W, f w ≤ A)
    (hA' : ∀ W : Finset (List Nat), ∑ w ∈ W, g w ≤ A') (W : Finset (List Nat)) : ∑ w ∈ W, cutProd D f g w ≤ A * A' := by
  refine (Finset.sum_le_sum fun w _ => ?_).trans (conv_sum_le hf hg hA hA' W)
  unfold cutProd
  split_ifs
  · exact le_rfl
  · rw [conv_eq_sum]
    refine List.sum_nonneg fun x hx => ?_
    obtain ⟨k, _, rfl⟩ := List.mem_map.1 hx
    exact mul_nonneg (hf _) (hg _)

theorem itemValues_sum_le (items : List (List Nat × S)) (W : Finset (List Nat)) :
    ∑ w ∈ W, ((itemValues items w).map fun s => (μ s : Int)).sum ≤ ((items.map fun e => μ e.2).sum : Nat) := by
  induction items with
  | nil => simp [itemValues]
  | cons e items ih =>
    have h : ∀ w, ((itemValues (e :: items) w).map fun s => (μ s : Int)).sum =
        (if w = e.1 then (μ e.2 : Int) else 0) + ((itemValues items w).map fun s => (μ s : Int)).sum := by
      intro w
      unfold itemValues
      by_cases c : e.1 = w
      · rw [List.filter_cons_of_pos (by simpa using c), if_pos c.symm, List.map_cons, List.map_cons, List.sum_cons]
      · rw [List.filter_cons_of_neg (by simpa using c), if_neg fun h => c h.symm, zero_add]
    simp only [h]
    rw [Finset.sum_add_distrib, Finset.sum_ite_eq', List.map_cons, List.sum_cons]
    push_cast at ih ⊢
    have : (0 : Int) ≤ μ e.2 := Int.natCast_nonneg _
    split_ifs <;> linarith

theorem stmtTotal_le (st : PStmt S R) {ρ : Nat → List Nat → Int} {t : Nat → Nat} (h0 : ∀ i w, 0 ≤ ρ i w) (h : ∀ i, ∀ W : Finset (List Nat), ∑ w ∈ W, ρ i w ≤ t i) :
    ∀ i, ∀ W : Finset (List Nat), ∑ w ∈ W, st.mass μ ρ i w ≤ st.total μ t i := by
  classical
  have hset : ∀ {ρ : Nat → List Nat → Int} {t : Nat → Nat} (i : Nat) {f : List Nat → Int} {n : Nat}, (∀ i, ∀ W : Finset (List Nat), ∑ w ∈ W, ρ i w ≤ t i) →
      (∀ W : Finset (List Nat), ∑ w ∈ W, f w ≤ n) → ∀ j, ∀ W : Finset (List Nat), ∑ w ∈ W, setReg ρ i f j w ≤ setReg t i n j := by
    intro ρ t i f n h hf j
    unfold setReg
    split_ifs
    exacts [hf, h j]
  cases st with
  | zero i | clear i => exact hset i h fun W => by simp
  | word i w s =>
    refine hset i h fun W => ?_
    rw [Finset.sum_ite_eq' W w]
    split_ifs <;> omega
  | terms i items => exact hset i h (itemValues_sum_le items)
  | copy i j => exact hset i h (h j)
  | swap i j => exact hset j (hset i h (h j)) (h i)
  | erase i w =>
    intro j W
    refine (Finset.sum_le_sum fun u _ => ?_).trans (h j W)
    change setReg ρ i _ j u ≤ _
    unfold setReg
    split_ifs with c
    · subst c
      change (if u = w then 0 else ρ j u) ≤ _
      split_ifs
      exacts [h0 j u, le_rfl]
    · exact le_rfl
  | neg i | modify i w f | div i r => exact h
  | add i j | sub i j =>
    refine hset i h fun W => ?_
    rw [Finset.sum_add_distrib]
    push_cast
    exact add_le_add (h i W) (h j W)
  | scale i s =>
    refine hset i h fun W => ?_
    rw [← Finset.sum_mul]
    push_cast
    exact mul_le_mul_of_nonneg_right (h i W) (Int.natCast_nonneg _)
  | mul i j k D =>
    refine hset i h fun W => ?_
    push_cast
    exact cutProd_sum_le (h0 j) (h0 k) (h j) (h k) W
  | comm i j k D =>
    refine hset i h fun W => ?_
    have h1 := cutProd_sum_le (D := D) (h0 j) (h0 k) (h j) (h k) W
    have h2 := cutProd_sum_le (D := D) (h0 k) (h0 j) (h k) (h j) W
    rw [Finset.sum_add_distrib]
    push_cast
    linarith
  | addMul i j k D | subMul i j k D =>
    refine hset i h fun W => ?_
    rw [Finset.sum_add_distrib]
    push_cast
    exact add_le_add (h i W) (cutProd_sum_le (h0 j) (h0 k) (h j) (h k) W)

/-- C105.  A condition that is simple to check: after each statement the sizes of all terms of each register add up to at most `B`. -/
theorem C105_total (hF : F.Within μ B) (h2 : 2 ≤ N) (hN : N < 2 ^ 32) (D : Nat) (hm : D ≤ maxDepth N) (hp : N ^ (D + 1) < 2 ^ 64) (prog : List (PStmt S R))
    (hs : ∀ s ∈ prog, s.Within N D ∧ s.Algebraic) (ha : allowedProg (fun _ => 0) prog = true) (hB : TotalBelow μ B (fun _ => 0) prog) :
    MassBelow μ N D B (fun _ _ => 0) prog ∧ ∃ σ, runProgF F p N prog = .ok σ := by
  have key : ∀ (prog : List (PStmt S R)) (ρ : Nat → List Nat → Int) (t : Nat → Nat), (∀ i w, 0 ≤ ρ i w) → (∀ i, ∀ W : Finset (List Nat), ∑ w ∈ W, ρ i w ≤ t i) →
      TotalBelow μ B t prog → MassBelow μ N D B ρ prog := by
    intro prog
    induction prog with
    | nil => exact fun _ _ _ _ _ => trivial
    | cons s prog ih =>
      intro ρ t h0 h hB
      refine ⟨fun i w _ _ => ?_, ih _ _ (stmtMass_nonneg s h0) (stmtTotal_le s h0 h) hB.2⟩
      have h1 := stmtTotal_le (μ := μ) s h0 h i {w}
      rw [Finset.sum_singleton] at h1
      have : (s.total μ t i : Int) ≤ B := by exact_mod_cast hB.1 i
      linarith
  have hm' := key prog (fun _ _ => 0) (fun _ => 0) (fun _ _ => le_rfl) (fun _ W => by simp) hB
  obtain ⟨σ, h1, -⟩ := C105_returns p N hF h2 hN D hm hp prog hs ha hm'
  exact ⟨hm', σ, h1⟩

/-- C105.  Whatever the size of the numbers, a program whose products are allowed returns or panics, if the arithmetic does nothing worse than panic; any other program panics
or is undefined behaviour, and never returns. -/
theorem C105_returns_or_panics (hF : F.OnlyPanics) (h2 : 2 ≤ N) (hN : N < 2 ^ 32) (D : Nat) (hm : D ≤ maxDepth N) (hp : N ^ (D + 1) < 2 ^ 64) (prog : List (PStmt S R))
    (hs : ∀ s ∈ prog, s.Within N D) :
    (allowedProg (fun _ => 0) prog = true → (runProgF F p N prog).ReturnsOrPanics) ∧
    (allowedProg (fun _ => 0) prog = false → runProgF F p N prog = .panic ∨ runProgF F p N prog = .ub) := by
  have hsh : ∀ (prog : List (PStmt S R)) (l : Nat → Nat), allowedProg l (prog.map shape) = allowedProg l prog := by
    intro prog
    induction prog with
    | nil => exact fun _ => rfl
    | cons s prog ih =>
      intro l
      rw [List.map_cons]
      unfold allowedProg
      rw [(shape_levels l s).1, (shape_levels l s).2, ih]
  have hrel : List.Forall₂ (StmtRel (fun _ _ => True) (fun _ _ => True)) prog (prog.map shape) := by
    rw [List.forall₂_map_right_iff]
    exact List.forall₂_same.2 fun s _ => shape_rel s
  have hprog : runProgF F p N prog = runProgF { F with eq := fun _ _ => .panic } p N prog := by
    unfold runProgF
    rw [show runStmtF F p N = _ from funext fun σ => funext (runStmtF_noeq p N σ)]
  have href := runProgF_ref p N (noeq_ref (F := F) (z := True) fun _ => hF) hrel
  rw [← hprog, ← (C103_run_total unitCoeff p N (prog.map shape) 0 (.term [] ())).1] at href
  have hs' : ∀ s ∈ prog.map shape, s.Within N D := by
    intro s h
    obtain ⟨s', h', rfl⟩ := List.mem_map.1 h
    exact shape_within N (hs s' h')
  constructor <;> intro ha <;> rw [← hsh] at ha
  · obtain ⟨τ, h1, -⟩ := C65_programs_partial unitCoeff p N h2 hN D hm hp _ hs' ha
    rw [h1] at href
    constructor <;> intro hr <;> rw [hr] at href <;> cases href trivial
  · rw [(C65_unsafe unitCoeff p N h2 hN D hm hp _ hs').2 ha] at href
    rcases hr : runProgF F p N prog with r | _ | _ | _ <;> rw [hr] at href
    · obtain ⟨_, h, _⟩ := href
      cases h
    · exact .inl rfl
    · exact .inr rfl
    · cases href trivial

end

section
variable {S S' R R' : Type} {F : FCoeff S R} {φ : S → S'} {P : R → R' → Prop} {C : Coeff S' R'} {μ : S → Nat} {B : Nat} (p : Profile) (N : Nat)

/-- C105.  If the arithmetic is exact, then under the condition on the sums the registers hold the elements of the free associative algebra that the program describes. -/
theorem C105_values [CommRing S'] (hC : C.IsRing) (hF : F.ExactFor φ P C) (hW : F.Within μ B) (h2 : 2 ≤ N) (hN : N < 2 ^ 32) (D : Nat) (hm : D ≤ maxDepth N)
    (hp : N ^ (D + 1) < 2 ^ 64) (prog : List (PStmt S R)) (hs : ∀ s ∈ prog, s.Within N D ∧ s.Algebraic) (ha : allowedProg (fun _ => 0) prog = true)
    (hB : MassBelow μ N D B (fun _ _ => 0) prog) (prog' : List (PStmt S' R')) (h : List.Forall₂ (StmtRel (Img φ) P) prog prog') :
    ∃ σ, runProgF F p N prog = .ok σ ∧ ∀ i w k, ValidWord N w → w.length ≤ maxDepth N → fromLetters p N w = .ok k →
      ∃ x, Dense.get (tensorBasis p N) (σ i) k = .ok x ∧ φ (x.getD F.zero) = valueProg prog' i w := by
  obtain ⟨σ, h1, -⟩ := C105_returns p N hW h2 hN D hm hp prog hs ha hB
  exact ⟨σ, h1, C103_program_values p N hC hF h2 hN D hm hp prog hs prog' h σ h1⟩

end

/-! ## Integers in a range -/

section
variable (p : Profile) (N : Nat)

theorem stmtRel_same {S R : Type} {Q : S → S → Prop} {st : PStmt S R} (ha : st.Algebraic) (hs : st.Scalars fun s => Q s s) : StmtRel Q Eq st st := by
  cases st with
  | terms i l => exact .terms _ _ _ (List.forall₂_same.2 fun e he => ⟨rfl, hs e he⟩)
  | modify i w f => exact ha.elim
  | div i r => exact ha.elim
  | word i w s => exact .word _ _ _ _ hs
  | scale i s => exact .scale _ _ _ hs
  | _ => constructor

theorem scalars_of {S R : Type} {P Q : S → Prop} (h : ∀ s, P s → Q s) {st : PStmt S R} (hs : st.Scalars P) : st.Scalars Q := by
  cases st with
  | terms i l => exact fun e he => h _ (hs e he)
  | word i w s | scale i s => exact h _ hs
  | _ => trivial

theorem valuesIn_of {R : Type} {N D : Nat} {lo hi : Int} (prog : List (PStmt Int R)) : ∀ ρ : Nat → List Nat → Int, (∀ pre s post, prog = pre ++ s :: post →
    ∀ i w, ValidWord N w → w.length ≤ D → lo ≤ (pre ++ [s]).foldl PStmt.value ρ i w ∧ (pre ++ [s]).foldl PStmt.value ρ i w ≤ hi) → ValuesIn N D lo hi ρ prog := by
  induction prog with
  | nil => exact fun _ _ => trivial
  | cons s prog ih =>
    intro ρ h
    exact ⟨h [] s prog rfl, ih _ fun pre s' post e => h (s :: pre) s' post (by rw [e]; rfl)⟩

/-- C105.  If the program returns, then after each of its statements the coefficients of the elements that the program describes are in the range, for every register and every
word of length at most `D`. -/
theorem C105_in_range {lo hi : Int} (hl : lo ≤ -1) (hh : 1 ≤ hi) (h2 : 2 ≤ N) (hN : N < 2 ^ 32) (D : Nat) (hm : D ≤ maxDepth N) (hp : N ^ (D + 1) < 2 ^ 64)
    (prog : List (PStmt Int Int)) (hs : ∀ s ∈ prog, s.Within N D ∧ s.Algebraic) (hr : ∀ s ∈ prog, s.Scalars fun x => lo ≤ x ∧ x ≤ hi) (σ : Nat → Dense Int)
    (h : runProgF (rangeInt lo hi) p N prog = .ok σ) : ValuesIn N D lo hi (fun _ _ => 0) prog := by
  refine valuesIn_of prog _ fun pre s post e i w hv hd => ?_
  subst e
  have hmem : ∀ s' ∈ pre ++ [s], s' ∈ pre ++ s :: post := fun s' h' => by
    rw [List.mem_append, List.mem_singleton] at h'
    rw [List.mem_append, List.mem_cons]
    tauto
  unfold runProgF at h
  rw [show pre ++ s :: post = (pre ++ [s]) ++ post by simp, List.foldlM_append] at h
  obtain ⟨τ, h1, -⟩ := bind_ok_inv h
  have hl' : w.length ≤ maxDepth N := by omega
  have hk := fromLetters_ok p N (by omega) hN w hv hl'
  obtain ⟨x, x1, x2⟩ := C103_program_values p N truncCoeff_isRing (C103_integers lo hi) h2 hN D hm hp (pre ++ [s]) (fun s' h' => hs s' (hmem s' h')) (pre ++ [s])
    (List.forall₂_same.2 fun s' h' => stmtRel_same (hs s' (hmem s' h')).2 (scalars_of (fun _ _ => rfl) (hr s' (hmem s' h')))) τ h1 i w _ hv hl' hk
  rw [get_word p N (by omega) hN (τ i) w hv hl' _ hk] at x1
  cases x1
  rw [show (pre ++ [s]).foldl PStmt.value (fun _ _ => 0) i w = _ from x2.symm]
  obtain ⟨τ', -, r2⟩ := (runProgF_ref p N (rangeInt_ref hl hh)
    (List.forall₂_same.2 fun s' h' => stmtRel_same (hs s' (hmem s' h')).2 (scalars_of (fun _ h => ⟨rfl, h⟩) (hr s' (hmem s' h'))))).ret h1
  unfold stored
  rcases lt_or_ge (wordIndex N w) (τ i).data.length with c | c
  · rw [List.getElem?_eq_getElem c]
    have := (List.forall₂_iff_get.1 (r2 i).data).2 _ c (by rw [← (r2 i).data.length_eq]; exact c)
    exact this.2
  · rw [List.getElem?_eq_none c]
    exact ⟨by change lo ≤ 0; omega, by change 0 ≤ hi; omega⟩

/-- Without subtractions, and with nonnegative scalars, nothing cancels. -/
theorem stmtMass_eq_value {R : Type} {st : PStmt Int R} (h : st.Positive) (hs : st.Scalars (0 ≤ ·)) (ρ : Nat → List Nat → Int) : st.mass Int.natAbs ρ = st.value ρ := by
  cases st with
  | word i w s =>
    refine congrArg (setReg ρ i) (funext fun u => ?_)
    split_ifs
    exacts [Int.natAbs_of_nonneg hs, rfl]
  | terms i items =>
    refine congrArg (setReg ρ i) (funext fun u => ?_)
    have : (itemValues items u).map (fun s => ((s.natAbs : Nat) : Int)) = itemValues items u := by
      conv_rhs => rw [← List.map_id (itemValues items u)]
      refine List.map_congr_left fun x hx => ?_
      obtain ⟨e, he, rfl⟩ := List.mem_map.1 hx
      exact Int.natAbs_of_nonneg (hs e (List.mem_filter.1 he).1)
    rw [this]
  | scale i s => exact congrArg (setReg ρ i) (funext fun u => by rw [Int.natAbs_of_nonneg hs])
  | neg | sub | comm | subMul | modify | div => exact h.elim
  | _ => rfl

/-- C105.  For programs without subtraction, and with nonnegative scalars, the bound is exact: the program returns if and only if the coefficients of the elements that the
program describes stay in the range after each statement, up to degree `D`, and otherwise it panics. -/
theorem C105_exact {lo hi : Int} (hl : lo ≤ -hi) (hh : 1 ≤ hi) (h2 : 2 ≤ N) (hN : N < 2 ^ 32) (D : Nat) (hm : D ≤ maxDepth N) (hp : N ^ (D + 1) < 2 ^ 64)
    (prog : List (PStmt Int Int)) (hs : ∀ s ∈ prog, s.Within N D ∧ s.Positive) (ha : allowedProg (fun _ => 0) prog = true)
    (hr : ∀ s ∈ prog, s.Scalars fun x => 0 ≤ x ∧ x ≤ hi) :
    ((∃ σ, runProgF (rangeInt lo hi) p N prog = .ok σ) ↔ ValuesIn N D lo hi (fun _ _ => 0) prog) ∧
    (runProgF (rangeInt lo hi) p N prog = .panic ↔ ¬ ValuesIn N D lo hi (fun _ _ => 0) prog) := by
  have hal : ∀ s ∈ prog, s.Within N D ∧ s.Algebraic := fun s h => ⟨(hs s h).1, by
    have := (hs s h).2
    cases s <;> trivial⟩
  suffices h : (∃ σ, runProgF (rangeInt lo hi) p N prog = .ok σ) ↔ ValuesIn N D lo hi (fun _ _ => 0) prog by
    refine ⟨h, ?_⟩
    rw [← h]
    obtain ⟨h3, h4⟩ := (C105_returns_or_panics p N (C103_only_panics lo hi).1 h2 hN D hm hp prog fun s h => (hs s h).1).1 ha
    rcases hr : runProgF (rangeInt lo hi) p N prog with r | _ | _ | _
    · exact ⟨nofun, fun h => (h ⟨r, rfl⟩).elim⟩
    · exact ⟨fun _ => nofun, fun _ => rfl⟩
    · exact (h3 hr).elim
    · exact (h4 hr).elim
  constructor
  · rintro ⟨σ, h⟩
    exact C105_in_range p N (by omega) hh h2 hN D hm hp prog hal (fun s h => scalars_of (fun x hx => ⟨by have := hx.1; omega, hx.2⟩) (hr s h)) σ h
  · intro h
    obtain ⟨B, rfl⟩ := Int.eq_ofNat_of_zero_le (show 0 ≤ hi by omega)
    obtain ⟨σ, hσ, -⟩ := C105_returns p N (C104_integers hl le_rfl) h2 hN D hm hp prog hal ha (by
      clear hal ha
      generalize (fun (_ : Nat) (_ : List Nat) => (0 : Int)) = ρ at h
      induction prog generalizing ρ with
      | nil => trivial
      | cons s prog ih =>
        have he := stmtMass_eq_value (hs s (by simp)).2 (scalars_of (fun _ h => h.1) (hr s (by simp))) ρ
        refine ⟨fun i w hv hd => ?_, ?_⟩
        · rw [he]
          exact (h.1 i w hv hd).2
        · rw [he]
          exact ih (fun s h => hs s (by simp [h])) (fun s h => hr s (by simp [h])) _ h.2)
    exact ⟨σ, hσ⟩

end

/-- `x = 3 a`, `y = 2 b - a`, `z = [x, y]`, `z = -5 z`, `z = z + x y`. -/
def massProg : List (PStmt Int Int) :=
  [.word 0 [1] 3, .terms 1 [([2], 2), ([1], -1)], .comm 2 0 1 2, .scale 2 (-5), .addMul 2 0 1 2]

theorem massProg_ok : (∀ s ∈ massProg, s.Within 2 2 ∧ s.Algebraic) ∧ allowedProg (fun _ => 0) massProg = true := by
  refine ⟨fun s h => ?_, by decide⟩
  simp only [massProg, List.mem_cons, List.not_mem_nil, or_false] at h
  rcases h with rfl | rfl | rfl | rfl | rfl
  · exact ⟨⟨by decide, by decide⟩, trivial⟩
  · exact ⟨by simp [PStmt.Within, ValidWord], trivial⟩
  · exact ⟨le_rfl, trivial⟩
  · exact ⟨trivial, trivial⟩
  · exact ⟨le_rfl, trivial⟩

theorem massProg_total : TotalBelow Int.natAbs 99 (fun _ => 0) massProg := by
  have h : ∀ {t : Nat → Nat} {i n : Nat}, (∀ j, t j ≤ 99) → n ≤ 99 → ∀ j, setReg t i n j ≤ 99 := fun h hn j => by
    unfold setReg
    split_ifs
    exacts [hn, h j]
  have h1 := h (i := 0) (n := 3) (fun _ => Nat.zero_le 99) (by omega)
  have h2 := h (i := 1) (n := 3) h1 (by omega)
  have h3 := h (i := 2) (n := 18) h2 (by omega)
  have h4 := h (i := 2) (n := 90) h3 (by omega)
  have h5 := h (i := 2) (n := 99) h4 (by omega)
  exact ⟨h1, h2, h3, h4, h5, trivial⟩

/-- The integers from -99 to 99 are enough for it. -/
example (p : Profile) : ∃ σ, runProgF (rangeInt (-99) 99) p 2 massProg = .ok σ :=
  (C105_total p 2 (C104_integers (B := 99) (by norm_num) (by norm_num)) (by omega) (by omega) 2 (by decide +kernel) (by decide) massProg massProg_ok.1 massProg_ok.2
    massProg_total).2

/-- Its result has the coefficient -24 at `ab`. -/
example (p : Profile) (k : TensorKey) (hk : fromLetters p 2 [1, 2] = .ok k) :
    ∃ σ x, runProgF (rangeInt (-99) 99) p 2 massProg = .ok σ ∧ Dense.get (tensorBasis p 2) (σ 2) k = .ok x ∧ x.getD 0 = -24 := by
  have hW := C104_integers (lo := -99) (hi := 99) (B := 99) (by norm_num) (by norm_num)
  obtain ⟨σ, h1, h3⟩ := C105_values p 2 truncCoeff_isRing (C103_integers (-99) 99) hW (by omega) (by omega) 2 (by decide +kernel) (by decide) massProg massProg_ok.1
    massProg_ok.2 (C105_total p 2 hW (by omega) (by omega) 2 (by decide +kernel) (by decide) massProg massProg_ok.1 massProg_ok.2 massProg_total).1 massProg
    (List.forall₂_same.2 fun s h => stmtRel_same (massProg_ok.1 s h).2 (scalars_of (P := fun _ => True) (fun _ _ => rfl) (by cases s <;> first | trivial | exact fun _ _ => trivial)))
  obtain ⟨x, x1, x2⟩ := h3 2 [1, 2] k (by decide) (by decide +kernel) hk
  exact ⟨σ, x, h1, x1, x2.trans (by decide +kernel)⟩

/-- The bounds of the single words are smaller: 36 at `ab`. -/
example : massProg.foldl (PStmt.mass Int.natAbs) (fun _ _ => 0) 2 [1, 2] = 36 := by decide +kernel

/-- In the integers from -20 to 20 it panics. -/
example (p : Profile) : runProgF (rangeInt (-20) 20) p 2 massProg = .panic := by
  obtain ⟨h3, h4⟩ := (C105_returns_or_panics p 2 (C103_only_panics (-20) 20).1 (by omega) (by omega) 2 (by decide +kernel) (by decide) massProg
    fun s h => (massProg_ok.1 s h).1).1 massProg_ok.2
  rcases hr : runProgF (rangeInt (-20) 20) p 2 massProg with σ | _ | _ | _
  · have h := C105_in_range p 2 (by omega) (by omega) (by omega) (by omega) 2 (by decide +kernel) (by decide) massProg massProg_ok.1 (fun s h => by
      simp only [massProg, List.mem_cons, List.not_mem_nil, or_false] at h
      rcases h with rfl | rfl | rfl | rfl | rfl
      · exact ⟨by omega, by omega⟩
      · simp [PStmt.Scalars]
      · trivial
      · exact ⟨by omega, by omega⟩
      · trivial) σ hr
    exact absurd (h.2.2.2.1 2 [1, 2] (by decide) (by decide)).1 (by decide +kernel)
  · rfl
  · exact (h3 hr).elim
  · exact (h4 hr).elim

/-- Squaring `2^16 a` twice does not fit into 64 bits. -/
def squareProg : List (PStmt Int Int) := [.word 0 [1] (2 ^ 16), .mul 1 0 0 4, .mul 2 1 1 4]

example (p : Profile) : runProgF checkedI64 p 2 squareProg = .panic := by
  refine (C105_exact p 2 (lo := -2 ^ 63) (hi := 2 ^ 63 - 1) (by omega) (by omega) (by omega) (by omega) 4 (by decide +kernel) (by decide) squareProg (fun s h => ?_)
    (by decide) fun s h => ?_).2.2 fun h => absurd (h.2.2.1 2 [1, 1, 1, 1] (by decide) (by decide)).2 (by decide +kernel)
  · simp only [squareProg, List.mem_cons, List.not_mem_nil, or_false] at h
    rcases h with rfl | rfl | rfl
    · exact ⟨⟨by decide, by decide⟩, trivial⟩
    · exact ⟨le_rfl, trivial⟩
    · exact ⟨le_rfl, trivial⟩
  · simp only [squareProg, List.mem_cons, List.not_mem_nil, or_false] at h
    rcases h with rfl | rfl | rfl
    · exact ⟨by decide, by decide⟩
    · trivial
    · trivial

/-- A product of nothing. -/
example (p : Profile) : runProgF checkedI64 p 2 [.mul 1 0 0 2] = .panic ∨ runProgF checkedI64 p 2 [.mul 1 0 0 2] = .ub :=
  (C105_returns_or_panics p 2 (C103_only_panics _ _).1 (by omega) (by omega) 2 (by decide +kernel) (by decide) [.mul 1 0 0 2] fun s h => by
    rw [List.mem_singleton.1 h]
    exact le_rfl).2 (by decide)

end RA
