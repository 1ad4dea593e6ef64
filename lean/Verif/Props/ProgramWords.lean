import Verif.SpecProgWords
import Verif.Props.ProgramAll
import Verif.Props.Product
import Verif.Proofs.ConvMore
import Verif.Props.SparseFloat

/-!
# Truncation degrees, letters and directions of whole programs (C112)
-/

namespace RA
open Spec TensorKey TensorBasis DenseAlg

section
variable {S R : Type} (C : Coeff S R)

/-! ## Truncation -/

/-- The registers agree up to degree `d`. -/
def AgreeTo (d : Nat) (t t' : TReg S) : Prop := min t.levels (d + 1) = min t'.levels (d + 1) ∧ ∀ w, w.length ≤ d → t'.coef w = t.coef w

variable {C}

theorem agreeTo_set {d : Nat} {τ τ' : Nat → TReg S} {t t' : TReg S} (h : ∀ i, AgreeTo d (τ i) (τ' i)) (i : Nat) (ht : AgreeTo d t t') :
    ∀ j, AgreeTo d (setReg τ i t j) (setReg τ' i t' j) := by
  intro j
  unfold setReg
  split_ifs
  · exact ht
  · exact h j

theorem prodDeg_cut {d D a b a' b' : Nat} (ha : min a (d + 1) = min a' (d + 1)) (hb : min b (d + 1) = min b' (d + 1)) :
    min d (prodDeg D a b) = min d (prodDeg (min d D) a' b') := by
  unfold prodDeg
  omega

theorem splitProducts_congr {g : S → S → S} {a b a' b' : List Nat → Option S} {w : List Nat} (ha : ∀ u, u.length ≤ w.length → a' u = a u)
    (hb : ∀ u, u.length ≤ w.length → b' u = b u) : splitProducts g a' b' w = splitProducts g a b w := by
  unfold splitProducts
  apply List.filterMap_congr
  intro uv huv
  have := (splits_spec w uv.1 uv.2).1 huv
  have hl : uv.1.length + uv.2.length = w.length := by rw [← this, List.length_append]
  rw [ha _ (by omega), hb _ (by omega)]

theorem agreeTo_addProd {d D : Nat} (f : S → S) {v a b v' a' b' : TReg S} (hv : AgreeTo d v v') (ha : AgreeTo d a a') (hb : AgreeTo d b b') :
    AgreeTo d (.addProd C f v a b D) (.addProd C f v' a' b' (min d D)) := by
  have hp := prodDeg_cut (D := D) ha.1 hb.1
  refine ⟨?_, fun w hw => ?_⟩
  · show min (max v.levels _) _ = min (max v'.levels _) _
    have := hv.1
    omega
  · show (if w.length ≤ prodDeg (min d D) a'.levels b'.levels then _ else _) = (if w.length ≤ prodDeg D a.levels b.levels then _ else _)
    have : w.length ≤ prodDeg (min d D) a'.levels b'.levels ↔ w.length ≤ prodDeg D a.levels b.levels := by omega
    simp only [this]
    rw [splitProducts_congr (fun u hu => ha.2 u (hu.trans hw)) (fun u hu => hb.2 u (hu.trans hw)), hv.2 w hw]

theorem agreeTo_step {d : Nat} (s : PStmt S R) {τ τ' : Nat → TReg S} (h : ∀ i, AgreeTo d (τ i) (τ' i)) :
    ∀ i, AgreeTo d (s.eval C τ i) ((s.cut d).eval C τ' i) := by
  have hr : ∀ t : TReg S, AgreeTo d t t := fun t => ⟨rfl, fun _ _ => rfl⟩
  have hmap : ∀ i (g : S → S), AgreeTo d ⟨(τ i).levels, fun u => ((τ i).coef u).map g⟩ ⟨(τ' i).levels, fun u => ((τ' i).coef u).map g⟩ := fun i g =>
    ⟨(h i).1, fun w hw => congrArg (Option.map g) ((h i).2 w hw)⟩
  have hmerge : ∀ i j (g : S → S → S), AgreeTo d ⟨max (τ i).levels (τ j).levels, fun u => mergeEntry g C.zero ((τ i).coef u) ((τ j).coef u)⟩
      ⟨max (τ' i).levels (τ' j).levels, fun u => mergeEntry g C.zero ((τ' i).coef u) ((τ' j).coef u)⟩ := fun i j g => by
    refine ⟨?_, fun w hw => ?_⟩
    · have := (h i).1
      have := (h j).1
      dsimp only
      omega
    · dsimp only
      rw [(h i).2 w hw, (h j).2 w hw]
  have hone : ∀ i w (g : S → S), AgreeTo d ⟨(τ i).levels, fun u => if u = w then ((τ i).coef u).map g else (τ i).coef u⟩
      ⟨(τ' i).levels, fun u => if u = w then ((τ' i).coef u).map g else (τ' i).coef u⟩ := fun i w g =>
    ⟨(h i).1, fun u hu => by dsimp only; rw [(h i).2 u hu]⟩
  cases s with
  | zero i => exact agreeTo_set h i (hr _)
  | word i w x => exact agreeTo_set h i (hr _)
  | terms i items => exact agreeTo_set h i (hr _)
  | copy i j => exact agreeTo_set h i (h j)
  | swap i j => exact agreeTo_set (agreeTo_set h i (h j)) j (h i)
  | clear i => exact agreeTo_set h i (hr _)
  | modify i w g => exact agreeTo_set h i (hone i w g)
  | erase i w => exact agreeTo_set h i (hone i w _)
  | neg i => exact agreeTo_set h i (hmap i _)
  | add i j => exact agreeTo_set h i (hmerge i j _)
  | sub i j => exact agreeTo_set h i (hmerge i j _)
  | scale i x => exact agreeTo_set h i (hmap i _)
  | div i r => exact agreeTo_set h i (hmap i _)
  | mul i j k D => exact agreeTo_set h i (agreeTo_addProd _ (hr _) (h j) (h k))
  | comm i j k D => exact agreeTo_set h i (agreeTo_addProd _ (agreeTo_addProd _ (hr _) (h j) (h k)) (h k) (h j))
  | addMul i j k D => exact agreeTo_set h i (agreeTo_addProd _ (h i) (h j) (h k))
  | subMul i j k D => exact agreeTo_set h i (agreeTo_addProd _ (h i) (h j) (h k))

theorem agreeTo_prog {d : Nat} (prog : List (PStmt S R)) (τ τ' : Nat → TReg S) (h : ∀ i, AgreeTo d (τ i) (τ' i)) :
    ∀ i, AgreeTo d (evalProg C τ prog i) (evalProg C τ' (prog.map (PStmt.cut d)) i) := by
  induction prog generalizing τ τ' with
  | nil => exact h
  | cons s prog ih => exact ih _ _ (agreeTo_step s h)

theorem allowed_cut {d : Nat} (hd : 1 ≤ d) (prog : List (PStmt S R)) (l l' : Nat → Nat) (h : ∀ i, min (l i) (d + 1) = min (l' i) (d + 1)) :
    allowedProg l prog = allowedProg l' (prog.map (PStmt.cut d)) := by
  induction prog generalizing l l' with
  | nil => rfl
  | cons s prog ih =>
    have hset : ∀ {m m' : Nat → Nat} (i a a' : Nat), (∀ i, min (m i) (d + 1) = min (m' i) (d + 1)) → min a (d + 1) = min a' (d + 1) →
        ∀ j, min (setReg m i a j) (d + 1) = min (setReg m' i a' j) (d + 1) := by
      intro m m' i a a' hm ha j
      unfold setReg
      split_ifs
      · exact ha
      · exact hm j
    have hprod : ∀ D j k, min d (prodDeg D (l j) (l k)) = min d (prodDeg (min d D) (l' j) (l' k)) := fun D j k => prodDeg_cut (h j) (h k)
    have h1 : s.allowed l = (s.cut d).allowed l' := by
      cases s <;> try rfl
      all_goals
        rename_i i j k D
        have hi := h i
        have hj := h j
        have hk := h k
        have hp := hprod D j k
        simp only [PStmt.cut, PStmt.allowed]
        apply decide_eq_decide.2
        omega
    have h3 : ∀ i, min (s.levels l i) (d + 1) = min ((s.cut d).levels l' i) (d + 1) := by
      cases s with
      | zero i => exact hset i _ _ h rfl
      | word i w x => exact hset i _ _ h rfl
      | terms i items => exact hset i _ _ h rfl
      | copy i j => exact hset i _ _ h (h j)
      | swap i j => exact hset j _ _ (hset i _ _ h (h j)) (h i)
      | clear i => exact hset i _ _ h rfl
      | modify i w g => exact h
      | erase i w => exact h
      | neg i => exact h
      | add i j => exact hset i _ _ h (by have := h i; have := h j; omega)
      | sub i j => exact hset i _ _ h (by have := h i; have := h j; omega)
      | scale i x => exact h
      | div i r => exact h
      | mul i j k D => exact hset i _ _ h (by have := hprod D j k; omega)
      | comm i j k D => exact hset i _ _ h (by have := hprod D j k; omega)
      | addMul i j k D => exact hset i _ _ h (by have := hprod D j k; have := h i; omega)
      | subMul i j k D => exact hset i _ _ h (by have := hprod D j k; have := h i; omega)
    show (s.allowed l && allowedProg (s.levels l) prog) = ((s.cut d).allowed l' && allowedProg ((s.cut d).levels l') (prog.map (PStmt.cut d)))
    rw [h1, ih _ _ h3]

variable (C) (p : Profile) (N : Nat)

/-- C112: truncating every product of a program at a lower degree changes no coefficient up to that degree, bit for bit, and changes nothing about whether the program is
memory safe. -/
theorem C112_truncation (h2 : 2 ≤ N) (hN : N < 2 ^ 32) (D : Nat) (hm : D ≤ maxDepth N) (hp : N ^ (D + 1) < 2 ^ 64) (prog : List (PStmt S R))
    (hs : ∀ s ∈ prog, s.Within N D) (d : Nat) (hd : 1 ≤ d) :
    (runProg C p N prog = .ub ∧ runProg C p N (prog.map (PStmt.cut d)) = .ub) ∨
    ∃ σ σ', runProg C p N prog = .ok σ ∧ runProg C p N (prog.map (PStmt.cut d)) = .ok σ' ∧
      ∀ i w k, ValidWord N w → w.length ≤ d → w.length ≤ maxDepth N → fromLetters p N w = .ok k →
        (DenseAlg.ops C p N).get (σ' i) k = (DenseAlg.ops C p N).get (σ i) k := by
  have hs' : ∀ s ∈ prog.map (PStmt.cut d), s.Within N D := by
    intro s hmem
    obtain ⟨s, h, rfl⟩ := List.mem_map.1 hmem
    have := hs s h
    cases s <;> first | exact this | exact (Nat.min_le_right _ _).trans this
  have ha := allowed_cut hd prog (fun _ => 0) (fun _ => 0) fun _ => rfl
  cases hc : allowedProg (fun _ => 0) prog with
  | false => exact .inl ⟨(C65_unsafe C p N h2 hN D hm hp prog hs).2 hc, (C65_unsafe C p N h2 hN D hm hp _ hs').2 (ha ▸ hc)⟩
  | true =>
    obtain ⟨σ, e1, g1⟩ := C65_programs_partial C p N h2 hN D hm hp prog hs hc
    obtain ⟨σ', e2, g2⟩ := C65_programs_partial C p N h2 hN D hm hp _ hs' (ha ▸ hc)
    refine .inr ⟨σ, σ', e1, e2, fun i w k hw hd hl hk => ?_⟩
    rw [(g1 i).2 w k hw hl hk, (g2 i).2 w k hw hl hk, (agreeTo_prog prog emptyRegs emptyRegs (fun _ => ⟨rfl, fun _ _ => rfl⟩) i).2 w hd]

/-! ## Letters -/

/-- The second register holds the first one with its letters replaced. -/
def Renamed (N : Nat) (f : Nat → Nat) (t t' : TReg S) : Prop := t'.levels = t.levels ∧ ∀ w, ValidWord N w → t'.coef (w.map f) = t.coef w

variable {C N}

theorem renamed_set {f : Nat → Nat} {τ τ' : Nat → TReg S} {t t' : TReg S} (h : ∀ i, Renamed N f (τ i) (τ' i)) (i : Nat) (ht : Renamed N f t t') :
    ∀ j, Renamed N f (setReg τ i t j) (setReg τ' i t' j) := by
  intro j
  unfold setReg
  split_ifs
  · exact ht
  · exact h j

theorem renamed_addProd {f : Nat → Nat} {D : Nat} (g : S → S) {v a b v' a' b' : TReg S} (hv : Renamed N f v v') (ha : Renamed N f a a') (hb : Renamed N f b b') :
    Renamed N f (.addProd C g v a b D) (.addProd C g v' a' b' D) := by
  refine ⟨?_, fun w hw => ?_⟩
  · show max v'.levels _ = max v.levels _
    rw [hv.1, ha.1, hb.1]
  · have hsp : splitProducts (fun x y => g (C.mul x y)) a'.coef b'.coef (w.map f) = splitProducts (fun x y => g (C.mul x y)) a.coef b.coef w := by
      unfold splitProducts
      rw [splits_map, List.filterMap_map]
      apply List.filterMap_congr
      intro uv huv
      have e := (splits_spec w uv.1 uv.2).1 huv
      have h1 : ValidWord N uv.1 := fun x hx => hw x (by rw [← e]; exact List.mem_append_left _ hx)
      have h3 : ValidWord N uv.2 := fun x hx => hw x (by rw [← e]; exact List.mem_append_right _ hx)
      simp only [Function.comp]
      rw [ha.2 _ h1, hb.2 _ h3]
    show (if (w.map f).length ≤ prodDeg D a'.levels b'.levels then _ else _) = (if w.length ≤ prodDeg D a.levels b.levels then _ else _)
    rw [List.length_map, ha.1, hb.1, hsp, hv.2 w hw]

theorem map_eq_iff {f : Nat → Nat} (hf : ∀ x y, 1 ≤ x → x ≤ N → 1 ≤ y → y ≤ N → f x = f y → x = y) (u w : List Nat) (hu : ValidWord N u) (hw : ValidWord N w) :
    u.map f = w.map f ↔ u = w := by
  refine ⟨fun h => ?_, fun h => h ▸ rfl⟩
  induction u generalizing w with
  | nil => exact (List.map_eq_nil_iff.1 h.symm).symm
  | cons x u ih =>
    cases w with
    | nil => cases h
    | cons y w =>
      simp only [List.map_cons, List.cons.injEq] at h
      rw [hf x y (hu x (by simp)).1 (hu x (by simp)).2 (hw y (by simp)).1 (hw y (by simp)).2 h.1,
        ih w (fun z hz => hu z (by simp [hz])) (fun z hz => hw z (by simp [hz])) h.2]

theorem itemLevels_map (f : List Nat → List Nat) (hf : ∀ w, (f w).length = w.length) (items : List (List Nat × S)) :
    itemLevels (items.map fun e => (f e.1, e.2)) = itemLevels items := by
  induction items with
  | nil => rfl
  | cons e es ih =>
    show max ((f e.1).length + 1) _ = max (e.1.length + 1) _
    rw [hf]
    exact congrArg _ ih

theorem itemValues_map (f : List Nat → List Nat) (items : List (List Nat × S)) (w : List Nat) (hf : ∀ e ∈ items, f e.1 = f w ↔ e.1 = w) :
    itemValues (items.map fun e => (f e.1, e.2)) (f w) = itemValues items w := by
  unfold itemValues
  rw [List.filter_map, List.map_map]
  congr 1
  apply List.filter_congr
  intro e he
  simp only [Function.comp, decide_eq_decide]
  exact hf e he

theorem renamed_step {f : Nat → Nat} (hf : ∀ x y, 1 ≤ x → x ≤ N → 1 ≤ y → y ≤ N → f x = f y → x = y) {D : Nat} (s : PStmt S R) (hs : s.Within N D)
    {τ τ' : Nat → TReg S} (h : ∀ i, Renamed N f (τ i) (τ' i)) : ∀ i, Renamed N f (s.eval C τ i) ((s.rename f).eval C τ' i) := by
  have hr : Renamed N f (TReg.empty : TReg S) TReg.empty := ⟨rfl, fun _ _ => rfl⟩
  have hmap : ∀ i (g : S → S), Renamed N f ⟨(τ i).levels, fun u => ((τ i).coef u).map g⟩ ⟨(τ' i).levels, fun u => ((τ' i).coef u).map g⟩ := fun i g =>
    ⟨(h i).1, fun w hw => congrArg (Option.map g) ((h i).2 w hw)⟩
  have hmerge : ∀ i j (g : S → S → S), Renamed N f ⟨max (τ i).levels (τ j).levels, fun u => mergeEntry g C.zero ((τ i).coef u) ((τ j).coef u)⟩
      ⟨max (τ' i).levels (τ' j).levels, fun u => mergeEntry g C.zero ((τ' i).coef u) ((τ' j).coef u)⟩ := fun i j g => by
    refine ⟨?_, fun w hw => ?_⟩
    · dsimp only
      rw [(h i).1, (h j).1]
    · dsimp only
      rw [(h i).2 w hw, (h j).2 w hw]
  have hone : ∀ i w (g : S → S), ValidWord N w → Renamed N f ⟨(τ i).levels, fun u => if u = w then ((τ i).coef u).map g else (τ i).coef u⟩
      ⟨(τ' i).levels, fun u => if u = w.map f then ((τ' i).coef u).map g else (τ' i).coef u⟩ := fun i w g hw =>
    ⟨(h i).1, fun u hu => by dsimp only; rw [(h i).2 u hu]; simp only [map_eq_iff hf u w hu hw]⟩
  cases s with
  | zero i => exact renamed_set h i hr
  | word i w x =>
    refine renamed_set h i ⟨?_, fun u hu => ?_⟩
    · dsimp only
      rw [List.length_map]
    · dsimp only
      simp only [map_eq_iff hf u w hu hs.1, List.length_map]
  | terms i items =>
    refine renamed_set h i ⟨?_, fun u hu => ?_⟩
    · exact itemLevels_map _ (fun w => List.length_map _) items
    · dsimp only
      rw [itemLevels_map _ (fun w => List.length_map _) items, List.length_map, itemValues_map (List.map f) items u fun e he => map_eq_iff hf e.1 u (hs e he).1 hu]
  | copy i j => exact renamed_set h i (h j)
  | swap i j => exact renamed_set (renamed_set h i (h j)) j (h i)
  | clear i => exact renamed_set h i hr
  | modify i w g => exact renamed_set h i (hone i w g hs.1)
  | erase i w => exact renamed_set h i (hone i w _ hs.1)
  | neg i => exact renamed_set h i (hmap i _)
  | add i j => exact renamed_set h i (hmerge i j _)
  | sub i j => exact renamed_set h i (hmerge i j _)
  | scale i x => exact renamed_set h i (hmap i _)
  | div i r => exact renamed_set h i (hmap i _)
  | mul i j k D => exact renamed_set h i (renamed_addProd _ hr (h j) (h k))
  | comm i j k D => exact renamed_set h i (renamed_addProd _ (renamed_addProd _ hr (h j) (h k)) (h k) (h j))
  | addMul i j k D => exact renamed_set h i (renamed_addProd _ (h i) (h j) (h k))
  | subMul i j k D => exact renamed_set h i (renamed_addProd _ (h i) (h j) (h k))

theorem renamed_prog {f : Nat → Nat} (hf : ∀ x y, 1 ≤ x → x ≤ N → 1 ≤ y → y ≤ N → f x = f y → x = y) {D : Nat} (prog : List (PStmt S R))
    (hs : ∀ s ∈ prog, s.Within N D) (τ τ' : Nat → TReg S) (h : ∀ i, Renamed N f (τ i) (τ' i)) :
    ∀ i, Renamed N f (evalProg C τ prog i) (evalProg C τ' (prog.map (PStmt.rename f)) i) := by
  induction prog generalizing τ τ' with
  | nil => exact h
  | cons s prog ih => exact ih (fun s h => hs s (List.mem_cons_of_mem _ h)) _ _ (renamed_step hf s (hs s (by simp)) h)

theorem allowed_same (g : PStmt S R → PStmt S R) (prog : List (PStmt S R)) (hg : ∀ s ∈ prog, ∀ l, (g s).allowed l = s.allowed l ∧ (g s).levels l = s.levels l) (l : Nat → Nat) :
    allowedProg l (prog.map g) = allowedProg l prog := by
  induction prog generalizing l with
  | nil => rfl
  | cons s prog ih =>
    have h := hg s (by simp) l
    show ((g s).allowed l && allowedProg ((g s).levels l) (prog.map g)) = (s.allowed l && allowedProg (s.levels l) prog)
    rw [h.1, h.2, ih fun s h => hg s (List.mem_cons_of_mem _ h)]

theorem rename_allowed (f : Nat → Nat) (s : PStmt S R) (l : Nat → Nat) : (s.rename f).allowed l = s.allowed l ∧ (s.rename f).levels l = s.levels l := by
  cases s with
  | word i w x =>
    refine ⟨rfl, ?_⟩
    show setReg l i ((w.map f).length + 1) = _
    rw [List.length_map]
    rfl
  | terms i items =>
    refine ⟨rfl, ?_⟩
    show setReg l i (itemLevels (items.map fun e => (e.1.map f, e.2))) = _
    rw [itemLevels_map _ (fun w => List.length_map _) items]
    rfl
  | _ => exact ⟨rfl, rfl⟩

variable (C N)

/-- C112: replacing the letters of a program, different letters by different ones, possibly of a larger alphabet, replaces the letters of its results and changes nothing
else, bit for bit.  In particular the number of letters of the alphabet has no influence on the coefficients of words in the letters that are used. -/
theorem C112_letters (M : Nat) (h2 : 2 ≤ N) (hN : N < 2 ^ 32) (h2' : 2 ≤ M) (hM : M < 2 ^ 32) (D : Nat) (hm : D ≤ maxDepth N) (hm' : D ≤ maxDepth M)
    (hp : N ^ (D + 1) < 2 ^ 64) (hp' : M ^ (D + 1) < 2 ^ 64) (f : Nat → Nat) (hf : ∀ x y, 1 ≤ x → x ≤ N → 1 ≤ y → y ≤ N → f x = f y → x = y)
    (hfM : ∀ x, 1 ≤ x → x ≤ N → 1 ≤ f x ∧ f x ≤ M) (prog : List (PStmt S R)) (hs : ∀ s ∈ prog, s.Within N D) :
    (runProg C p N prog = .ub ∧ runProg C p M (prog.map (PStmt.rename f)) = .ub) ∨
    ∃ σ σ', runProg C p N prog = .ok σ ∧ runProg C p M (prog.map (PStmt.rename f)) = .ok σ' ∧
      ∀ i w k k', ValidWord N w → w.length ≤ maxDepth N → w.length ≤ maxDepth M → fromLetters p N w = .ok k → fromLetters p M (w.map f) = .ok k' →
        (DenseAlg.ops C p M).get (σ' i) k' = (DenseAlg.ops C p N).get (σ i) k := by
  have hv : ∀ w, ValidWord N w → ValidWord M (w.map f) := by
    intro w hw x hx
    obtain ⟨y, hy, rfl⟩ := List.mem_map.1 hx
    exact hfM y (hw y hy).1 (hw y hy).2
  have hs' : ∀ s ∈ prog.map (PStmt.rename f), s.Within M D := by
    intro s hmem
    obtain ⟨s, h, rfl⟩ := List.mem_map.1 hmem
    have hs := hs s h
    cases s with
    | word i w x => exact ⟨hv w hs.1, (List.length_map f).trans_le hs.2⟩
    | modify i w g => exact ⟨hv w hs.1, (List.length_map f).trans_le hs.2⟩
    | erase i w => exact ⟨hv w hs.1, (List.length_map f).trans_le hs.2⟩
    | terms i items =>
      intro e he
      obtain ⟨e, he', rfl⟩ := List.mem_map.1 he
      exact ⟨hv _ (hs e he').1, (List.length_map f).trans_le (hs e he').2⟩
    | _ => exact hs
  have ha : allowedProg (fun _ => 0) (prog.map (PStmt.rename f)) = allowedProg (fun _ => 0) prog := allowed_same _ prog (fun s _ => rename_allowed f s) _
  cases hc : allowedProg (fun _ => 0) prog with
  | false => exact .inl ⟨(C65_unsafe C p N h2 hN D hm hp prog hs).2 hc, (C65_unsafe C p M h2' hM D hm' hp' _ hs').2 (ha.trans hc)⟩
  | true =>
    obtain ⟨σ, e1, g1⟩ := C65_programs_partial C p N h2 hN D hm hp prog hs hc
    obtain ⟨σ', e2, g2⟩ := C65_programs_partial C p M h2' hM D hm' hp' _ hs' (ha.trans hc)
    refine .inr ⟨σ, σ', e1, e2, fun i w k k' hw hl hl' hk hk' => ?_⟩
    rw [(g1 i).2 w k hw hl hk, (g2 i).2 _ k' (hv w hw) ((List.length_map f).trans_le hl') hk',
      (renamed_prog hf prog hs emptyRegs emptyRegs (fun _ => ⟨rfl, fun _ _ => rfl⟩) i).2 w hw]

/-! ## Directions -/

theorem backwards_allowed (s : PStmt S R) (l : Nat → Nat) : s.backwards.allowed l = s.allowed l ∧ s.backwards.levels l = s.levels l := by
  have hp : ∀ D a b, prodDeg D b a = prodDeg D a b := fun D a b => by unfold prodDeg; omega
  cases s with
  | word i w x =>
    refine ⟨rfl, ?_⟩
    show setReg l i (w.reverse.length + 1) = _
    rw [List.length_reverse]
    rfl
  | terms i items =>
    refine ⟨rfl, ?_⟩
    show setReg l i (itemLevels (items.map fun e => (e.1.reverse, e.2))) = _
    rw [itemLevels_map List.reverse (fun w => List.length_reverse) items]
    rfl
  | mul i j k D | comm i j k D | addMul i j k D | subMul i j k D =>
    simp only [PStmt.backwards, PStmt.allowed, PStmt.levels, hp D (l j) (l k)]
    refine ⟨decide_eq_decide.2 ?_, trivial⟩
    tauto
  | _ => exact ⟨rfl, rfl⟩

theorem cutProd_reverse [CommRing S] (D : Nat) (f g f' g' : List Nat → S) (hf : ∀ w, f' w = f w.reverse) (hg : ∀ w, g' w = g w.reverse) (w : List Nat) :
    cutProd D g' f' w = cutProd D f g w.reverse := by
  unfold cutProd
  rw [conv_reverse, List.length_reverse, funext hf, funext hg]

theorem backwards_value [CommRing S] (q : S → R → S) (l : Nat → Nat) (s : PStmt S R) (ρ ρ' : Nat → List Nat → S) (h : ∀ i w, ρ' i w = ρ i w.reverse) :
    ∀ i w, s.backwards.fullValue q l ρ' i w = s.fullValue q l ρ i w.reverse := by
  have hset : ∀ {α α' : Nat → List Nat → S} {v v' : List Nat → S} (i : Nat), (∀ i w, α' i w = α i w.reverse) → (∀ w, v' w = v w.reverse) →
      ∀ j w, setReg α' i v' j w = setReg α i v j w.reverse := by
    intro α α' v v' i hα hv j w
    unfold setReg
    split_ifs
    · exact hv w
    · exact hα j w
  have hrev : ∀ u w : List Nat, u = w.reverse ↔ u.reverse = w := fun u w => ⟨fun e => by rw [e, List.reverse_reverse], fun e => by rw [← e, List.reverse_reverse]⟩
  have hcut : ∀ D j k w, cutProd D (ρ' k) (ρ' j) w = cutProd D (ρ j) (ρ k) w.reverse := fun D j k w => cutProd_reverse D _ _ _ _ (h j) (h k) w
  cases s with
  | zero i => exact hset i h fun _ => rfl
  | clear i => exact hset i h fun _ => rfl
  | word i w x => exact hset i h fun u => by simp only [hrev]
  | terms i items =>
    refine hset i h fun u => ?_
    show (itemValues (items.map fun e => (e.1.reverse, e.2)) u).sum = (itemValues items u.reverse).sum
    rw [← itemValues_map List.reverse items u.reverse fun e _ => List.reverse_inj, List.reverse_reverse]
  | copy i j => exact hset i h (h j)
  | swap i j => exact hset j (hset i h (h j)) (h i)
  | modify i w g => exact hset i h fun u => by simp only [hrev, h, List.length_reverse]
  | erase i w => exact hset i h fun u => by simp only [hrev, h]
  | neg i => exact hset i h fun u => by rw [h]
  | add i j => exact hset i h fun u => by rw [h, h]
  | sub i j => exact hset i h fun u => by rw [h, h]
  | scale i x => exact hset i h fun u => by rw [h]
  | div i r => exact hset i h fun u => by rw [h]
  | mul i j k D => exact hset i h fun u => hcut D j k u
  | comm i j k D => exact hset i h fun u => by rw [hcut, hcut]
  | addMul i j k D => exact hset i h fun u => by rw [hcut, h]
  | subMul i j k D => exact hset i h fun u => by rw [hcut, h]

theorem backwards_prog [CommRing S] (q : S → R → S) (prog : List (PStmt S R)) (l : Nat → Nat) (ρ ρ' : Nat → List Nat → S) (h : ∀ i w, ρ' i w = ρ i w.reverse) :
    ∀ i w, fullProg q l ρ' (prog.map PStmt.backwards) i w = fullProg q l ρ prog i w.reverse := by
  induction prog generalizing l ρ ρ' with
  | nil => exact h
  | cons s prog ih =>
    show ∀ i w, fullProg q (s.backwards.levels l) (s.backwards.fullValue q l ρ') (prog.map PStmt.backwards) i w = _
    rw [(backwards_allowed s l).2]
    exact ih _ _ _ (backwards_value q l s ρ ρ' h)

/-- C112: with exact coefficients, reading the words of a program backwards and exchanging the factors of its products reverses the words of its results. -/
theorem C112_backwards [CommRing S] {q : S → R → S} (hC : C.IsRing) (hq : ∀ x r, C.div x r = q x r) (h0 : ∀ r, q 0 r = 0) (h2 : 2 ≤ N) (hN : N < 2 ^ 32) (D : Nat)
    (hm : D ≤ maxDepth N) (hp : N ^ (D + 1) < 2 ^ 64) (prog : List (PStmt S R)) (hs : ∀ s ∈ prog, s.Within N D) :
    (runProg C p N prog = .ub ∧ runProg C p N (prog.map PStmt.backwards) = .ub) ∨
    ∃ σ σ', runProg C p N prog = .ok σ ∧ runProg C p N (prog.map PStmt.backwards) = .ok σ' ∧
      ∀ i w k k', ValidWord N w → w.length ≤ maxDepth N → fromLetters p N w = .ok k → fromLetters p N w.reverse = .ok k' →
        ∃ x y, (DenseAlg.ops C p N).get (σ i) k = .ok x ∧ (DenseAlg.ops C p N).get (σ' i) k' = .ok y ∧ y.getD 0 = x.getD 0 := by
  have hv : ∀ w, ValidWord N w → ValidWord N w.reverse := fun w hw x hx => hw x (List.mem_reverse.1 hx)
  have hs' : ∀ s ∈ prog.map PStmt.backwards, s.Within N D := by
    intro s hmem
    obtain ⟨s, h, rfl⟩ := List.mem_map.1 hmem
    have hs := hs s h
    cases s with
    | word i w x => exact ⟨hv w hs.1, List.length_reverse.trans_le hs.2⟩
    | modify i w g => exact ⟨hv w hs.1, List.length_reverse.trans_le hs.2⟩
    | erase i w => exact ⟨hv w hs.1, List.length_reverse.trans_le hs.2⟩
    | terms i items =>
      intro e he
      obtain ⟨e, he', rfl⟩ := List.mem_map.1 he
      exact ⟨hv _ (hs e he').1, List.length_reverse.trans_le (hs e he').2⟩
    | _ => exact hs
  have ha : allowedProg (fun _ => 0) (prog.map PStmt.backwards) = allowedProg (fun _ => 0) prog := allowed_same _ prog (fun s _ => backwards_allowed s) _
  cases hc : allowedProg (fun _ => 0) prog with
  | false => exact .inl ⟨(C65_unsafe C p N h2 hN D hm hp prog hs).2 hc, (C65_unsafe C p N h2 hN D hm hp _ hs').2 (ha.trans hc)⟩
  | true =>
    obtain ⟨σ, e1, g1⟩ := C66_all_statements C p N hC hq h0 h2 hN D hm hp prog hs hc
    obtain ⟨σ', e2, g2⟩ := C66_all_statements C p N hC hq h0 h2 hN D hm hp _ hs' (ha.trans hc)
    refine .inr ⟨σ, σ', e1, e2, fun i w k k' hw hl hk hk' => ?_⟩
    obtain ⟨x, x1, x2⟩ := g1 i w k hw hl hk
    obtain ⟨y, y1, y2⟩ := g2 i w.reverse k' (hv w hw) (List.length_reverse.trans_le hl) hk'
    refine ⟨x, y, x1, y1, ?_⟩
    rw [x2, y2, backwards_prog q prog _ (fun _ _ => 0) _ (fun _ _ => rfl), List.reverse_reverse]

end
/-- C112: over floating-point numbers this is false, as the terms of a sum are added in the opposite order: the coefficient of `aa` in
`(2^53 aa + a + 1) (aa + a + 1)`. -/
theorem C112_backwards_rounding (p : Profile) :
    let prog : List (PStmt Fl Fl) := [.word 0 [1, 1] (.fin (2 ^ 53)), .word 2 [1] .one, .add 0 2, .word 2 [] .one, .add 0 2,
      .word 1 [1, 1] .one, .word 2 [1] .one, .add 1 2, .word 2 [] .one, .add 1 2, .mul 0 0 1 2]
    readDense .f64 p prog [1, 1] = .ok (some (.fin (2 ^ 53))) ∧ readDense .f64 p (prog.map PStmt.backwards) [1, 1] = .ok (some (.fin (2 ^ 53 + 2))) := by
  cases p <;> exact ⟨by decide +kernel, by decide +kernel⟩

/-! ## Cases that meet the hypotheses -/

theorem roundProg_within : ∀ s ∈ roundProg, s.Within 2 2 := fun s h => (roundProg_ok.1 s h).1

/-- The square of a rounded third plus a letter: truncated at degree 1 its first-degree part is computed alike. -/
example (p : Profile) := C112_truncation (floatCoeff .f64) p 2 (by decide) (by decide) 2 (by decide +kernel) (by decide) roundProg roundProg_within 1 (by decide)

example (p : Profile) : readDense .f64 p [.word 1 [1] .one, .word 2 [] (.fin 2), .add 1 2, .mul 0 1 1 2] [1] = .ok (some (.fin 4)) ∧
    readDense .f64 p ([.word 1 [1] .one, .word 2 [] (.fin 2), .add 1 2, .mul 0 1 1 2].map (PStmt.cut 1)) [1] = .ok (some (.fin 4)) ∧
    readDense .f64 p [.word 1 [1] .one, .word 2 [] (.fin 2), .add 1 2, .mul 0 1 1 2] [1, 1] = .ok (some (.fin 1)) ∧
    readDense .f64 p ([.word 1 [1] .one, .word 2 [] (.fin 2), .add 1 2, .mul 0 1 1 2].map (PStmt.cut 1)) [1, 1] = .ok none := by
  cases p <;> decide +kernel

/-- The letters `a`, `b` of two become `c`, `a` of three. -/
example (p : Profile) := C112_letters (floatCoeff .f64) p 2 3 (by decide) (by decide) (by decide) (by decide) 2 (by decide +kernel) (by decide +kernel) (by decide) (by decide)
  (fun x => if x = 1 then 3 else 1) (by intro x y hx hx' hy hy'; split_ifs <;> omega) (by intro x hx hx'; split_ifs <;> omega) roundProg roundProg_within

example : (roundProg.map (PStmt.rename fun x => if x = 1 then 3 else 1)).map (fun s => match s with | .word _ w _ => w | _ => []) = [[3], [], [1], [], []] := by decide

example (p : Profile) := C112_backwards (fieldCoeff Rat) p 2 (q := (· / ·)) (fieldCoeff_isField Rat).toIsRing (fun _ _ => rfl) zero_div (by omega) (by omega) 2
  (by decide +kernel) (by decide) [.word 0 [1] 1, .word 1 [2, 1] 3, .div 1 2, .mul 2 0 1 2, .comm 3 1 0 2] (by
    intro s hs
    simp only [List.mem_cons, List.not_mem_nil, or_false] at hs
    rcases hs with rfl | rfl | rfl | rfl | rfl
    · exact ⟨by simp [ValidWord], by decide⟩
    · exact ⟨by simp [ValidWord], by decide⟩
    · trivial
    · exact Nat.le_refl 2
    · exact Nat.le_refl 2)

end RA
