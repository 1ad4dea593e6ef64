import Verif.Props.FloatProgError
import Verif.Props.SparseChecked

/-!
# Linear programs on dense and on sparse vectors of floating-point numbers (C111)
-/

namespace RA
open Spec TensorKey TensorBasis DenseAlg Fl

section
variable {S R : Type} {C : Coeff S R} {N : Nat}

/-- A relation between coefficients that the operations of linear programs do not see through: it does not matter whether a zero is stored, added or negated. -/
structure Blind (C : Coeff S R) (E : S → S → Prop) : Prop where
  trans : ∀ x y z, E x y → E y z → E x z
  symm : ∀ x y, E x y → E y x
  zero : E C.zero C.zero
  isZero : ∀ x y, E x y → C.eq y C.zero = true → E x C.zero
  neg : ∀ x y, E x y → E (C.uminus x) (C.uminus y)
  neg_zero : E (C.uminus C.zero) C.zero
  add : ∀ x x' y y', E x x' → E y y' → E (C.add x y) (C.add x' y')
  sub : ∀ x x' y y', E x x' → E y y' → E (C.sub x y) (C.sub x' y')
  add_zero : ∀ x y, E x y → E (C.add x C.zero) y
  sub_zero : ∀ x y, E x y → E (C.sub x C.zero) y
  zero_add : ∀ x y, E x y → E (C.add C.zero x) y
  zero_sub : ∀ x y, E x y → E (C.sub C.zero x) (C.uminus y)

/-- The statements that both kinds of vectors support: those of C67 and division. -/
def LinearDiv : PStmt S R → Prop
  | .div .. => True
  | s => Linear s

/-- The scalars and divisors of a statement respect the relation; `τ` gives the contents of the dense registers. -/
def RespectsIn (C : Coeff S R) (E : S → S → Prop) (N : Nat) (τ : Nat → TReg S) : PStmt S R → Prop
  | .word _ _ s => E s s
  | .terms _ items => ∀ e ∈ items, E e.2 e.2
  | .scale i s => if C.eq s C.zero then ∀ w, ValidWord N w → w.length ≤ maxDepth N → E ((((τ i).coef w).map fun x => C.mul x s).getD C.zero) C.zero
      else (∀ x y, E x y → E (C.mul x s) (C.mul y s)) ∧ E (C.mul C.zero s) C.zero
  | .div _ r => (∀ x y, E x y → E (C.div x r) (C.div y r)) ∧ E (C.div C.zero r) C.zero
  | _ => True

/-- The sparse vector has the coefficients of the dense register, up to the relation. -/
def Matches (C : Coeff S R) (E : S → S → Prop) (N : Nat) (v : Sparse TensorKey S) (t : TReg S) : Prop :=
  v.WF ∧ ∀ w, ValidWord N w → w.length ≤ maxDepth N → E ((t.coef w).getD C.zero) (v.coef C (keyOf N w))

variable {E : S → S → Prop}

theorem matches_set {σ : Nat → Sparse TensorKey S} {τ : Nat → TReg S} {v : Sparse TensorKey S} {t : TReg S}
    (h : ∀ i, Matches C E N (σ i) (τ i)) (i : Nat) (hv : Matches C E N v t) : ∀ j, Matches C E N (setReg σ i v j) (setReg τ i t j) := by
  intro j
  unfold setReg
  split_ifs
  · exact hv
  · exact h j

/-- One entry of a sum or difference of dense vectors, and of sparse ones. -/
theorem merge_matches {f : S → S → S} {g : S → S} (hB : Blind C E) (hf : ∀ x x' y y', E x x' → E y y' → E (f x y) (f x' y')) (hf0 : ∀ x y, E x y → E (f x C.zero) y)
    (h0f : ∀ x y, E x y → E (f C.zero x) (g y)) (x y : Option S) (a b : Option S) (hx : E (x.getD C.zero) (a.getD C.zero))
    (hy : E (y.getD C.zero) (b.getD C.zero)) :
    E ((mergeEntry f C.zero x y).getD C.zero) ((Spec.sparseEntry f g (fun v => C.eq v C.zero) a b).getD C.zero) := by
  -- the dense entry is `f x y` with missing entries read as zero
  have hd : E ((mergeEntry f C.zero x y).getD C.zero) (f (a.getD C.zero) (b.getD C.zero)) := by
    cases x with
    | none =>
      cases y with
      | none => exact hB.symm _ _ (hB.trans _ _ _ (hf _ _ _ _ (hB.symm _ _ hx) (hB.symm _ _ hy)) (hf0 _ _ hB.zero))
      | some y => exact hf _ _ _ _ hx hy
    | some x =>
      cases y with
      | none => exact hB.symm _ _ (hB.trans _ _ _ (hf _ _ _ _ (hB.symm _ _ hx) (hB.symm _ _ hy)) (hf0 _ _ (hB.trans _ _ _ hx (hB.symm _ _ hx))))
      | some y => exact hf _ _ _ _ hx hy
  have haa : E (a.getD C.zero) (a.getD C.zero) := hB.trans _ _ _ (hB.symm _ _ hx) hx
  have hbb : E (b.getD C.zero) (b.getD C.zero) := hB.trans _ _ _ (hB.symm _ _ hy) hy
  refine hB.trans _ _ _ hd ?_
  cases b with
  | none =>
    have : Spec.sparseEntry f g (fun v => C.eq v C.zero) a none = a := by cases a <;> rfl
    rw [this]
    exact hf0 _ _ haa
  | some v =>
    cases a with
    | none => exact h0f _ _ hbb
    | some i =>
      show E (f i v) ((if C.eq (f i v) C.zero then none else some (f i v)).getD C.zero)
      split_ifs with hz
      · exact hB.isZero _ _ (hf _ _ _ _ haa hbb) hz
      · exact hf _ _ _ _ haa hbb

/-- One statement. -/
theorem matches_step (p : Profile) (hB : Blind C E) (h1 : 1 ≤ N) (hN : N < 2 ^ 32) {D : Nat} (hm : D ≤ maxDepth N) (s : PStmt S R)
    (hs : s.Within N D) (hlin : LinearDiv s) {σ : Nat → Sparse TensorKey S} {τ : Nat → TReg S} (hr : RespectsIn C E N τ s) (h : ∀ i, Matches C E N (σ i) (τ i)) :
    ∃ σ', runSparseStmt C p N σ s = .ok σ' ∧ ∀ i, Matches C E N (σ' i) (s.eval C τ i) := by
  have keyEq : ∀ u w, ValidWord N u → ValidWord N w → u.length ≤ maxDepth N → w.length ≤ maxDepth N → (keyOf N u = keyOf N w ↔ u = w) :=
    fun u w hu hw hlu hlw => C02_key_eq_iff p N h1 hN u w hu hw hlu hlw _ _ (fromLetters_ok p N h1 hN u hu hlu) (fromLetters_ok p N h1 hN w hw hlw)
  have hnew : Matches C E N (Sparse.new : Sparse TensorKey S) TReg.empty := ⟨List.nodup_nil, fun _ _ _ => hB.zero⟩
  have comb : ∀ i j : Nat, ∃ ra rs, (Sparse.ops C).addInplace (σ i) (σ j) = .ok ra ∧ (Sparse.ops C).subInplace (σ i) (σ j) = .ok rs ∧
      Matches C E N ra ⟨max (τ i).levels (τ j).levels, fun u => mergeEntry C.add C.zero ((τ i).coef u) ((τ j).coef u)⟩ ∧
      Matches C E N rs ⟨max (τ i).levels (τ j).levels, fun u => mergeEntry C.sub C.zero ((τ i).coef u) ((τ j).coef u)⟩ := by
    intro i j
    obtain ⟨ra, rs, a1, a2, a3⟩ := C26_add_sub C (σ i) (σ j) (h j).1
    refine ⟨ra, rs, a1, a2, ⟨?_, fun w hw hl => ?_⟩, ⟨?_, fun w hw hl => ?_⟩⟩
    · cases a1
      exact Sparse.noDup_foldl _ (fun m e hm => Sparse.noDup_addStep C hm e) _ _ (h i).1
    · have h3 := (a3 (keyOf N w) _ _ rfl rfl).1
      have h3 : Res.ok (Sparse.find ra.entries (keyOf N w)) = _ := h3
      injection h3 with h3
      unfold Sparse.coef
      rw [h3]
      exact merge_matches hB hB.add hB.add_zero hB.zero_add _ _ _ _ ((h i).2 w hw hl) ((h j).2 w hw hl)
    · cases a2
      exact Sparse.noDup_foldl _ (fun m e hm => Sparse.noDup_subStep C hm e) _ _ (h i).1
    · have h3 := (a3 (keyOf N w) _ _ rfl rfl).2
      have h3 : Res.ok (Sparse.find rs.entries (keyOf N w)) = _ := h3
      injection h3 with h3
      unfold Sparse.coef
      rw [h3]
      exact merge_matches hB hB.sub hB.sub_zero hB.zero_sub _ _ _ _ ((h i).2 w hw hl) ((h j).2 w hw hl)
  have each : ∀ (i : Nat) (g : S → S), (∀ x y, E x y → E (g x) (g y)) → E (g C.zero) C.zero →
      Matches C E N ⟨(σ i).entries.map fun e => (e.1, g e.2)⟩ ⟨(τ i).levels, fun u => ((τ i).coef u).map g⟩ := by
    intro i g hg hg0
    refine ⟨Sparse.noDup_map (h i).1 g, fun w hw hl => ?_⟩
    have h3 := (h i).2 w hw hl
    unfold Sparse.coef at h3 ⊢
    dsimp only
    rw [Sparse.find_map]
    cases hx : (τ i).coef w with
    | none =>
      rw [hx] at h3
      cases hy : Sparse.find (σ i).entries (keyOf N w) with
      | none => exact hB.zero
      | some y =>
        rw [hy] at h3
        exact hB.trans _ _ _ (hB.symm _ _ hg0) (hg _ _ h3)
    | some x =>
      rw [hx] at h3
      cases hy : Sparse.find (σ i).entries (keyOf N w) with
      | none =>
        rw [hy] at h3
        exact hB.trans _ _ _ (hg _ _ h3) hg0
      | some y =>
        rw [hy] at h3
        exact hg _ _ h3
  cases s with
  | zero i => exact ⟨_, rfl, matches_set h i hnew⟩
  | word i w x =>
    have hk := fromLetters_ok p N h1 hN w hs.1 (hs.2.trans hm)
    refine ⟨setReg σ i ⟨[(keyOf N w, x)]⟩, ?_, matches_set h i ⟨by simp [Sparse.WF], fun u hu hl => ?_⟩⟩
    · show (fromLetters p N w >>= fun k => Sparse.fromKeyScalar k x >>= fun v => pure (setReg σ i v)) = _
      rw [hk]
      rfl
    · have := keyEq u w hu hs.1 hl (hs.2.trans hm)
      unfold Sparse.coef
      rw [Sparse.find_cons]
      dsimp only
      by_cases he : u = w
      · subst he
        simp only [if_true, Option.getD_some]
        exact hr
      · rw [if_neg he, if_neg (c := keyOf N w = keyOf N u) fun e => he (this.1 e.symm), Sparse.find_nil]
        split_ifs <;> exact hB.zero
  | terms i items =>
    have hmapM : items.mapM (fun e => (fun k => (k, e.2)) <$> fromLetters p N e.1) = .ok (items.map fun e => (keyOf N e.1, e.2)) := by
      have hs' : ∀ e ∈ items, ValidWord N e.1 ∧ e.1.length ≤ D := hs
      clear hs hlin hr
      induction items with
      | nil => rfl
      | cons e es ih =>
        rw [List.mapM_cons, fromLetters_ok p N h1 hN e.1 (hs' e (by simp)).1 ((hs' e (by simp)).2.trans hm), ih fun e' h => hs' e' (by simp [h])]
        rfl
    obtain ⟨r, r1, r2, r3⟩ := C29_sparse_from_iterator C (items.map fun e => (keyOf N e.1, e.2))
    refine ⟨_, ?_, matches_set h i (v := r) ⟨r2, fun w hw hl => ?_⟩⟩
    · show (items.mapM (fun e => (fun k => (k, e.2)) <$> fromLetters p N e.1) >>= fun keys =>
        (Sparse.ops C).fromIterator keys >>= fun v => pure (setReg σ i v)) = _
      rw [hmapM, Res.bind_ok, r1]
      rfl
    · have h3 : Res.ok (Sparse.find r.entries (keyOf N w)) = _ := r3 (keyOf N w)
      injection h3 with h3
      unfold Sparse.coef
      rw [h3, List.filter_map, List.map_map]
      have hf : items.filter ((fun e : TensorKey × S => decide (e.1 = keyOf N w)) ∘ fun e => (keyOf N e.1, e.2)) =
          items.filter fun e => decide (e.1 = w) := by
        apply List.filter_congr
        intro e he
        simp only [Function.comp, decide_eq_decide]
        exact keyEq e.1 w (hs e he).1 hw ((hs e he).2.trans hm) hl
      rw [hf]
      show E (Option.getD (if w.length < itemLevels items then some ((itemValues items w).foldl C.add C.zero) else none) C.zero) ((itemValues items w).getLast?.getD C.zero)
      have hnd : (items.map (·.1)).Nodup := hlin
      rcases itemValues_once items hnd w with h4 | ⟨x, hx, h4⟩
      · rw [h4]
        split_ifs <;> exact hB.zero
      · rw [h4, if_pos (show w.length < itemLevels items from (itemLevels_spec items (List.ne_nil_of_mem hx)).1 _ hx)]
        exact hB.zero_add _ _ (hr _ hx)
  | clear i => exact ⟨_, rfl, matches_set h i hnew⟩
  | neg i => exact ⟨_, rfl, matches_set h i (each i C.uminus hB.neg hB.neg_zero)⟩
  | add i j =>
    obtain ⟨ra, rs, a1, a2, a3, a4⟩ := comb i j
    refine ⟨_, ?_, matches_set h i a3⟩
    show ((Sparse.ops C).addInplace (σ i) (σ j) >>= fun v => pure (setReg σ i v)) = _
    rw [a1]
    rfl
  | sub i j =>
    obtain ⟨ra, rs, a1, a2, a3, a4⟩ := comb i j
    refine ⟨_, ?_, matches_set h i a4⟩
    show ((Sparse.ops C).subInplace (σ i) (σ j) >>= fun v => pure (setReg σ i v)) = _
    rw [a2]
    rfl
  | scale i x =>
    show ∃ σ', (Sparse.scalarLmultiplyInplace C (σ i) x >>= fun v => pure (setReg σ i v)) = .ok σ' ∧ _
    unfold Sparse.scalarLmultiplyInplace
    have hr : if C.eq x C.zero then _ else _ := hr
    by_cases h0 : C.eq x C.zero = true
    · rw [if_pos h0] at hr ⊢
      exact ⟨_, rfl, matches_set h i ⟨List.nodup_nil, hr⟩⟩
    · rw [if_neg h0] at hr ⊢
      exact ⟨_, rfl, matches_set h i (each i (fun y => C.mul y x) hr.1 hr.2)⟩
  | div i r => exact ⟨_, rfl, matches_set h i (each i (fun y => C.div y r) hr.1 hr.2)⟩
  | copy _ _ | swap _ _ | modify _ _ _ | erase _ _ | mul _ _ _ _ | comm _ _ _ _ | addMul _ _ _ _ | subMul _ _ _ _ => exact absurd hlin id

theorem linearDiv_allowed (prog : List (PStmt S R)) (hl : ∀ s ∈ prog, LinearDiv s) (l : Nat → Nat) : allowedProg l prog = true := by
  induction prog generalizing l with
  | nil => rfl
  | cons s prog ih =>
    unfold allowedProg
    rw [ih (fun s h => hl s (List.mem_cons_of_mem _ h)), Bool.and_true]
    have := hl s (by simp)
    cases s <;> first | rfl | exact absurd this id

/-- Programs. -/
theorem matches_prog (p : Profile) (hB : Blind C E) (h1 : 1 ≤ N) (hN : N < 2 ^ 32) {D : Nat} (hm : D ≤ maxDepth N) (prog : List (PStmt S R))
    (hs : ∀ s ∈ prog, s.Within N D ∧ LinearDiv s) (hr : ∀ pre s, pre ++ [s] <+: prog → RespectsIn C E N (evalProg C emptyRegs pre) s) :
    ∃ τ, runSparseProg C p N prog = .ok τ ∧ ∀ i, Matches C E N (τ i) (evalProg C emptyRegs prog i) := by
  induction prog using List.reverseRecOn with
  | nil => exact ⟨_, rfl, fun _ => ⟨List.nodup_nil, fun _ _ _ => hB.zero⟩⟩
  | append_singleton pre s ih =>
    obtain ⟨τ, e1, m1⟩ := ih (fun s h => hs s (by simp [h])) fun pre' s' h => hr pre' s' (h.trans (List.prefix_append _ _))
    obtain ⟨τ', e2, m2⟩ := matches_step p hB h1 hN hm s (hs s (by simp)).1 (hs s (by simp)).2 (hr pre s (List.prefix_refl _)) m1
    refine ⟨τ', ?_, fun i => ?_⟩
    · unfold runSparseProg at e1 ⊢
      rw [List.foldlM_append, e1, Res.bind_ok, List.foldlM_cons, e2]
      rfl
    · have : evalProg C emptyRegs (pre ++ [s]) = s.eval C (evalProg C emptyRegs pre) := by
        unfold evalProg
        rw [List.foldl_append]
        rfl
      rw [this]
      exact m2 i

/-- C111, for any coefficient type: a linear program gives the same coefficients on dense and on sparse vectors, up to a relation that does not see whether a zero is
stored. -/
theorem C111_general (p : Profile) (hB : Blind C E) (h2 : 2 ≤ N) (hN : N < 2 ^ 32) (D : Nat) (hm : D ≤ maxDepth N) (hp : N ^ (D + 1) < 2 ^ 64) (prog : List (PStmt S R))
    (hs : ∀ s ∈ prog, s.Within N D ∧ LinearDiv s) (hr : ∀ pre s, pre ++ [s] <+: prog → RespectsIn C E N (evalProg C emptyRegs pre) s) :
    ∃ σ τ, runProg C p N prog = .ok σ ∧ runSparseProg C p N prog = .ok τ ∧ ∀ i w k, ValidWord N w → w.length ≤ maxDepth N → fromLetters p N w = .ok k →
      ∃ x y, (DenseAlg.ops C p N).get (σ i) k = .ok x ∧ (Sparse.ops C).get (τ i) k = .ok y ∧ E (x.getD C.zero) (y.getD C.zero) := by
  obtain ⟨σ, e1, g1⟩ := C65_programs_partial C p N h2 hN D hm hp prog (fun s h => (hs s h).1) (linearDiv_allowed prog (fun s h => (hs s h).2) _)
  obtain ⟨τ, e2, g2⟩ := matches_prog p hB (by omega) hN hm prog hs hr
  refine ⟨σ, τ, e1, e2, fun i w k hw hl hk => ⟨_, _, (g1 i).2 w k hw hl hk, rfl, ?_⟩⟩
  rw [fromLetters_ok p N (by omega) hN w hw hl] at hk
  cases hk
  exact (g2 i).2 w hw hl

end

/-! ## Floating-point numbers -/

/-- Equal, or both zero. -/
def SameUpToZero (x y : Fl) : Prop := x = y ∨ ∃ s t, x = .zero s ∧ y = .zero t

/-- The relation for numbers of a type. -/
def FlSame (F : FloatFmt) (x y : Fl) : Prop := x.Valid F ∧ y.Valid F ∧ SameUpToZero x y

section
variable {F : FloatFmt}

theorem sameUpToZero_add_zero (hok : Fl.Ok F) (x : Fl) (hx : x.Valid F) (s : Bool) : SameUpToZero (Fl.add F x (.zero s)) x ∧ SameUpToZero (Fl.add F (.zero s) x) x := by
  cases x with
  | nan => exact ⟨.inl rfl, .inl rfl⟩
  | inf t => exact ⟨.inl rfl, .inl rfl⟩
  | zero t => exact ⟨.inr ⟨_, _, rfl, rfl⟩, .inr ⟨_, _, rfl, rfl⟩⟩
  | fin q =>
    refine ⟨.inl ?_, .inl ?_⟩
    · show Fl.round F false (q + 0) = _
      rw [add_zero, round_num F hok _ q hx.1 hx.2]
    · show Fl.round F false (0 + q) = _
      rw [zero_add, round_num F hok _ q hx.1 hx.2]

theorem SameUpToZero.trans {x y z : Fl} (h : SameUpToZero x y) (h' : SameUpToZero y z) : SameUpToZero x z := by
  rcases h with rfl | ⟨s, t, rfl, rfl⟩
  · exact h'
  · rcases h' with rfl | ⟨s', t', e, rfl⟩
    · exact .inr ⟨_, _, rfl, rfl⟩
    · exact .inr ⟨_, _, rfl, rfl⟩

theorem SameUpToZero.symm {x y : Fl} (h : SameUpToZero x y) : SameUpToZero y x := by
  rcases h with rfl | ⟨s, t, rfl, rfl⟩
  · exact .inl rfl
  · exact .inr ⟨_, _, rfl, rfl⟩

theorem SameUpToZero.neg {x y : Fl} (h : SameUpToZero x y) : SameUpToZero x.neg y.neg := by
  rcases h with rfl | ⟨s, t, rfl, rfl⟩
  · exact .inl rfl
  · exact .inr ⟨_, _, rfl, rfl⟩

theorem SameUpToZero.add (hok : Fl.Ok F) {x x' y y' : Fl} (hx : x.Valid F) (hx' : x'.Valid F) (hy : y.Valid F) (hy' : y'.Valid F) (h : SameUpToZero x x')
    (h' : SameUpToZero y y') : SameUpToZero (Fl.add F x y) (Fl.add F x' y') := by
  rcases h with rfl | ⟨s, t, rfl, rfl⟩
  · rcases h' with rfl | ⟨s', t', rfl, rfl⟩
    · exact .inl rfl
    · exact (sameUpToZero_add_zero hok x hx s').1.trans (sameUpToZero_add_zero hok x hx t').1.symm
  · exact (sameUpToZero_add_zero hok y hy s).2.trans (h'.trans (sameUpToZero_add_zero hok y' hy' t).2.symm)

theorem float_blind (hF : F = .f32 ∨ F = .f64) : Blind (floatCoeff F) (FlSame F) := by
  have hok := fmt_ok F hF
  have h0 : Fl.Valid F (.zero false) := trivial
  have ne : ∀ x y, FlSame F x y → FlSame F x.neg y.neg := fun x y h => ⟨neg_valid F x h.1, neg_valid F y h.2.1, h.2.2.neg⟩
  have ad : ∀ x x' y y', FlSame F x x' → FlSame F y y' → FlSame F (Fl.add F x y) (Fl.add F x' y') := fun x x' y y' h h' =>
    ⟨add_valid F hok _ _ h.1 h'.1, add_valid F hok _ _ h.2.1 h'.2.1, h.2.2.add hok h.1 h.2.1 h'.1 h'.2.1 h'.2.2⟩
  have az : ∀ x y, FlSame F x y → ∀ s, FlSame F (Fl.add F x (.zero s)) y ∧ FlSame F (Fl.add F (.zero s) x) y := fun x y h s =>
    ⟨⟨add_valid F hok _ _ h.1 trivial, h.2.1, (sameUpToZero_add_zero hok x h.1 s).1.trans h.2.2⟩,
      ⟨add_valid F hok _ _ trivial h.1, h.2.1, (sameUpToZero_add_zero hok x h.1 s).2.trans h.2.2⟩⟩
  refine ⟨fun x y z h h' => ⟨h.1, h'.2.1, h.2.2.trans h'.2.2⟩, fun x y h => ⟨h.2.1, h.1, h.2.2.symm⟩, ⟨h0, h0, .inl rfl⟩, fun x y h hz => ⟨h.1, h0, h.2.2.trans ?_⟩, ne,
    ⟨trivial, h0, .inr ⟨_, _, rfl, rfl⟩⟩, ad, fun x x' y y' h h' => ad _ _ _ _ h (ne _ _ h'), fun x y h => (az x y h _).1, fun x y h => (az x y h _).1,
    fun x y h => (az x y h _).2, fun x y h => (az _ _ (ne x y h) _).2⟩
  have hz : Fl.eq y (.zero false) = true := hz
  cases y with
  | zero s => exact .inr ⟨_, _, rfl, rfl⟩
  | nan => cases hz
  | inf s => exact absurd hz (by simp [Fl.eq])
  | fin q => exact absurd hz (by simp [Fl.eq])

theorem zero_mul_same (s : Bool) (x : Fl) (hx : x.isFin = true) : SameUpToZero (Fl.mul F (.zero s) x) (.zero false) ∧ SameUpToZero (Fl.mul F x (.zero s)) (.zero false) := by
  cases x with
  | nan => cases hx
  | inf t => cases hx
  | zero t =>
    exact ⟨.inr ⟨_, _, show Fl.round F _ (0 * 0) = .zero _ by rw [mul_zero]; exact if_pos rfl, rfl⟩, .inr ⟨_, _, show Fl.round F _ (0 * 0) = .zero _ by rw [mul_zero]; exact if_pos rfl, rfl⟩⟩
  | fin q =>
    exact ⟨.inr ⟨_, _, show Fl.round F _ (0 * q) = .zero _ by rw [zero_mul]; exact if_pos rfl, rfl⟩, .inr ⟨_, _, show Fl.round F _ (q * 0) = .zero _ by rw [mul_zero]; exact if_pos rfl, rfl⟩⟩

theorem zero_div_same (s : Bool) (x : Fl) (hn : x ≠ .nan) (h0 : ∀ t, x ≠ .zero t) : SameUpToZero (Fl.div F (.zero s) x) (.zero false) := by
  cases x with
  | nan => exact absurd rfl hn
  | inf t => exact .inr ⟨_, _, rfl, rfl⟩
  | zero t => exact absurd rfl (h0 t)
  | fin q => exact .inr ⟨_, _, show Fl.round F _ (0 / q) = .zero _ by rw [zero_div]; exact if_pos rfl, rfl⟩

/-- Scalars are finite, divisors are neither zero nor NaN. -/
def TameScalars : PStmt Fl Fl → Prop
  | .scale _ s => s.isFin = true
  | .div _ r => r ≠ .nan ∧ ∀ t, r ≠ .zero t
  | _ => True

/-- C111: linear programs (with division) over `f32` or `f64` give the same coefficients on dense and on sparse vectors, up to the sign of zeros, if scalars are finite,
divisors are neither zero nor NaN, and whatever is multiplied by zero is finite. -/
theorem C111_agree (p : Profile) (N : Nat) (hF : F = .f32 ∨ F = .f64) (h2 : 2 ≤ N) (hN : N < 2 ^ 32) (D : Nat) (hm : D ≤ maxDepth N) (hp : N ^ (D + 1) < 2 ^ 64)
    (prog : List (PStmt Fl Fl)) (hs : ∀ s ∈ prog, s.Within N D ∧ LinearDiv s ∧ CoeffsIn (Fl.Valid F) (Fl.Valid F) s ∧ TameScalars s)
    (hz : ∀ pre i z, pre ++ [.scale i (.zero z)] <+: prog → ∀ σ, runProg (floatCoeff F) p N pre = .ok σ → ∀ x ∈ (σ i).data, x.isFin = true) :
    ∃ σ τ, runProg (floatCoeff F) p N prog = .ok σ ∧ runSparseProg (floatCoeff F) p N prog = .ok τ ∧
      ∀ i w k, ValidWord N w → w.length ≤ maxDepth N → fromLetters p N w = .ok k →
        ∃ x y, (DenseAlg.ops (floatCoeff F) p N).get (σ i) k = .ok x ∧ (Sparse.ops (floatCoeff F)).get (τ i) k = .ok y ∧
          SameUpToZero (x.getD (.zero false)) (y.getD (.zero false)) := by
  have hok := fmt_ok F hF
  have h0 : Fl.Valid F (.zero false) := trivial
  obtain ⟨σ, τ, e1, e2, h⟩ := C111_general p (float_blind hF) h2 hN D hm hp prog (fun s h => ⟨(hs s h).1, (hs s h).2.1⟩) (fun pre s hpre => by
    have hmem : s ∈ prog := hpre.subset (by simp)
    obtain ⟨_, -, hc, ht⟩ := hs s hmem
    cases s with
    | word i w x => exact ⟨hc, hc, .inl rfl⟩
    | terms i items => exact fun e he => ⟨hc e he, hc e he, .inl rfl⟩
    | scale i x =>
      have ht : x.isFin = true := ht
      show if Fl.eq x (.zero false) then _ else _
      by_cases hx : Fl.eq x (.zero false) = true
      · rw [if_pos hx]
        intro w hw hl
        have hx0 : ∃ z, x = .zero z := by
          cases x with
          | zero z => exact ⟨z, rfl⟩
          | nan => cases hx
          | inf s => cases ht
          | fin q => exact absurd hx (by simp [Fl.eq])
        obtain ⟨z, rfl⟩ := hx0
        have hsub : ∀ s ∈ pre, s ∈ prog := fun s h => hpre.subset (by simp [h])
        obtain ⟨σ, e1, g1⟩ := C65_programs_partial (floatCoeff F) p N h2 hN D hm hp pre (fun s h => (hs s (hsub s h)).1)
          (linearDiv_allowed pre (fun s h => (hs s (hsub s h)).2.1) _)
        have hg := (g1 i).2 w _ hw hl (fromLetters_ok p N (by omega) hN w hw hl)
        rw [C33_get _ p N (by omega) hN _ w hw hl _ (fromLetters_ok p N (by omega) hN w hw hl)] at hg
        injection hg with hg
        rw [← hg]
        unfold stored
        cases hv : (σ i).data[wordIndex N w]? with
        | none => exact ⟨h0, h0, .inl rfl⟩
        | some y =>
          refine ⟨mul_valid F hok _ _, h0, ?_⟩
          exact (zero_mul_same z y (hz pre i z hpre σ e1 y (List.mem_of_getElem? hv))).2
      · rw [if_neg hx]
        refine ⟨fun a b h => ⟨mul_valid F hok _ _, mul_valid F hok _ _, ?_⟩, mul_valid F hok _ _, h0, (zero_mul_same _ _ ht).1⟩
        rcases h.2.2 with rfl | ⟨s, t, rfl, rfl⟩
        · exact .inl rfl
        · exact (zero_mul_same s x ht).1.trans (zero_mul_same t x ht).1.symm
    | div i r =>
      have hv : ∀ a : Fl, a.Valid F → (Fl.div F a r).Valid F := fun a ha => (C50_closed F hF a r ha hc 0).2.2.2.1
      refine ⟨fun a b h => ⟨hv _ h.1, hv _ h.2.1, ?_⟩, hv _ h0, h0, zero_div_same _ r ht.1 ht.2⟩
      rcases h.2.2 with rfl | ⟨s, t, rfl, rfl⟩
      · exact .inl rfl
      · exact (zero_div_same s r ht.1 ht.2).trans (zero_div_same t r ht.1 ht.2).symm
    | _ => trivial)
  exact ⟨σ, τ, e1, e2, fun i w k hw hl hk => by
    obtain ⟨x, y, x1, y1, h3⟩ := h i w k hw hl hk
    exact ⟨x, y, x1, y1, h3.2.2⟩⟩

theorem SameUpToZero.num {x y : Fl} (h : SameUpToZero x y) : y.isFin = x.isFin ∧ y.val = x.val := by
  rcases h with rfl | ⟨s, t, rfl, rfl⟩
  · exact ⟨rfl, rfl⟩
  · exact ⟨rfl, rfl⟩

theorem LinearDiv.noModify {s : PStmt Fl Fl} (h : LinearDiv s) : s.NoModify := by
  cases s <;> trivial

/-- C111: the bounds of C110 on rounding errors hold for sparse vectors as well. -/
theorem C111_accuracy (p : Profile) (N : Nat) (hF : F = .f32 ∨ F = .f64) (h2 : 2 ≤ N) (hN : N < 2 ^ 32) (D : Nat) (hm : D ≤ maxDepth N) (hp : N ^ (D + 1) < 2 ^ 64)
    (prog : List (PStmt Fl Fl)) (hs : ∀ s ∈ prog, s.Within N D ∧ LinearDiv s ∧ CoeffsIn (Fl.Valid F) (Fl.Valid F) s ∧ TameScalars s)
    (hz : ∀ pre i z, pre ++ [.scale i (.zero z)] <+: prog → ∀ σ, runProg (floatCoeff F) p N pre = .ok σ → ∀ x ∈ (σ i).data, x.isFin = true) :
    ∃ τ, runSparseProg (floatCoeff F) p N prog = .ok τ ∧ ∀ i w k, ValidWord N w → w.length ≤ maxDepth N → fromLetters p N w = .ok k →
      ∃ y, (Sparse.ops (floatCoeff F)).get (τ i) k = .ok y ∧
        ((y.getD (.zero false)).isFin = true →
          |(y.getD (.zero false)).val - fullProg (· / ·) (fun _ => 0) (fun _ _ => 0) (prog.map (PStmt.map Fl.val Fl.val)) i w| ≤
            progCoef (sizes (relErr F) (absErr F)) (fun x => |x.val|) Fl.val prog i w - progCoef (sizes 0 0) (fun x => |x.val|) Fl.val prog i w) ∧
        ∀ t, progCoef (cappedSizes (relErr F) (absErr F) (maxNum F)) (fun x => if x.isFin then some |x.val| else none) Fl.val prog i w = some t →
          (y.getD (.zero false)).isFin = true ∧
          |(y.getD (.zero false)).val - fullProg (· / ·) (fun _ => 0) (fun _ _ => 0) (prog.map (PStmt.map Fl.val Fl.val)) i w| ≤
            t - progCoef (sizes 0 0) (fun x => |x.val|) Fl.val prog i w := by
  obtain ⟨σ, τ, e1, e2, h⟩ := C111_agree p N hF h2 hN D hm hp prog hs hz
  have hs' : ∀ s ∈ prog, s.Within N D ∧ s.NoModify ∧ CoeffsIn (Fl.Valid F) (Fl.Valid F) s := fun s h => ⟨(hs s h).1, (hs s h).2.1.noModify, (hs s h).2.2.1⟩
  have ha : allowedProg (fun _ => 0) prog = true := linearDiv_allowed prog (fun s h => (hs s h).2.1) _
  obtain ⟨σ1, f1, g1⟩ := C110_accuracy p N hF h2 hN D hm hp prog hs' ha
  obtain ⟨σ2, f2, g2⟩ := C110_no_overflow p N hF h2 hN D hm hp prog hs' ha
  cases e1.symm.trans f1
  cases e1.symm.trans f2
  refine ⟨τ, e2, fun i w k hw hl hk => ?_⟩
  obtain ⟨x, y, x1, y1, h3⟩ := h i w k hw hl hk
  obtain ⟨n1, n2⟩ := h3.num
  refine ⟨y, y1, fun hf => ?_, fun t ht => ?_⟩
  · obtain ⟨x', x1', h4⟩ := g1 i w k hw hl hk
    cases x1.symm.trans x1'
    rw [n2]
    exact h4 (n1 ▸ hf)
  · obtain ⟨x', x1', h4, h5⟩ := g2 i w k t hw hl hk ht
    cases x1.symm.trans x1'
    rw [n1, n2]
    exact ⟨h4, h5⟩

end

/-! ## The conditions are needed -/

/-- The entry of a word in register 0 of the dense vectors after a program. -/
def readDense (F : FloatFmt) (p : Profile) (prog : List (PStmt Fl Fl)) (w : List Nat) : Res (Option Fl) := do
  let σ ← runProg (floatCoeff F) p 2 prog
  let k ← fromLetters p 2 w
  (DenseAlg.ops (floatCoeff F) p 2).get (σ 0) k

/-- The entry of a word in register 0 of the sparse vectors after a program. -/
def readSparse (F : FloatFmt) (p : Profile) (prog : List (PStmt Fl Fl)) (w : List Nat) : Res (Option Fl) := do
  let τ ← runSparseProg (floatCoeff F) p 2 prog
  let k ← fromLetters p 2 w
  (Sparse.ops (floatCoeff F)).get (τ 0) k

/-- C111: a sum that overflows, multiplied by zero, is NaN in the dense vector; the sparse one is cleared. -/
theorem C111_zero_times_infinity (p : Profile) :
    let prog : List (PStmt Fl Fl) := [.word 0 [1] (.fin (maxNum .f64)), .word 1 [1] (.fin (maxNum .f64)), .add 0 1, .scale 0 (.zero false)]
    readDense .f64 p prog [1] = .ok (some .nan) ∧ readSparse .f64 p prog [1] = .ok none := by
  cases p <;> exact ⟨by decide +kernel, by decide +kernel⟩

/-- C111: multiplied by infinity, the zeros that the dense vector stores become NaN. -/
theorem C111_infinite_scalar (p : Profile) : let prog : List (PStmt Fl Fl) := [.word 0 [1] .one, .scale 0 (.inf false)]
    readDense .f64 p prog [2] = .ok (some .nan) ∧ readSparse .f64 p prog [2] = .ok none := by
  cases p <;> exact ⟨by decide +kernel, by decide +kernel⟩

/-- C111: likewise when divided by zero. -/
theorem C111_zero_divisor (p : Profile) : let prog : List (PStmt Fl Fl) := [.word 0 [1] .one, .div 0 (.zero false)]
    readDense .f64 p prog [2] = .ok (some .nan) ∧ readSparse .f64 p prog [2] = .ok none := by
  cases p <;> exact ⟨by decide +kernel, by decide +kernel⟩

/-- C111: the sign of a zero does differ: the negative of a stored zero is -0, the sparse vector stores nothing. -/
theorem C111_sign_of_zero (p : Profile) : let prog : List (PStmt Fl Fl) := [.word 0 [1] .one, .neg 0]
    readDense .f64 p prog [2] = .ok (some (.zero true)) ∧ readSparse .f64 p prog [2] = .ok none := by
  cases p <;> exact ⟨by decide +kernel, by decide +kernel⟩

/-! ## A case that meets the hypotheses -/

/-- `x1 = -0 (-b)` and `x0 = 3 (a / 3 - b)`, with zeros that are stored. -/
def linearFlProg : List (PStmt Fl Fl) := [.word 1 [2] .one, .neg 1, .scale 1 (.zero true), .word 0 [1] .one, .div 0 (.fin 3), .terms 2 [([2], .one), ([], .zero true)], .sub 0 2, .scale 0 (.fin 3)]

theorem linearFlProg_ok (p : Profile) : (∀ s ∈ linearFlProg, s.Within 2 2 ∧ LinearDiv s ∧ CoeffsIn (Fl.Valid .f64) (Fl.Valid .f64) s ∧ TameScalars s) ∧
    ∀ pre i z, pre ++ [.scale i (.zero z)] <+: linearFlProg → ∀ σ, runProg (floatCoeff .f64) p 2 pre = .ok σ → ∀ x ∈ (σ i).data, x.isFin = true := by
  have h1 : Fl.Valid .f64 .one := (C50_closed .f64 (.inr rfl) .nan .nan trivial trivial 0).2.2.2.2.2.2.2.1
  have h3 : Fl.Valid .f64 (.fin 3) := ⟨by decide, 3, 0, by decide, by decide, by decide, by simp⟩
  refine ⟨fun s hs => ?_, fun pre i z hpre σ hσ => ?_⟩
  · simp only [linearFlProg, List.mem_cons, List.not_mem_nil, or_false] at hs
    rcases hs with rfl | rfl | rfl | rfl | rfl | rfl | rfl | rfl
    · exact ⟨⟨by simp [ValidWord], by decide⟩, trivial, h1, trivial⟩
    · exact ⟨trivial, trivial, trivial, trivial⟩
    · exact ⟨trivial, trivial, trivial, rfl⟩
    · exact ⟨⟨by simp [ValidWord], by decide⟩, trivial, h1, trivial⟩
    · exact ⟨trivial, trivial, h3, by simp, by simp⟩
    · refine ⟨?_, show List.Nodup _ by decide, ?_, trivial⟩
      · intro e he
        simp only [List.mem_cons, List.not_mem_nil, or_false] at he
        rcases he with rfl | rfl <;> simp [ValidWord]
      · intro e he
        simp only [List.mem_cons, List.not_mem_nil, or_false] at he
        rcases he with rfl | rfl
        · exact h1
        · exact trivial
    · exact ⟨trivial, trivial, trivial, trivial⟩
    · exact ⟨trivial, trivial, h3, rfl⟩
  · have hl : pre.length < 8 := by simpa [linearFlProg] using hpre.length_le
    have hlast : linearFlProg[pre.length]? = some (.scale i (.zero z)) := by
      obtain ⟨t, e⟩ := hpre
      rw [← e]
      simp
    have e2 : pre.length = 2 ∧ i = 1 := by
      generalize pre.length = n at hlast hl
      rcases n with _ | _ | _ | _ | _ | _ | _ | _ | n
      all_goals simp [linearFlProg] at hlast
      · exact ⟨rfl, hlast.1.symm⟩
    obtain ⟨e2, rfl⟩ := e2
    have hpre' : pre = linearFlProg.take 2 := by
      have := (List.prefix_append pre [_]).trans hpre
      rw [← e2]
      exact List.prefix_iff_eq_take.1 this
    subst hpre'
    have : (runProg (floatCoeff .f64) p 2 (linearFlProg.take 2) >>= fun σ => (.ok ((σ 1).data.all Fl.isFin) : Res Bool)) = .ok true := by cases p <;> decide +kernel
    rw [hσ] at this
    injection this with this
    exact List.all_eq_true.1 this

example (p : Profile) := C111_agree p 2 (.inr rfl) (by decide) (by decide) 2 (by decide +kernel) (by decide) linearFlProg (linearFlProg_ok p).1 (linearFlProg_ok p).2

/-- The coefficients of `a` and `b` in the sparse register are finite. -/
example : (progCoef (cappedSizes (relErr .f64) (absErr .f64) (maxNum .f64)) (fun x => if x.isFin then some |x.val| else none) Fl.val linearFlProg 0 [1]).isSome = true ∧
    (progCoef (cappedSizes (relErr .f64) (absErr .f64) (maxNum .f64)) (fun x => if x.isFin then some |x.val| else none) Fl.val linearFlProg 0 [2]).isSome = true ∧
    fullProg (· / ·) (fun _ => 0) (fun _ _ => 0) (linearFlProg.map (PStmt.map Fl.val Fl.val)) 0 [1] = 1 := by decide +kernel

example (p : Profile) := C111_accuracy p 2 (.inr rfl) (by decide) (by decide) 2 (by decide +kernel) (by decide) linearFlProg (linearFlProg_ok p).1 (linearFlProg_ok p).2

end RA
