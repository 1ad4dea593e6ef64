import Verif.Props.CheckedProg
import Verif.SpecMass
import Mathlib.Algebra.BigOperators.Ring.Finset
import Mathlib.Algebra.Order.BigOperators.Group.Finset

/-!
# When checked arithmetic returns (C104)
-/

namespace RA
open Spec TensorKey TensorBasis Fallible DenseAlg

/-- The operations return when the sizes of the operands say that the result has size at most `B`. -/
structure FCoeff.Within {S R : Type} (F : FCoeff S R) (size : S → Nat) (B : Nat) : Prop where
  zero : size F.zero = 0
  uminus : ∀ x, size x ≤ B → ∃ z, F.uminus x = .ok z ∧ size z ≤ size x
  mul : ∀ x y, size x * size y ≤ B → ∃ z, F.mul x y = .ok z ∧ size z ≤ size x * size y
  addIn : ∀ x y, size x + size y ≤ B → (F.addIn x y).1 = .ok () ∧ size (F.addIn x y).2 ≤ size x + size y
  subIn : ∀ x y, size x + size y ≤ B → (F.subIn x y).1 = .ok () ∧ size (F.subIn x y).2 ≤ size x + size y
  mulIn : ∀ x y, size x * size y ≤ B → (F.mulIn x y).1 = .ok () ∧ size (F.mulIn x y).2 ≤ size x * size y

section
variable {S R : Type} {F : FCoeff S R} {μ : S → Nat} {B : Nat} (p : Profile) (N : Nat)

/-- Size of the coefficient of a word. -/
def sizeAt (F : FCoeff S R) (μ : S → Nat) (N : Nat) (v : Dense S) (w : List Nat) : Int := (μ ((stored N v w).getD F.zero) : Nat)

theorem loop_all {turn : Nat → Res Unit × S} {n : Nat} {old new : Nat → Option S} {r : Res Unit} (h : Loop turn n old r new)
    (ht : ∀ i, i < n → (turn i).1 = .ok ()) : r = .ok () ∧ ∀ i, new i = if i < n then some (turn i).2 else old i := by
  obtain ⟨j, h1, h2, h3⟩ := h
  have hj : ¬ j < n := fun hj => h1.2.2 hj (ht j hj)
  have : j = n := by have := h1.1; omega
  subst this
  refine ⟨by rw [h2, outcomeAt, if_neg hj], fun i => ?_⟩
  rw [h3]
  by_cases h : i < j
  · rw [if_pos ⟨h.le, h⟩, if_pos h]
  · rw [if_neg fun h' => h h'.2, if_neg h]

/-- The pairs whose words together form `w`, with the sizes of their factors multiplied. -/
def weight (μ : S → Nat) (L : List ((List Nat × List Nat) × (S × S))) (w : List Nat) : Int :=
  ((L.filter fun e => e.1.1 ++ e.1.2 = w).map fun e => (μ e.2.1 : Int) * μ e.2.2).sum

theorem weight_cons (e : (List Nat × List Nat) × (S × S)) (L) (w : List Nat) :
    weight μ (e :: L) w = (if e.1.1 ++ e.1.2 = w then (μ e.2.1 : Int) * μ e.2.2 else 0) + weight μ L w := by
  unfold weight
  by_cases h : e.1.1 ++ e.1.2 = w
  · rw [List.filter_cons_of_pos (by simpa using h), if_pos h]
    simp
  · rw [List.filter_cons_of_neg (by simpa using h), if_neg h]
    simp

theorem weight_nonneg (L) (w : List Nat) : 0 ≤ weight μ L w :=
  List.sum_nonneg (by
    intro x hx
    obtain ⟨e, _, rfl⟩ := List.mem_map.1 hx
    positivity)

theorem runUpdates_within (hF : F.Within μ B) {func : S → Res S} (hf : ∀ x, μ x ≤ B → ∃ z, func x = .ok z ∧ μ z ≤ μ x)
    (cap : List Nat → Int) (L : List ((List Nat × List Nat) × (S × S))) (hcap : ∀ e ∈ L, cap (e.1.1 ++ e.1.2) ≤ B) :
    ∀ f : List Nat → S, (∀ w, (μ (f w) : Int) + weight μ L w ≤ cap w) →
      (runUpdates (addProduct F fun (t : Unit) x => (func x, t)) f () L).1 = .ok () ∧
      ∀ w, (μ ((runUpdates (addProduct F fun (t : Unit) x => (func x, t)) f () L).2.1 w) : Int) ≤ cap w := by
  induction L with
  | nil =>
    intro f h
    exact ⟨rfl, fun w => by simpa [weight, runUpdates] using h w⟩
  | cons e L ih =>
    intro f h
    obtain ⟨uv, a, b⟩ := e
    have h0 := h (uv.1 ++ uv.2)
    rw [weight_cons, if_pos rfl] at h0
    have hc := hcap _ (List.mem_cons_self ..)
    simp only at hc h0
    have hw := weight_nonneg (μ := μ) L (uv.1 ++ uv.2)
    have hab : (μ a * μ b : Nat) ≤ B := by zify; linarith [Int.natCast_nonneg (μ (f (uv.1 ++ uv.2)))]
    obtain ⟨x, x1, x2⟩ := hF.mul a b hab
    obtain ⟨y, y1, y2⟩ := hf x (x2.trans hab)
    have hxy : (μ y : Int) ≤ μ a * μ b := by exact_mod_cast y2.trans x2
    obtain ⟨z1, z2⟩ := hF.addIn (f (uv.1 ++ uv.2)) y (by zify; linarith)
    have hup : addProduct F (fun (t : Unit) x => (func x, t)) () (f (uv.1 ++ uv.2)) a b = (.ok (), ((F.addIn (f (uv.1 ++ uv.2)) y).2, ())) := by
      unfold addProduct
      rw [x1]
      simp only [y1, z1]
    have step : runUpdates (addProduct F fun (t : Unit) x => (func x, t)) f () ((uv, a, b) :: L) =
        runUpdates (addProduct F fun (t : Unit) x => (func x, t)) (Function.update f (uv.1 ++ uv.2) (F.addIn (f (uv.1 ++ uv.2)) y).2) () L := by
      conv_lhs => unfold runUpdates
      simp only [hup]
    rw [step]
    refine ih (fun e he => hcap e (List.mem_cons_of_mem _ he)) _ fun w => ?_
    by_cases hwe : w = uv.1 ++ uv.2
    · subst hwe
      rw [Function.update_self]
      have : (μ (F.addIn (f (uv.1 ++ uv.2)) y).2 : Int) ≤ μ (f (uv.1 ++ uv.2)) + μ y := by exact_mod_cast z2
      linarith
    · rw [Function.update_of_ne hwe]
      have := h w
      rw [weight_cons, if_neg fun h => hwe h.symm] at this
      linarith

theorem weight_le_conv (M da db : Nat) (a b : List Nat → S) (ma mb : List Nat → Int) (hma : ∀ u, 0 ≤ ma u) (hmb : ∀ u, 0 ≤ mb u)
    (ha : ∀ u, ValidWord N u → u.length ≤ M → (μ (a u) : Int) ≤ ma u) (hb : ∀ u, ValidWord N u → u.length ≤ M → (μ (b u) : Int) ≤ mb u) (w : List Nat) :
    weight μ ((callOrder N M da db).map fun uv => (uv, (a uv.1, b uv.2))) w ≤ conv ma mb w := by
  unfold weight
  rw [List.filter_map, List.map_map]
  have hle : (((callOrder N M da db).filter fun uv => uv.1 ++ uv.2 = w).map fun uv => (μ (a uv.1) : Int) * μ (b uv.2)).sum ≤
      (((callOrder N M da db).filter fun uv => uv.1 ++ uv.2 = w).map fun uv => ma uv.1 * mb uv.2).sum := by
    refine List.sum_le_sum fun uv h => ?_
    have := (mem_callOrder N).1 (List.mem_filter.1 h).1
    exact mul_le_mul (ha _ this.1 (by omega)) (hb _ this.2.1 (by omega)) (Int.natCast_nonneg _) (hma _)
  refine hle.trans ?_
  have hnd : ((callOrder N M da db).filter fun uv => uv.1 ++ uv.2 = w).Nodup := (callOrder_nodup N M da db).filter _
  have hsub : ((callOrder N M da db).filter fun uv => uv.1 ++ uv.2 = w) ⊆ splits w := by
    intro uv h
    exact (splits_spec w uv.1 uv.2).2 (by simpa using (List.mem_filter.1 h).2)
  obtain ⟨l, hp, hs⟩ := List.subperm_of_subset hnd hsub
  rw [← (hp.map fun uv => ma uv.1 * mb uv.2).sum_eq, conv_eq_sum]
  refine (List.Sublist.sum_le_sum (hs.map _) ?_).trans_eq ?_
  · intro x hx
    obtain ⟨uv, _, rfl⟩ := List.mem_map.1 hx
    exact mul_nonneg (hma _) (hmb _)
  · unfold splits
    rw [List.map_map, ← List.sum_reverse, ← List.map_reverse, List.reverse_reverse]
    rfl

/-- Every index below the dimension of degree `D` belongs to a word of length at most `D`. -/
theorem index_word (h1 : 1 ≤ N) {D i : Nat} (hi : i < geomSum N (D + 1)) : ∃ w, ValidWord N w ∧ w.length ≤ D ∧ wordIndex N w = i := by
  refine ⟨indexWord N i, validWord_indexWord h1 i, ?_, wordIndex_indexWord N i⟩
  by_contra hc
  have h := (wordIndex_bounds (validWord_indexWord h1 i)).1
  rw [wordIndex_indexWord] at h
  have := geomSum_mono (N := N) (a := D + 1) (b := (indexWord N i).length) (by omega)
  omega

theorem temp_ok {q : Res Unit × Dense S} (h : q.1 = .ok ()) : temp q = .ok q.2 := by unfold temp; rw [h]

theorem size_of_entries {r : Dense S} {n : Nat} {f : Nat → Option S} (h : ∀ i, r.data[i]? = f i) (hf : ∀ i, (f i).isSome ↔ i < n) : r.size = n := by
  unfold Dense.size
  refine le_antisymm ?_ ?_
  · by_contra hc
    have := (hf n).1 (by rw [← h, List.getElem?_eq_getElem (by omega)]; rfl)
    omega
  · by_contra hc
    have := (hf r.data.length).2 (by omega)
    rw [← h, List.getElem?_eq_none le_rfl] at this
    cases this

theorem combine_within (h1 : 1 ≤ N) (hz : μ F.zero = 0) {D : Nat} {x y r : Dense S} {res : Res Unit} {g : S → S → Res Unit × S}
    (hg : ∀ a b, μ a + μ b ≤ B → (g a b).1 = .ok () ∧ μ (g a b).2 ≤ μ a + μ b)
    (hl : Loop (fun i => g (x.data[i]?.getD F.zero) (y.data[i]?.getD F.zero)) y.size
      (fun i => if i < max x.size y.size then some (x.data[i]?.getD F.zero) else none) res (fun i => r.data[i]?))
    (hy : y.size ≤ geomSum N (D + 1)) (mx my : List Nat → Int)
    (hmx : ∀ w, ValidWord N w → w.length ≤ D → sizeAt F μ N x w ≤ mx w) (hmy : ∀ w, ValidWord N w → w.length ≤ D → sizeAt F μ N y w ≤ my w)
    (hB : ∀ w, ValidWord N w → w.length ≤ D → mx w + my w ≤ B) :
    res = .ok () ∧ r.size = max x.size y.size ∧ ∀ w, ValidWord N w → w.length ≤ D → sizeAt F μ N r w ≤ mx w + my w := by
  have hturn : ∀ w, ValidWord N w → w.length ≤ D → μ (x.data[wordIndex N w]?.getD F.zero) + μ (y.data[wordIndex N w]?.getD F.zero) ≤ B ∧
      ((μ (x.data[wordIndex N w]?.getD F.zero) : Int) + μ (y.data[wordIndex N w]?.getD F.zero) ≤ mx w + my w) := by
    intro w hw hd
    have a1 := hmx w hw hd
    have a2 := hmy w hw hd
    have a3 := hB w hw hd
    unfold sizeAt stored at a1 a2
    exact ⟨by zify; linarith, by linarith⟩
  obtain ⟨h2, h3⟩ := loop_all hl fun i hi => by
    obtain ⟨w, hw, hd, rfl⟩ := index_word N h1 (lt_of_lt_of_le hi hy)
    exact (hg _ _ (hturn w hw hd).1).1
  refine ⟨h2, size_of_entries h3 fun i => ?_, fun w hw hd => ?_⟩
  · split_ifs with c1 c2
    · simp only [Option.isSome_some, true_iff]; omega
    · simp only [Option.isSome_some, true_iff]; omega
    · simp only [Option.isSome_none, Bool.false_eq_true, false_iff]; omega
  · have hb := hturn w hw hd
    unfold sizeAt stored
    rw [h3]
    split_ifs with c1 c2
    · have := (hg _ _ hb.1).2
      have : (μ (g (x.data[wordIndex N w]?.getD F.zero) (y.data[wordIndex N w]?.getD F.zero)).2 : Int) ≤
        μ (x.data[wordIndex N w]?.getD F.zero) + μ (y.data[wordIndex N w]?.getD F.zero) := by exact_mod_cast this
      rw [Option.getD_some]
      linarith [hb.2]
    · rw [Option.getD_some]
      linarith [hb.2, Int.natCast_nonneg (μ (y.data[wordIndex N w]?.getD F.zero))]
    · rw [Option.getD_none, hz]
      push_cast
      linarith [hb.2, Int.natCast_nonneg (μ (y.data[wordIndex N w]?.getD F.zero)), Int.natCast_nonneg (μ (x.data[wordIndex N w]?.getD F.zero))]

theorem each_within (h1 : 1 ≤ N) (hz : μ F.zero = 0) {D c : Nat} {x r : Dense S} {res : Res Unit} {g : S → Res Unit × S}
    (hg : ∀ a, c * μ a ≤ B → (g a).1 = .ok () ∧ μ (g a).2 ≤ c * μ a)
    (hl : Loop (fun i => g (x.data[i]?.getD F.zero)) x.size (fun i => x.data[i]?) res (fun i => r.data[i]?)) (hx : x.size ≤ geomSum N (D + 1))
    (mx : List Nat → Int) (hmx : ∀ w, ValidWord N w → w.length ≤ D → sizeAt F μ N x w ≤ mx w) (hB : ∀ w, ValidWord N w → w.length ≤ D → c * mx w ≤ B) :
    res = .ok () ∧ r.size = x.size ∧ ∀ w, ValidWord N w → w.length ≤ D → sizeAt F μ N r w ≤ c * mx w := by
  have hturn : ∀ w, ValidWord N w → w.length ≤ D → c * μ (x.data[wordIndex N w]?.getD F.zero) ≤ B ∧
      ((c : Int) * μ (x.data[wordIndex N w]?.getD F.zero) ≤ c * mx w) := by
    intro w hw hd
    have a1 := hmx w hw hd
    have a3 := hB w hw hd
    unfold sizeAt stored at a1
    have := mul_le_mul_of_nonneg_left a1 (Int.natCast_nonneg c)
    exact ⟨by zify; linarith, this⟩
  obtain ⟨h2, h3⟩ := loop_all hl fun i hi => by
    obtain ⟨w, hw, hd, rfl⟩ := index_word N h1 (lt_of_lt_of_le hi hx)
    exact (hg _ (hturn w hw hd).1).1
  refine ⟨h2, size_of_entries h3 fun i => ?_, fun w hw hd => ?_⟩
  · split_ifs with c1
    · simp only [Option.isSome_some, true_iff]; exact c1
    · rw [List.getElem?_eq_none (by unfold Dense.size at c1; omega)]
      simp only [Option.isSome_none, Bool.false_eq_true, false_iff]; exact c1
  · have hb := hturn w hw hd
    unfold sizeAt stored
    rw [h3]
    split_ifs with c1
    · have : (μ (g (x.data[wordIndex N w]?.getD F.zero)).2 : Int) ≤ c * μ (x.data[wordIndex N w]?.getD F.zero) := by exact_mod_cast (hg _ hb.1).2
      rw [Option.getD_some]
      linarith [hb.2]
    · rw [List.getElem?_eq_none (by unfold Dense.size at c1; omega), Option.getD_none, hz]
      have : (0 : Int) ≤ c * μ (x.data[wordIndex N w]?.getD F.zero) := by positivity
      push_cast
      linarith [hb.2]

theorem mulAdd_within (h2 : 2 ≤ N) (hF : F.Within μ B) {func : S → Res S} (hf : ∀ x, μ x ≤ B → ∃ z, func x = .ok z ∧ μ z ≤ μ x) (s a b : Dense S)
    (da db D : Nat) (ha : FullTo N a da) (hb : FullTo N b db) (hp : N ^ (min D (da + db) + 1) < 2 ^ 64) (h1 : 1 ≤ min D (da + db))
    (hs : s.data = [] ∨ FullTo N s (min D (da + db))) (ms ma mb : List Nat → Int) (hma : ∀ u, 0 ≤ ma u) (hmb : ∀ u, 0 ≤ mb u) 
    (ha' : ∀ w, ValidWord N w → w.length ≤ D → sizeAt F μ N a w ≤ ma w) (hb' : ∀ w, ValidWord N w → w.length ≤ D → sizeAt F μ N b w ≤ mb w)
    (hs' : ∀ w, ValidWord N w → w.length ≤ D → sizeAt F μ N s w ≤ ms w)
    (hB : ∀ w, ValidWord N w → w.length ≤ D → ms w + conv ma mb w ≤ B) :
    ∃ r, temp (tMulAdd F p N func s a b (some D)) = .ok r ∧ FullTo N r (min D (da + db)) ∧
      ∀ w, ValidWord N w → w.length ≤ D → sizeAt F μ N r w ≤ ms w + conv ma mb w := by
  have hcn : ∀ w, 0 ≤ conv ma mb w := fun w => by
    rw [conv_eq_sum]
    refine List.sum_nonneg fun x hx => ?_
    obtain ⟨k, _, rfl⟩ := List.mem_map.1 hx
    exact mul_nonneg (hma _) (hmb _)
  have hsd : HasDegree N s (if s.data = [] then 0 else min D (da + db)) := by
    split_ifs with h
    · exact ⟨.inl ⟨by unfold Dense.size; rw [h]; rfl, rfl⟩, pow_lt64_mono h2 (by omega) hp⟩
    · exact (hs.resolve_left h).hasDegree h2
  have hself : (s.size ≤ geomSum N (min D (da + db)) ∧ 1 ≤ min D (da + db)) ∨ geomSum N (min D (da + db) + 1) ≤ s.size := by
    rcases hs with h | h
    · left
      unfold Dense.size
      rw [h]
      exact ⟨Nat.zero_le _, h1⟩
    · exact .inr h.1.ge
  have hfit : OperandsFit N a b da db (min D (da + db)) :=
    ⟨by rw [ha.1]; exact geomSum_mono (by omega), by rw [hb.1]; exact geomSum_mono (by omega)⟩
  obtain ⟨r, g1, g2, g3⟩ := C100_product F p N h2 s a b _ da db D hsd (ha.hasDegree h2) (hb.hasDegree h2) hp hfit hself Unit (fun t x => (func x, t)) () _ rfl
  have hw := runUpdates_within hF hf (fun w => max (sizeAt F μ N s w) 0 + weight μ ((callOrder N (min D (da + db)) da db).map fun uv =>
      (uv, ((stored N a uv.1).getD F.zero, (stored N b uv.2).getD F.zero))) w) _ (fun e he => ?_)
    (fun w => (stored N s w).getD F.zero) (fun w => by
      have : (μ ((stored N s w).getD F.zero) : Int) = sizeAt F μ N s w := rfl
      simp only [this]
      linarith [le_max_left (sizeAt F μ N s w) 0])
  · have hwc : ∀ w, ValidWord N w → w.length ≤ D → max (sizeAt F μ N s w) 0 + weight μ ((callOrder N (min D (da + db)) da db).map fun uv =>
        (uv, ((stored N a uv.1).getD F.zero, (stored N b uv.2).getD F.zero))) w ≤ ms w + conv ma mb w := by
      intro w hw hd
      have c1 := hs' w hw hd
      have c2 : max (sizeAt F μ N s w) 0 = sizeAt F μ N s w := max_eq_left (Int.natCast_nonneg _)
      have c3 := weight_le_conv (μ := μ) N (min D (da + db)) da db (fun u => (stored N a u).getD F.zero) (fun u => (stored N b u).getD F.zero) ma mb hma hmb
        (fun u hu hl => ha' u hu (by omega)) (fun u hu hl => hb' u hu (by omega)) w
      rw [c2]
      linarith
    have hrs : r.size = geomSum N (min D (da + db) + 1) := by
      rw [g2]
      rcases hs with h | h
      · unfold Dense.size; rw [h]; simp
      · rw [h.1, max_self]
    refine ⟨r, ?_, ⟨hrs, hp⟩, fun w hw' hd => ?_⟩
    · unfold tMulAdd temp
      simp only [g1, hw.1]
    · have c := hwc w hw' hd
      unfold sizeAt
      rw [g3 w hw']
      split_ifs with hl
      · exact (hw.2 w).trans c
      · have := hs' w hw' hd
        unfold sizeAt at this
        linarith [hcn w]
  · obtain ⟨uv, huv, rfl⟩ := List.mem_map.1 he
    have hm := (mem_callOrder N).1 huv
    have hv : ValidWord N (uv.1 ++ uv.2) := fun c hc => (List.mem_append.1 hc).elim (hm.1 c) (hm.2.1 c)
    have hd : (uv.1 ++ uv.2).length ≤ D := by rw [List.length_append]; omega
    have c1 := hs' _ hv hd
    have c2 : max (sizeAt F μ N s (uv.1 ++ uv.2)) 0 = sizeAt F μ N s (uv.1 ++ uv.2) := max_eq_left (Int.natCast_nonneg _)
    have c3 := weight_le_conv (μ := μ) N (min D (da + db)) da db (fun u => (stored N a u).getD F.zero) (fun u => (stored N b u).getD F.zero) ma mb hma hmb
      (fun u hu hl => ha' u hu (by omega)) (fun u hu hl => hb' u hu (by omega)) (uv.1 ++ uv.2)
    have c4 := hB _ hv hd
    simp only [c2]
    linarith

theorem dUminus_loop (d : Dense S) : Loop (fun i => (F.uminus (d.data[i]?.getD F.zero) >>= fun _ => .ok (), match F.uminus (d.data[i]?.getD F.zero) with
    | .ok y => y
    | _ => d.data[i]?.getD F.zero)) d.size (fun i => d.data[i]?) (dUminus F d).1 (fun i => (dUminus F d).2.data[i]?) := by
  have h : (fun i : Nat => (F.uminus (d.data[i]?.getD F.zero) >>= fun _ => (.ok () : Res Unit), match F.uminus (d.data[i]?.getD F.zero) with
      | .ok y => y
      | _ => d.data[i]?.getD F.zero)) = fun i : Nat => assign F.uminus (d.data[i]?.getD F.zero) := by
    funext i
    unfold assign
    cases F.uminus (d.data[i]?.getD F.zero) <;> rfl
  rw [h]
  exact onSlice_each _ d F.zero

theorem mass_nonneg (e : TExpr S) : ∀ w, 0 ≤ e.mass μ w := by
  have hc : ∀ {f g : List Nat → Int}, (∀ w, 0 ≤ f w) → (∀ w, 0 ≤ g w) → ∀ w, 0 ≤ conv f g w := fun hf hg w => by
    rw [conv_eq_sum]
    refine List.sum_nonneg fun x hx => ?_
    obtain ⟨k, _, rfl⟩ := List.mem_map.1 hx
    exact mul_nonneg (hf _) (hg _)
  induction e with
  | term v s => intro w; unfold TExpr.mass; split_ifs <;> positivity
  | add a b iha ihb | sub a b iha ihb => exact fun w => add_nonneg (iha w) (ihb w)
  | neg a iha => exact iha
  | smul s a iha => exact fun w => mul_nonneg (Int.natCast_nonneg _) (iha w)
  | mul a b iha ihb => exact hc iha ihb
  | comm a b iha ihb => exact fun w => add_nonneg (hc iha ihb w) (hc ihb iha w)

/-- C104.  An expression is evaluated without a panic if, for it and each of its subexpressions, the sizes of all terms of the expansion add up to at most `B` for each
word of length at most `D`.  The coefficients of the result are bounded by these sums. -/
theorem C104_returns (hF : F.Within μ B) (h2 : 2 ≤ N) (hN : N < 2 ^ 32) (D : Nat) (hD : 1 ≤ D) (hm : D ≤ maxDepth N) (hp : N ^ (D + 1) < 2 ^ 64) (e : TExpr S)
    (hw : e.Words N D) (hs : e.NoConstProduct D) (hB : e.Everywhere fun a => ∀ w, ValidWord N w → w.length ≤ D → a.mass μ w ≤ B) :
    ∃ r, runExprF F p N D e = .ok r ∧ FullTo N r (e.deg D) ∧ ∀ w, ValidWord N w → w.length ≤ D → sizeAt F μ N r w ≤ e.mass μ w := by
  have hle : ∀ {v : Dense S} {d : Nat}, FullTo N v d → d ≤ D → v.size ≤ geomSum N (D + 1) := fun h hd => by rw [h.1]; exact geomSum_mono (by omega)
  have hnil : ∀ w, sizeAt F μ N (.new : Dense S) w = 0 := fun w => by
    unfold sizeAt stored
    rw [show (Dense.new : Dense S).data = [] from rfl, List.getElem?_nil, Option.getD_none, hF.zero]
    rfl
  have hok : ∀ x : S, μ x ≤ B → ∃ z, (.ok x : Res S) = .ok z ∧ μ z ≤ μ x := fun x _ => ⟨x, rfl, le_rfl⟩
  have hpm : ∀ {n : Nat}, N ^ (min D n + 1) < 2 ^ 64 := fun {n} => pow_lt64_mono h2 (by omega) hp
  induction e with
  | term v s =>
    obtain ⟨r, h3, h4, h5⟩ := fromKeyScalar_word (⟨F.zero, F.one, F.mone, id, fun _ => F.one, fun x _ => x, fun x _ => x, fun x _ => x, fun x _ => x, fun _ => F.one,
      fun _ => (), fun _ _ => true⟩ : Coeff S Unit) p N h2 hN v hw.1 (hw.2.trans hm) (pow_lt64_mono h2 (by have := hw.2; omega) hp) s
    refine ⟨r, h3, h4, fun w hv hd => ?_⟩
    have := h5 w hv
    unfold sizeAt TExpr.mass
    rw [show (stored N r w).getD F.zero = _ from this]
    split_ifs with c
    · exact le_rfl
    · rw [hF.zero]; rfl
  | add a b iha ihb =>
    obtain ⟨x, x1, x2, x3⟩ := iha hw.1 hs.1 hB.2.1
    obtain ⟨y, y1, y2, y3⟩ := ihb hw.2 hs.2 hB.2.2
    obtain ⟨z1, z2, z3⟩ := combine_within N (by omega) hF.zero hF.addIn (C100_dense_add F (.ofVec x.data) y).1 (hle y2 (exprDeg_le b hw.2)) _ _ x3 y3 hB.1
    exact ⟨_, by unfold runExprF; rw [x1, Res.bind_ok, y1, Res.bind_ok]; exact temp_ok z1, fullTo_max x2 y2 z2, z3⟩
  | sub a b iha ihb =>
    obtain ⟨x, x1, x2, x3⟩ := iha hw.1 hs.1 hB.2.1
    obtain ⟨y, y1, y2, y3⟩ := ihb hw.2 hs.2 hB.2.2
    obtain ⟨z1, z2, z3⟩ := combine_within N (by omega) hF.zero hF.subIn (C100_dense_add F (.ofVec x.data) y).2 (hle y2 (exprDeg_le b hw.2)) _ _ x3 y3 hB.1
    exact ⟨_, by unfold runExprF; rw [x1, Res.bind_ok, y1, Res.bind_ok]; exact temp_ok z1, fullTo_max x2 y2 z2, z3⟩
  | neg a iha =>
    obtain ⟨x, x1, x2, x3⟩ := iha hw hs hB.2
    have hg : ∀ v, 1 * μ v ≤ B → (F.uminus v >>= fun _ => (.ok () : Res Unit)) = .ok () ∧ μ (match F.uminus v with
        | .ok y => y
        | _ => v) ≤ 1 * μ v := fun v hv => by
      obtain ⟨z, z1, z2⟩ := hF.uminus v (by omega)
      rw [z1]
      exact ⟨rfl, by rw [one_mul]; exact z2⟩
    obtain ⟨z1, z2, z3⟩ := each_within (c := 1) N (by omega) hF.zero (g := fun v => (F.uminus v >>= fun _ => (.ok () : Res Unit), match F.uminus v with
        | .ok y => y
        | _ => v)) hg (dUminus_loop (.ofVec x.data)) (hle x2 (exprDeg_le a hw)) _ x3 fun w hv hd => by rw [Nat.cast_one, one_mul]; exact hB.1 w hv hd
    refine ⟨_, by unfold runExprF; rw [x1, Res.bind_ok]; exact temp_ok z1, ⟨z2.trans x2.1, x2.2⟩, fun w hv hd => ?_⟩
    have := z3 w hv hd
    rwa [Nat.cast_one, one_mul] at this
  | smul s a iha =>
    obtain ⟨x, x1, x2, x3⟩ := iha hw hs hB.2
    have hg : ∀ v, μ s * μ v ≤ B → (F.mulIn v s).1 = .ok () ∧ μ (F.mulIn v s).2 ≤ μ s * μ v := fun v hv => by
      rw [mul_comm] at hv ⊢
      exact hF.mulIn v s hv
    obtain ⟨z1, z2, z3⟩ := each_within N (by omega) hF.zero (g := fun v => F.mulIn v s) hg (dMul_loop F (.ofVec x.data) s) (hle x2 (exprDeg_le a hw)) _ x3 hB.1
    exact ⟨_, by unfold runExprF; rw [x1, Res.bind_ok]; exact temp_ok z1, ⟨z2.trans x2.1, x2.2⟩, z3⟩
  | mul a b iha ihb =>
    obtain ⟨x, x1, x2, x3⟩ := iha hw.1 hs.1 hB.2.1
    obtain ⟨y, y1, y2, y3⟩ := ihb hw.2 hs.2.1 hB.2.2
    obtain ⟨r, r1, r2, r3⟩ := mulAdd_within p N h2 hF hok .new x y _ _ D x2 y2 hpm (le_min hD hs.2.2) (.inl rfl) (fun _ => 0) _ _ (mass_nonneg a) (mass_nonneg b)
      x3 y3 (fun w _ _ => (hnil w).le) (fun w hv hd => by rw [zero_add]; exact hB.1 w hv hd)
    exact ⟨r, by unfold runExprF; rw [x1, Res.bind_ok, y1, Res.bind_ok]; exact r1, r2, fun w hv hd => (r3 w hv hd).trans_eq (zero_add _)⟩
  | comm a b iha ihb =>
    obtain ⟨x, x1, x2, x3⟩ := iha hw.1 hs.1 hB.2.1
    obtain ⟨y, y1, y2, y3⟩ := ihb hw.2 hs.2.1 hB.2.2
    have hpos := mass_nonneg (μ := μ) (.mul b a)
    obtain ⟨r, r1, r2, r3⟩ := mulAdd_within p N h2 hF hok .new x y _ _ D x2 y2 hpm (le_min hD hs.2.2) (.inl rfl) (fun _ => 0) _ _ (mass_nonneg a) (mass_nonneg b)
      x3 y3 (fun w _ _ => (hnil w).le) (fun w hv hd => by
        have h3 : conv (a.mass μ) (b.mass μ) w + conv (b.mass μ) (a.mass μ) w ≤ B := hB.1 w hv hd
        have h4 : 0 ≤ conv (b.mass μ) (a.mass μ) w := hpos w
        rw [zero_add]; linarith)
    rw [Nat.add_comm] at r2
    obtain ⟨q, q1, q2, q3⟩ := mulAdd_within p N h2 hF hF.uminus r y x _ _ D y2 x2 hpm (le_min hD (by have := hs.2.2; omega)) (.inr r2)
      (conv (a.mass μ) (b.mass μ)) _ _ (mass_nonneg b) (mass_nonneg a) y3 x3 (fun w hv hd => (r3 w hv hd).trans_eq (zero_add _)) hB.1
    rw [Nat.add_comm] at q2
    exact ⟨q, by unfold runExprF; rw [x1, Res.bind_ok, y1, Res.bind_ok]; unfold tCommutator tAddMul tSubMul; rw [r1, Res.bind_ok]; exact q1, q2, q3⟩

end
section
variable {S R : Type} {F : FCoeff S R} {μ : S → Nat} {B : Nat} (p : Profile) (N : Nat)

theorem conv_sum_le {f g : List Nat → Int} {A B : Int} (hf : ∀ w, 0 ≤ f w) (hg : ∀ w, 0 ≤ g w) (hA : ∀ W : Finset (List Nat), ∑ w ∈ W, f w ≤ A)
    (hB : ∀ W : Finset (List Nat), ∑ w ∈ W, g w ≤ B) (W : Finset (List Nat)) : ∑ w ∈ W, conv f g w ≤ A * B := by
  classical
  have h1 : ∀ w, conv f g w = ∑ k ∈ Finset.range (w.length + 1), f (w.take k) * g (w.drop k) := fun w => by
    rw [conv_eq_sum]
    rfl
  simp only [h1]
  rw [Finset.sum_sigma']
  let U := (W.sigma fun w => Finset.range (w.length + 1)).image fun x => x.1.take x.2
  let V := (W.sigma fun w => Finset.range (w.length + 1)).image fun x => x.1.drop x.2
  have h2 : ∑ x ∈ W.sigma fun w => Finset.range (w.length + 1), f (x.1.take x.2) * g (x.1.drop x.2) ≤ ∑ y ∈ U ×ˢ V, f y.1 * g y.2 := by
    rw [← Finset.sum_image (s := W.sigma fun w => Finset.range (w.length + 1)) (g := fun x => (x.1.take x.2, x.1.drop x.2)) (f := fun y => f y.1 * g y.2)]
    · refine Finset.sum_le_sum_of_subset_of_nonneg (fun y hy => ?_) fun y _ _ => mul_nonneg (hf _) (hg _)
      obtain ⟨x, hx, rfl⟩ := Finset.mem_image.1 hy
      exact Finset.mem_product.2 ⟨Finset.mem_image_of_mem _ hx, Finset.mem_image_of_mem _ hx⟩
    · rintro ⟨w, k⟩ hx ⟨w', k'⟩ hx' h
      simp only [Finset.coe_sigma, Set.mem_sigma_iff, Finset.mem_coe, Finset.mem_range, Prod.mk.injEq] at hx hx' h
      have h3 : w = w' := by rw [← List.take_append_drop k w, h.1, h.2, List.take_append_drop]
      subst h3
      have h4 := congrArg List.length h.1
      rw [List.length_take, List.length_take] at h4
      have : k = k' := by omega
      subst this
      rfl
  refine h2.trans ?_
  rw [Finset.sum_product, ← Finset.sum_mul_sum]
  exact mul_le_mul (hA U) (hB V) (Finset.sum_nonneg fun _ _ => hg _) ((Finset.sum_nonneg fun _ _ => hf _).trans (hA ∅))

theorem mass_sum_le (e : TExpr S) : ∀ W : Finset (List Nat), ∑ w ∈ W, e.mass μ w ≤ e.total μ := by
  classical
  induction e with
  | term v s =>
    intro W
    unfold TExpr.mass TExpr.total
    rw [Finset.sum_ite_eq' W v]
    split_ifs <;> omega
  | add a b iha ihb | sub a b iha ihb =>
    intro W
    have := iha W
    have := ihb W
    unfold TExpr.mass TExpr.total
    rw [Finset.sum_add_distrib]
    push_cast
    linarith
  | neg a iha => exact iha
  | smul s a iha =>
    intro W
    unfold TExpr.mass TExpr.total
    rw [← Finset.mul_sum]
    push_cast
    exact mul_le_mul_of_nonneg_left (iha W) (Int.natCast_nonneg _)
  | mul a b iha ihb =>
    intro W
    unfold TExpr.mass TExpr.total
    push_cast
    exact conv_sum_le (mass_nonneg a) (mass_nonneg b) iha ihb W
  | comm a b iha ihb =>
    intro W
    have h1 := conv_sum_le (mass_nonneg a) (mass_nonneg b) iha ihb W
    have h2 := conv_sum_le (mass_nonneg b) (mass_nonneg a) ihb iha W
    unfold TExpr.mass TExpr.total
    rw [Finset.sum_add_distrib]
    push_cast
    linarith

/-- C104.  A simple sufficient condition: the sizes of all terms of the expansion, of the expression and of each of its subexpressions, add up to at most `B`. -/
theorem C104_total (hF : F.Within μ B) (h2 : 2 ≤ N) (hN : N < 2 ^ 32) (D : Nat) (hD : 1 ≤ D) (hm : D ≤ maxDepth N) (hp : N ^ (D + 1) < 2 ^ 64) (e : TExpr S)
    (hw : e.Words N D) (hs : e.NoConstProduct D) (hB : e.Everywhere fun a => a.total μ ≤ B) : ∃ r, runExprF F p N D e = .ok r := by
  have h : ∀ a : TExpr S, a.total μ ≤ B → ∀ w, ValidWord N w → w.length ≤ D → a.mass μ w ≤ B := fun a ha w _ _ => by
    have := mass_sum_le (μ := μ) a {w}
    rw [Finset.sum_singleton] at this
    have : (a.total μ : Int) ≤ B := by exact_mod_cast ha
    linarith
  obtain ⟨r, hr, -⟩ := C104_returns p N hF h2 hN D hD hm hp e hw hs (by
    clear hw hs
    induction e with
    | term w s => exact h _ hB
    | add a b iha ihb | sub a b iha ihb | mul a b iha ihb | comm a b iha ihb => exact ⟨h _ hB.1, iha hB.2.1, ihb hB.2.2⟩
    | neg a iha | smul s a iha => exact ⟨h _ hB.1, iha hB.2⟩)
  exact ⟨r, hr⟩

end

section
variable {S S' R R' : Type} {F : FCoeff S R} {φ : S → S'} {P : R → R' → Prop} {C : Coeff S' R'} {μ : S → Nat} {B : Nat} (p : Profile) (N : Nat)

/-- C104.  Under the same condition the result is the value of the expression in the free associative algebra, truncated at `D`, if the arithmetic is exact. -/
theorem C104_values [CommRing S'] (hC : C.IsRing) (hF : F.ExactFor φ P C) (hB : F.Within μ B) (h2 : 2 ≤ N) (hN : N < 2 ^ 32) (D : Nat) (hD : 1 ≤ D)
    (hm : D ≤ maxDepth N) (hp : N ^ (D + 1) < 2 ^ 64) (e : TExpr S) (hw : e.Words N D) (hs : e.NoConstProduct D)
    (he : e.Everywhere fun a => ∀ w, ValidWord N w → w.length ≤ D → a.mass μ w ≤ B) :
    ∃ r, runExprF F p N D e = .ok r ∧ ∀ w k, ValidWord N w → w.length ≤ maxDepth N → fromLetters p N w = .ok k →
      ∃ x, Dense.get (tensorBasis p N) r k = .ok x ∧ φ (x.getD F.zero) = if w.length ≤ D then (e.map φ).value w else 0 := by
  obtain ⟨r, h1, -⟩ := C104_returns p N hB h2 hN D hD hm hp e hw hs he
  exact ⟨r, h1, C103_values p N hC hF h2 hN D hD hm hp e hw r h1⟩

end

section
variable {S S' R R' : Type} {F : FCoeff S R} {φ : S → S'} {P : R → R' → Prop} {C : Coeff S' R'} (p : Profile) (N : Nat)

/-- C104.  Whatever the size of the numbers, an expression without products of constants returns or panics, if the arithmetic is exact and does nothing worse than
panic. -/
theorem C104_returns_or_panics [CommRing S'] (hC : C.IsRing) (hF : F.ExactFor φ P C) (hs : F.OnlyPanics) (h2 : 2 ≤ N) (hN : N < 2 ^ 32) (D : Nat) (hD : 1 ≤ D)
    (hm : D ≤ maxDepth N) (hp : N ^ (D + 1) < 2 ^ 64) (e : TExpr S) (hw : e.Words N D) (hc : e.NoConstProduct D) :
    (runExprF F p N D e).ReturnsOrPanics := by
  have hc' : (e.map φ).NoConstProduct D ∧ (e.map φ).deg D = e.deg D := by
    clear hw
    induction e with
    | term w s => exact ⟨trivial, rfl⟩
    | add a b iha ihb | sub a b iha ihb =>
      obtain ⟨a1, a2⟩ := iha hc.1
      obtain ⟨b1, b2⟩ := ihb hc.2
      exact ⟨⟨a1, b1⟩, congrArg₂ max a2 b2⟩
    | neg a iha | smul s a iha => exact iha hc
    | mul a b iha ihb | comm a b iha ihb =>
      obtain ⟨a1, a2⟩ := iha hc.1
      obtain ⟨b1, b2⟩ := ihb hc.2.1
      exact ⟨⟨a1, b1, by rw [a2, b2]; exact hc.2.2⟩, congrArg₂ (fun x y => min D (x + y)) a2 b2⟩
  obtain ⟨r', h1, -⟩ := C53_expressions_partial C p N hC h2 hN D hD hm hp (e.map φ) (words_map φ hw) hc'.1
  have h := (C103_expressions p N hF D e).2 hs
  rw [h1] at h
  constructor <;> intro hr <;> rw [hr] at h <;> exact h.elim nofun nofun

end

/-! ## Integers in a range -/

/-- C104.  Integers between `lo` and `hi` satisfy the condition for every `B` such that `-B` and `B` are in the range. -/
theorem C104_integers {lo hi : Int} {B : Nat} (hl : lo ≤ -B) (hh : (B : Int) ≤ hi) : (rangeInt lo hi).Within Int.natAbs B := by
  have h1 : ∀ x : Int, x.natAbs ≤ B → inRange lo hi x = .ok x := fun x h => if_pos (by omega)
  have h2 : ∀ x y : Int, y.natAbs ≤ B → inRangeIn lo hi x y = (.ok (), y) := fun x y h => if_pos (by omega)
  refine ⟨rfl, fun x h => ⟨-x, h1 _ (by omega), by omega⟩, fun x y h => ⟨x * y, h1 _ (by rwa [Int.natAbs_mul]), by rw [Int.natAbs_mul]⟩, fun x y h => ?_, fun x y h => ?_,
    fun x y h => ?_⟩
  · have h := h2 x (x + y) (by omega)
    rw [show (rangeInt lo hi).addIn x y = _ from h]
    exact ⟨rfl, Int.natAbs_add_le _ _⟩
  · have h := h2 x (x - y) (by omega)
    rw [show (rangeInt lo hi).subIn x y = _ from h]
    exact ⟨rfl, by simp only []; omega⟩
  · have h := h2 x (x * y) (by rwa [Int.natAbs_mul])
    rw [show (rangeInt lo hi).mulIn x y = _ from h]
    exact ⟨rfl, (Int.natAbs_mul _ _).le⟩

theorem rangeInt_ref {lo hi : Int} (hl : lo ≤ -1) (hh : 1 ≤ hi) :
    FRef False (fun x x' => x = x' ∧ lo ≤ x ∧ x ≤ hi) Eq (rangeInt lo hi) (rangeInt lo hi) := by
  have h1 : ∀ x : Int, ResRef False (fun x x' => x = x' ∧ lo ≤ x ∧ x ≤ hi) (inRange lo hi x) (inRange lo hi x) := by
    intro x
    unfold inRange
    split_ifs with c
    · exact .ok ⟨rfl, c⟩
    · trivial
  have h2 : ∀ x y : Int, OutRef False (fun x x' => x = x' ∧ lo ≤ x ∧ x ≤ hi) (inRangeIn lo hi x y) (inRangeIn lo hi x y) := by
    intro x y
    unfold inRangeIn
    split_ifs with c
    · exact ⟨(), rfl, rfl, c⟩
    · trivial
  refine ⟨⟨rfl, by change lo ≤ 0; omega, by change 0 ≤ hi; omega⟩, ⟨rfl, by change lo ≤ 1; omega, hh⟩, ⟨rfl, hl, by change -1 ≤ hi; omega⟩, ?_, ?_, ?_, ?_, ?_, ?_, ?_, ?_⟩
  · rintro x _ y _ ⟨rfl, -⟩ ⟨rfl, -⟩
    exact ⟨_, rfl, rfl⟩
  · rintro x _ ⟨rfl, -⟩
    exact h1 _
  · rintro x _ y _ ⟨rfl, -⟩ ⟨rfl, -⟩
    exact h1 _
  · rintro x _ y _ ⟨rfl, -⟩ rfl
    change ResRef False _ (if y = 0 then .panic else _) (if y = 0 then .panic else _)
    split_ifs
    · trivial
    · exact h1 _
  · rintro x _ y _ ⟨rfl, -⟩ ⟨rfl, -⟩
    exact h2 _ _
  · rintro x _ y _ ⟨rfl, -⟩ ⟨rfl, -⟩
    exact h2 _ _
  · rintro x _ y _ ⟨rfl, -⟩ ⟨rfl, -⟩
    exact h2 _ _
  · rintro x _ y _ ⟨rfl, -⟩ rfl
    change OutRef False _ (if y = 0 then (.panic, x) else _) (if y = 0 then (.panic, x) else _)
    split_ifs
    · trivial
    · exact h2 _ _

section
variable (p : Profile) (N : Nat)

theorem map_id {S : Type} (e : TExpr S) : e.map id = e := by
  induction e with
  | term w s => rfl
  | add a b iha ihb | sub a b iha ihb | mul a b iha ihb | comm a b iha ihb => unfold TExpr.map; rw [iha, ihb]
  | neg a iha => unfold TExpr.map; rw [iha]
  | smul s a iha => unfold TExpr.map; rw [iha]; rfl

theorem bind_ok_inv {α β : Type} {x : Res α} {f : α → Res β} {b : β} (h : (x >>= f) = .ok b) : ∃ a, x = .ok a ∧ f a = .ok b := by
  cases x with
  | ok a => exact ⟨a, rfl, h⟩
  | panic | ub | diverge => cases h

/-- C104.  If the evaluation returns, the value of the expression and of each of its subexpressions is in the range, for every word of length at most `D`. -/
theorem C104_in_range {lo hi : Int} (hl : lo ≤ -1) (hh : 1 ≤ hi) (h2 : 2 ≤ N) (hN : N < 2 ^ 32) (D : Nat) (hD : 1 ≤ D) (hm : D ≤ maxDepth N)
    (hp : N ^ (D + 1) < 2 ^ 64) (e : TExpr Int) (hw : e.Words N D) (hs : e.Scalars fun s => lo ≤ s ∧ s ≤ hi) (r : Dense Int)
    (hr : runExprF (rangeInt lo hi) p N D e = .ok r) :
    e.Everywhere fun a => ∀ w, ValidWord N w → w.length ≤ D → lo ≤ a.value w ∧ a.value w ≤ hi := by
  have key : ∀ (e : TExpr Int) (r : Dense Int), e.Words N D → e.Scalars (fun s => lo ≤ s ∧ s ≤ hi) → runExprF (rangeInt lo hi) p N D e = .ok r →
      ∀ w, ValidWord N w → w.length ≤ D → lo ≤ e.value w ∧ e.value w ≤ hi := by
    intro e r hw hs hr w hv hd
    have hl' : w.length ≤ maxDepth N := by omega
    have hk := fromLetters_ok p N (by omega) hN w hv hl'
    obtain ⟨x, x1, x2⟩ := C103_values p N truncCoeff_isRing (C103_integers lo hi) h2 hN D hD hm hp e hw r hr w _ hv hl' hk
    rw [get_word p N (by omega) hN r w hv hl' _ hk] at x1
    cases x1
    rw [if_pos hd, map_id] at x2
    rw [← x2]
    obtain ⟨r', -, r2⟩ := (runExprF_ref p N (rangeInt_ref hl hh) id D e (by
      clear hr x2 hw
      induction e with
      | term w s => exact ⟨rfl, hs⟩
      | add a b iha ihb | sub a b iha ihb | mul a b iha ihb | comm a b iha ihb => exact ⟨iha hs.1, ihb hs.2⟩
      | neg a iha => exact iha hs
      | smul s a iha => exact ⟨⟨rfl, hs.1⟩, iha hs.2⟩)).ret hr
    unfold stored
    rcases lt_or_ge (wordIndex N w) r.data.length with c | c
    · rw [List.getElem?_eq_getElem c]
      have := (List.forall₂_iff_get.1 r2.data).2 _ c (by rw [← r2.data.length_eq]; exact c)
      exact this.2
    · rw [List.getElem?_eq_none c]
      exact ⟨by change lo ≤ 0; omega, by change 0 ≤ hi; omega⟩
  induction e generalizing r with
  | term w s => exact key _ r hw hs hr
  | add a b iha ihb | sub a b iha ihb | mul a b iha ihb | comm a b iha ihb =>
    obtain ⟨x, x1, hr'⟩ := bind_ok_inv hr
    obtain ⟨y, y1, -⟩ := bind_ok_inv hr'
    exact ⟨key _ r hw hs hr, iha hw.1 hs.1 x x1, ihb hw.2 hs.2 y y1⟩
  | neg a iha =>
    obtain ⟨x, x1, -⟩ := bind_ok_inv hr
    exact ⟨key _ r hw hs hr, iha hw hs x x1⟩
  | smul s a iha =>
    obtain ⟨x, x1, -⟩ := bind_ok_inv hr
    exact ⟨key _ r hw hs hr, iha hw hs.2 x x1⟩

/-- Without subtractions, and with nonnegative scalars, nothing cancels. -/
theorem mass_eq_value (e : TExpr Int) (h : e.Positive) (hs : e.Scalars (0 ≤ ·)) : e.mass Int.natAbs = e.value := by
  induction e with
  | term w s => funext u; unfold TExpr.mass TExpr.value; split_ifs; exacts [Int.natAbs_of_nonneg hs, rfl]
  | add a b iha ihb => unfold TExpr.mass TExpr.value; rw [iha h.1 hs.1, ihb h.2 hs.2]
  | mul a b iha ihb => unfold TExpr.mass TExpr.value; rw [iha h.1 hs.1, ihb h.2 hs.2]
  | smul s a iha => unfold TExpr.mass TExpr.value; rw [iha h hs.2, Int.natAbs_of_nonneg hs.1]
  | sub a b | neg a | comm a b => exact h.elim

/-- C104.  For sums and products with nonnegative scalars the bound is exact: the evaluation returns if and only if the coefficients of the value of the expression and of
all its subexpressions are at most `hi`, up to degree `D`, and otherwise it panics. -/
theorem C104_exact {lo hi : Int} (hl : lo ≤ -hi) (hh : 1 ≤ hi) (h2 : 2 ≤ N) (hN : N < 2 ^ 32) (D : Nat) (hD : 1 ≤ D) (hm : D ≤ maxDepth N)
    (hp : N ^ (D + 1) < 2 ^ 64) (e : TExpr Int) (hw : e.Words N D) (hc : e.NoConstProduct D) (hpos : e.Positive) (hs : e.Scalars fun s => 0 ≤ s ∧ s ≤ hi) :
    ((∃ r, runExprF (rangeInt lo hi) p N D e = .ok r) ↔ e.Everywhere fun a => ∀ w, ValidWord N w → w.length ≤ D → a.value w ≤ hi) ∧
    (runExprF (rangeInt lo hi) p N D e = .panic ↔ ¬ e.Everywhere fun a => ∀ w, ValidWord N w → w.length ≤ D → a.value w ≤ hi) := by
  have hs0 : e.Scalars (0 ≤ ·) := by
    clear hw hc hpos
    induction e with
    | term w s => exact hs.1
    | add a b iha ihb | sub a b iha ihb | mul a b iha ihb | comm a b iha ihb => exact ⟨iha hs.1, ihb hs.2⟩
    | neg a iha => exact iha hs
    | smul s a iha => exact ⟨hs.1.1, iha hs.2⟩
  have hs1 : e.Scalars fun s => lo ≤ s ∧ s ≤ hi := by
    clear hw hc hpos hs0
    induction e with
    | term w s => exact ⟨by have := hs.1; omega, hs.2⟩
    | add a b iha ihb | sub a b iha ihb | mul a b iha ihb | comm a b iha ihb => exact ⟨iha hs.1, ihb hs.2⟩
    | neg a iha => exact iha hs
    | smul s a iha => exact ⟨⟨by have := hs.1.1; omega, hs.1.2⟩, iha hs.2⟩
  suffices h : (∃ r, runExprF (rangeInt lo hi) p N D e = .ok r) ↔ e.Everywhere fun a => ∀ w, ValidWord N w → w.length ≤ D → a.value w ≤ hi by
    refine ⟨h, ?_⟩
    rw [← h]
    have h' := C104_returns_or_panics p N truncCoeff_isRing (C103_integers lo hi) (C103_only_panics lo hi).1 h2 hN D hD hm hp e hw hc
    obtain ⟨h3, h4⟩ := h'
    rcases hr : runExprF (rangeInt lo hi) p N D e with r | _ | _ | _
    · exact ⟨nofun, fun h => (h ⟨r, rfl⟩).elim⟩
    · exact ⟨fun _ => nofun, fun _ => rfl⟩
    · exact (h3 hr).elim
    · exact (h4 hr).elim
  constructor
  · rintro ⟨r, hr⟩
    have h := C104_in_range p N (by omega) hh h2 hN D hD hm hp e hw hs1 r hr
    clear hw hc hpos hs hs0 hs1 hr
    induction e generalizing r with
    | term w s => exact fun w hv hd => (h w hv hd).2
    | add a b iha ihb | sub a b iha ihb | mul a b iha ihb | comm a b iha ihb => exact ⟨fun w hv hd => (h.1 w hv hd).2, iha r h.2.1, ihb r h.2.2⟩
    | neg a iha | smul s a iha => exact ⟨fun w hv hd => (h.1 w hv hd).2, iha r h.2⟩
  · intro h
    obtain ⟨B, rfl⟩ := Int.eq_ofNat_of_zero_le (show 0 ≤ hi by omega)
    obtain ⟨r, hr, -⟩ := C104_returns p N (C104_integers hl le_rfl) h2 hN D hD hm hp e hw hc (by
      clear hw hc hs hs1
      induction e with
      | term v s => exact fun w hv hd => (congrFun (mass_eq_value _ hpos hs0) w).trans_le (h w hv hd)
      | add a b iha ihb | mul a b iha ihb => exact ⟨fun w hv hd => (congrFun (mass_eq_value _ hpos hs0) w).trans_le (h.1 w hv hd), iha hpos.1 hs0.1 h.2.1, ihb hpos.2 hs0.2 h.2.2⟩
      | smul s a iha => exact ⟨fun w hv hd => (congrFun (mass_eq_value _ hpos hs0) w).trans_le (h.1 w hv hd), iha hpos hs0.2 h.2⟩
      | sub a b | neg a | comm a b => exact hpos.elim)
    exact ⟨r, hr⟩

end

/-- `(3 a - b) [a, 2 b]`, in 64 bits. -/
def massExample : TExpr Int := .mul (.sub (.term [1] 3) (.term [2] 1)) (.comm (.term [1] 1) (.term [2] 2))

theorem massExample_words : massExample.Words 2 3 := ⟨⟨⟨by decide, by decide⟩, by decide, by decide⟩, ⟨by decide, by decide⟩, by decide, by decide⟩

theorem massExample_const : massExample.NoConstProduct 3 := ⟨⟨trivial, trivial⟩, ⟨trivial, trivial, by decide⟩, by decide⟩

theorem i64_within : checkedI64.Within Int.natAbs (2 ^ 63 - 1) := C104_integers (by norm_num) (by norm_num)

/-- Its terms add up to 16, and those of its subexpressions to less. -/
example (p : Profile) : ∃ r, runExprF checkedI64 p 2 3 massExample = .ok r :=
  C104_total p 2 i64_within (by omega) (by omega) 3 (by omega) (by decide +kernel) (by decide) massExample massExample_words massExample_const
    ⟨show 16 ≤ _ by decide, ⟨show 4 ≤ _ by decide, show 3 ≤ _ by decide, show 1 ≤ _ by decide⟩, show 4 ≤ _ by decide, show 1 ≤ _ by decide, show 2 ≤ _ by decide⟩

example : massExample.total Int.natAbs = 16 := by decide

/-- The same in the integers from -6 to 6, where the sum of all terms does not fit, but those of each word do. -/
theorem massExample_small : massExample.Everywhere fun a => ∀ w, ValidWord 2 w → w.length ≤ 3 → a.mass Int.natAbs w ≤ (6 : Nat) := by
  have h : ∀ a : TExpr Int, (∀ i < 15, a.mass Int.natAbs (indexWord 2 i) ≤ (6 : Nat)) → ∀ w, ValidWord 2 w → w.length ≤ 3 → a.mass Int.natAbs w ≤ (6 : Nat) := by
    intro a ha w hv hl
    have h1 := (wordIndex_bounds hv).2
    have h2 := geomSum_mono (N := 2) (a := w.length + 1) (b := 4) (by omega)
    have h3 : geomSum 2 4 = 15 := rfl
    have h4 := ha _ (show wordIndex 2 w < 15 by omega)
    rwa [indexWord_wordIndex (by omega) hv] at h4
  exact ⟨h _ (by decide +kernel), ⟨h _ (by decide +kernel), h _ (by decide +kernel), h _ (by decide +kernel)⟩,
    h _ (by decide +kernel), h _ (by decide +kernel), h _ (by decide +kernel)⟩

example (p : Profile) : ∃ r, runExprF (rangeInt (-6) 6) p 2 3 massExample = .ok r := by
  obtain ⟨r, hr, -⟩ := C104_returns p 2 (C104_integers (lo := -6) (hi := 6) (B := 6) (by norm_num) (by norm_num)) (by omega) (by omega) 3 (by omega) (by decide +kernel) (by decide)
    massExample massExample_words massExample_const massExample_small
  exact ⟨r, hr⟩

/-- Its value, then, is the coefficient -6 of `aba`. -/
example (p : Profile) (k : TensorKey) (hk : fromLetters p 2 [1, 2, 1] = .ok k) :
    ∃ r x, runExprF (rangeInt (-6) 6) p 2 3 massExample = .ok r ∧ Dense.get (tensorBasis p 2) r k = .ok x ∧ x.getD 0 = -6 := by
  obtain ⟨r, hr, h⟩ := C104_values p 2 truncCoeff_isRing (C103_integers (-6) 6) (C104_integers (B := 6) (by norm_num) (by norm_num)) (by omega) (by omega) 3 (by omega)
    (by decide +kernel) (by decide) massExample massExample_words massExample_const massExample_small
  obtain ⟨x, h1, h2⟩ := h [1, 2, 1] k (by decide) (by decide +kernel) hk
  exact ⟨r, x, hr, h1, h2.trans (by decide)⟩

/-- In the integers from -5 to 5 it panics, since 6 is not among them. -/
example (p : Profile) : runExprF (rangeInt (-5) 5) p 2 3 massExample = .panic := by
  have h := C104_returns_or_panics p 2 truncCoeff_isRing (C103_integers (-5) 5) (C103_only_panics (-5) 5).1 (by omega) (by omega) 3 (by omega) (by decide +kernel)
    (by decide) massExample massExample_words massExample_const
  rcases hr : runExprF (rangeInt (-5) 5) p 2 3 massExample with r | _ | _ | _
  · have h1 := (C104_in_range p 2 (by omega) (by omega) (by omega) (by omega) 3 (by omega) (by decide +kernel) (by decide) massExample massExample_words
      ⟨⟨⟨by decide, by decide⟩, by decide, by decide⟩, ⟨by decide, by decide⟩, by decide, by decide⟩ r hr).1 [1, 1, 2] (by decide) (by decide)
    exact absurd h1.2 (by decide)
  · rfl
  · exact (h.1 hr).elim
  · exact (h.2 hr).elim

/-- `(2^31 a) (2^32 b)` in 64 bits: one more than the largest integer. -/
example (p : Profile) : runExprF checkedI64 p 2 2 (.mul (.term [1] (2 ^ 31)) (.term [2] (2 ^ 32))) = .panic :=
  (C104_exact p 2 (lo := -2 ^ 63) (hi := 2 ^ 63 - 1) (by omega) (by omega) (by omega) (by omega) 2 (by omega) (by decide +kernel) (by decide)
    (.mul (.term [1] (2 ^ 31)) (.term [2] (2 ^ 32))) ⟨⟨by decide, by decide⟩, by decide, by decide⟩ ⟨trivial, trivial, by decide⟩ ⟨trivial, trivial⟩
    ⟨⟨by decide, by decide⟩, by decide, by decide⟩).2.2 fun h => absurd (h.1 [1, 2] (by decide) (by decide)) (by decide)

/-- `(2^31 a) (2^31 b)` fits. -/
example (p : Profile) : ∃ r, runExprF checkedI64 p 2 2 (.mul (.term [1] (2 ^ 31)) (.term [2] (2 ^ 31))) = .ok r := by
  refine (C104_exact p 2 (lo := -2 ^ 63) (hi := 2 ^ 63 - 1) (by omega) (by omega) (by omega) (by omega) 2 (by omega) (by decide +kernel) (by decide)
    (.mul (.term [1] (2 ^ 31)) (.term [2] (2 ^ 31))) ⟨⟨by decide, by decide⟩, by decide, by decide⟩ ⟨trivial, trivial, by decide⟩ ⟨trivial, trivial⟩
    ⟨⟨by decide, by decide⟩, by decide, by decide⟩).1.2 ?_
  have h : ∀ a : TExpr Int, (∀ i < 7, a.value (indexWord 2 i) ≤ 2 ^ 63 - 1) → ∀ w, ValidWord 2 w → w.length ≤ 2 → a.value w ≤ 2 ^ 63 - 1 := by
    intro a ha w hv hl
    have h1 := (wordIndex_bounds hv).2
    have h2 := geomSum_mono (N := 2) (a := w.length + 1) (b := 3) (by omega)
    have h3 : geomSum 2 3 = 7 := rfl
    have h4 := ha _ (show wordIndex 2 w < 7 by omega)
    rwa [indexWord_wordIndex (by omega) hv] at h4
  exact ⟨h _ (by decide +kernel), h _ (by decide +kernel), h _ (by decide +kernel)⟩

end RA
