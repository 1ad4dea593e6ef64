import Verif.Props.Basis
import Verif.Props.SparseProgram
import Verif.Props.Algebra

/-!
# Alphabets with one letter (C94)

`TensorBasis<1>`: the words are the powers of the letter, so tensors are polynomials in one variable.  `start_of_degree` divides by `NLETTERS - 1`.
-/

namespace RA
open Spec TensorKey TensorBasis DenseAlg

section
variable {S R : Type} (C : Coeff S R) (p : Profile)

/-- C94, the property one expects: over one letter each word can be made into a dense tensor, and dense tensors multiply like polynomials, truncated
at the given degree. -/
def C94_one_letter_full : Prop :=
  (∀ w k s, ValidWord 1 w → w.length ≤ maxDepth 1 → fromLetters p 1 w = .ok k →
    ∃ r, (DenseAlg.ops C p 1).fromKeyScalar k s = .ok r ∧ (DenseAlg.ops C p 1).get r k = .ok (some s)) ∧
  ∀ (a b : Dense S) (D : Nat), D ≤ maxDepth 1 → 1 ≤ min D (a.size - 1 + (b.size - 1)) → 1 ≤ a.size → 1 ≤ b.size →
    ∃ r, (DenseAlg.ops C p 1).multiply a b (some D) = .ok r ∧ ∀ n ≤ D, (r.data[n]?).getD C.zero =
      (List.range (n + 1)).foldl (fun s i => C.add s (C.mul ((a.data[i]?).getD C.zero) ((b.data[n - i]?).getD C.zero))) C.zero

/-- C94.  No degree has a start: the division by `NLETTERS - 1` panics in both profiles. -/
theorem C94_start_of_degree (d : Nat) : startOfDegree p 1 d = .panic := by
  unfold startOfDegree
  rw [powW_ok (by simp), Res.bind_ok, subW_ok (by simp), Res.bind_ok, subW_ok (by simp), Res.bind_ok]
  rfl

example : startOfDegree .release 1 0 = .panic := C94_start_of_degree .release 0

theorem degreeRange_one (d : Nat) : degreeRange p 1 d = .panic := by
  unfold degreeRange
  rw [C94_start_of_degree]
  rfl

/-- C94.  The degree of a dense tensor: known for up to two entries, a panic for more. -/
theorem C94_degree (v : Dense S) : v.degree (tensorBasis p 1) = if v.size ≤ 2 then .ok (v.size - 1) else .panic := by
  unfold Dense.degree
  show (if v.size = 0 then _ else indexToDegree p 1 (v.size - 1)) = _
  by_cases h0 : v.size = 0
  · rw [if_pos h0, if_pos (by omega), h0]
  rw [if_neg h0]
  unfold indexToDegree
  by_cases h1 : v.size - 1 = 0
  · rw [if_pos h1, if_pos (by omega), h1]
  rw [if_neg h1]
  by_cases h2 : v.size ≤ 2
  · rw [if_pos (by omega), if_pos h2]
    congr 1
    omega
  · rw [if_neg (by omega), if_neg h2, C94_start_of_degree]
    rfl

example : (Dense.ofVec [(1 : Int), 2]).degree (tensorBasis .release 1) = .ok 1 := C94_degree .release _
example : (Dense.ofVec [(1 : Int), 2, 3]).degree (tensorBasis .release 1) = .panic := C94_degree .release _

/-- C94.  No dense tensor can be made from a key or for a degree: every such constructor panics, for all keys and degrees, in both profiles. -/
theorem C94_constructors_panic (k : TensorKey) (s : S) (d : Nat) :
    (DenseAlg.ops C p 1).fromKey k = .panic ∧ (DenseAlg.ops C p 1).fromKeyScalar k s = .panic ∧
      Dense.fromDegree C (tensorBasis p 1) d = .panic := by
  have h : ∀ s, Dense.fromKeyScalar C (tensorBasis p 1) k s = .panic := by
    intro s
    unfold Dense.fromKeyScalar
    rw [show (tensorBasis p 1).dimForKey k = .panic from C13_vector_dimension_one_letter p k]
    rfl
  refine ⟨h _, h _, ?_⟩
  unfold Dense.fromDegree
  rw [show (tensorBasis p 1).startOfDegree d = .panic from C94_start_of_degree p d]
  rfl

example : (DenseAlg.ops intCoeff .release 1).fromKey TensorKey.new = .panic := (C94_constructors_panic intCoeff .release _ 0 0).1

theorem dimForIndex_one (i : Nat) : vectorDimensionForIndex p 1 i = .panic := by
  unfold vectorDimensionForIndex indexToDegree
  by_cases h0 : i = 0
  · rw [if_pos h0, Res.bind_ok, addW_ok (by omega), Res.bind_ok, C94_start_of_degree]
  rw [if_neg h0]
  by_cases h1 : 1 ≤ i ∧ i ≤ 1
  · rw [if_pos h1, Res.bind_ok, addW_ok (by omega), Res.bind_ok, C94_start_of_degree]
  · rw [if_neg h1, C94_start_of_degree]
    rfl

/-- C94.  `from_iterator` panics for every list of words except the empty one, for which it gives the empty vector. -/
theorem C94_from_iterator (items : List (List Nat × S)) (hw : ∀ e ∈ items, ValidWord 1 e.1 ∧ e.1.length ≤ maxDepth 1) :
    ∃ keys, items.mapM (fun e => do let k ← fromLetters p 1 e.1; return (k, e.2)) = .ok keys ∧
      (DenseAlg.ops C p 1).fromIterator keys = if items = [] then .ok Dense.new else .panic := by
  refine ⟨items.map fun e => (keyOf 1 e.1, e.2), ?_, ?_⟩
  · induction items with
    | nil => rfl
    | cons e items ih =>
      have := hw e (by simp)
      rw [List.mapM_cons, fromLetters_ok p 1 (by omega) (by omega) e.1 this.1 this.2, Res.bind_ok,
        ih (fun e he => hw e (by simp [he]))]
      rfl
  · show Dense.fromIterator C (tensorBasis p 1) _ = _
    unfold Dense.fromIterator
    have hm : (items.map fun e => (keyOf 1 e.1, e.2)).mapM (fun e => do let i ← (tensorBasis p 1).keyToIndex e.1; return (i, e.2)) =
        Res.ok (items.map fun e => (wordIndex 1 e.1, e.2)) := by
      induction items with
      | nil => rfl
      | cons e items ih =>
        have := hw e (by simp)
        rw [List.map_cons, List.mapM_cons,
          show (tensorBasis p 1).keyToIndex (keyOf 1 e.1) = .ok (wordIndex 1 e.1) from keyToIndex_keyOf p 1 (by omega) (by omega) e.1 this.1 this.2,
          Res.bind_ok, ih (fun e he => hw e (by simp [he]))]
        rfl
    rw [hm, Res.bind_ok]
    split
    · rename_i h
      rw [List.getLast?_eq_none_iff] at h
      have hl := congrArg List.length h
      rw [List.length_mergeSort, List.length_map] at hl
      rw [if_pos (List.length_eq_zero_iff.mp hl)]
      rfl
    · rename_i last h
      rw [if_neg (by rintro rfl; simp at h)]
      rw [show (tensorBasis p 1).dimForIndex last.1 = .panic from dimForIndex_one p _]
      rfl

example := C94_from_iterator intCoeff .debug [([1, 1], 5), ([], 2)] (by decide +kernel)

/-- A turn of the loop over the degrees reaches a pair of degrees, and the first pair needs the range of a degree. -/
theorem mulAddDegree_one (a b : Dense S) (f : S → S) (da db : Nat) (v : Dense S) (m : Nat) (hm : m ≤ da + db) :
    mulAddDegree C p 1 a b f da db v m = .panic := by
  have key : ∀ l, l ≤ min m da → (List.range' l (min m da + 1 - l)).reverse.foldlM (mulAddStep C p 1 a b f m) v = .panic := by
    intro l hle
    obtain ⟨t, ht⟩ : ∃ t, min m da + 1 - l = t + 1 := ⟨min m da - l, by omega⟩
    have e : (List.range' l (min m da + 1 - l)).reverse = (l + t) :: (List.range' l t).reverse := by
      rw [ht, List.range'_1_concat, List.reverse_append]
      rfl
    rw [e, List.foldlM_cons]
    unfold mulAddStep
    rw [subW_ok (by omega), Res.bind_ok, degreeRange_one]
    rfl
  unfold mulAddDegree
  by_cases h : m > db
  · rw [if_pos h, subW_ok (by omega)]
    exact key _ (by omega)
  · rw [if_neg h]
    exact key _ (by omega)

/-- C94.  Every product that writes into another tensor panics, for all tensors, closures and degrees, in both profiles. -/
theorem C94_mul_add_panics (v a b : Dense S) (f : S → S) (D : Option Nat) : (DenseAlg.ops C p 1).mulAddInto v a b f D = .panic := by
  show DenseAlg.mulAddInto C p 1 v a b f D = .panic
  unfold DenseAlg.mulAddInto
  rw [C94_degree, C94_degree]
  by_cases ha : a.size ≤ 2
  swap
  · rw [if_neg ha]; rfl
  by_cases hb : b.size ≤ 2
  swap
  · rw [if_pos ha, if_neg hb]; rfl
  rw [if_pos ha, if_pos hb, Res.bind_ok, Res.bind_ok]
  cases D with
  | none => rfl
  | some D =>
    show (do let s ← addW p 32 _ _; return min D s : Res Nat) >>= _ = _
    rw [addW_ok (by omega), Res.bind_ok]
    show (growTo C p 1 v _ >>= _) = _
    unfold growTo
    rw [C94_degree]
    by_cases hv : v.size ≤ 2
    swap
    · rw [if_neg hv]; rfl
    rw [if_pos hv, Res.bind_ok]
    generalize hm : min D (a.size - 1 + (b.size - 1)) = m
    split
    · rw [addW_ok (by omega), Res.bind_ok, C94_start_of_degree]
      rfl
    · show List.foldlM _ _ _ = _
      rw [List.range_succ, List.reverse_append, List.reverse_singleton, List.singleton_append, List.foldlM_cons]
      rw [mulAddDegree_one C p a b f _ _ v m (by omega)]
      rfl

/-- C94.  In particular the product, the commutator and the fused products panic; so do `exp` and `log`. -/
theorem C94_products_panic (v a b : Dense S) (D : Option Nat) (maxDegree : Nat) :
    (DenseAlg.ops C p 1).multiply a b D = .panic ∧ (DenseAlg.ops C p 1).addMul v a b D = .panic ∧ (DenseAlg.ops C p 1).subMul C v a b D = .panic ∧
      (DenseAlg.ops C p 1).commutator C a b D = .panic ∧ FreeTensor.exp C (DenseAlg.ops C p 1) maxDegree a = .panic ∧
      FreeTensor.log C (DenseAlg.ops C p 1) maxDegree a = .panic := by
  refine ⟨C94_mul_add_panics C p _ _ _ _ _, C94_mul_add_panics C p _ _ _ _ _, C94_mul_add_panics C p _ _ _ _ _, ?_, ?_, ?_⟩
  · unfold AlgOps.commutator AlgOps.addMul
    rw [C94_mul_add_panics]
    rfl
  · unfold FreeTensor.exp
    rw [(C94_constructors_panic C p TensorKey.new C.zero 0).1]
    rfl
  · unfold FreeTensor.log
    rw [(C94_constructors_panic C p TensorKey.new C.zero 0).1]
    rfl

example : (DenseAlg.ops intCoeff .debug 1).multiply (.ofVec [2, 1]) (.ofVec [3, 1]) (some 2) = .panic :=
  (C94_products_panic intCoeff .debug .new _ _ _ 0).1

/-- The cases in which the product in place returns: a truncation degree is given, neither operand has more than two entries, and either no degree
above zero is asked for, or the left operand has two entries and the right one is the scalar one. -/
def InplaceReturns (a b : Dense S) (D : Option Nat) : Prop :=
  ∃ d, D = some d ∧ a.size ≤ 2 ∧ b.size ≤ 2 ∧ (min d (a.size - 1 + (b.size - 1)) = 0 ∨
    (a.size = 2 ∧ ∃ y, b.data = [y] ∧ C.eq y C.zero = false ∧ C.eq y C.one = true))

theorem mulIntoAssign_one (b : Dense S) (f : S → S) (o m t : Nat) (ht : t ≤ m) (v : Dense S) : mulIntoAssign C p 1 b f o m t v = .panic := by
  unfold mulIntoAssign
  rw [subW_ok (by omega), Res.bind_ok, degreeRange_one]
  rfl

/-- C94.  The product in place returns in exactly these cases and then leaves the left operand as it is; in all other cases it panics. -/
theorem C94_mul_inplace (a b : Dense S) (f : S → S) (D : Option Nat) :
    (InplaceReturns C a b D → (DenseAlg.ops C p 1).mulInto a b f D = .ok a) ∧
      (¬ InplaceReturns C a b D → (DenseAlg.ops C p 1).mulInto a b f D = .panic) := by
  show (_ → DenseAlg.mulInto C p 1 a b f D = .ok a) ∧ (_ → DenseAlg.mulInto C p 1 a b f D = .panic)
  unfold DenseAlg.mulInto
  rw [C94_degree, C94_degree]
  by_cases ha : a.size ≤ 2
  swap
  · rw [if_neg ha]
    exact ⟨fun ⟨d, _, h, _⟩ => absurd h ha, fun _ => rfl⟩
  by_cases hb : b.size ≤ 2
  swap
  · rw [if_pos ha, if_neg hb]
    exact ⟨fun ⟨d, _, _, h, _⟩ => absurd h hb, fun _ => rfl⟩
  rw [if_pos ha, if_pos hb, Res.bind_ok, Res.bind_ok]
  cases D with
  | none => exact ⟨fun ⟨d, h, _⟩ => (by cases h), fun _ => rfl⟩
  | some D =>
    have hmd : maxDeg p (some D) (a.size - 1) (b.size - 1) = .ok (min D (a.size - 1 + (b.size - 1))) := by
      unfold maxDeg
      rw [addW_ok (by omega)]
      rfl
    rw [hmd, Res.bind_ok]
    by_cases h0 : min D (a.size - 1 + (b.size - 1)) = 0
    · have hg : growTo C p 1 a 0 = .ok a := by
        unfold growTo
        rw [C94_degree, if_pos ha]
        rfl
      rw [h0, hg]
      exact ⟨fun _ => rfl, fun h => absurd ⟨D, rfl, ha, hb, .inl h0⟩ h⟩
    by_cases h1 : a.size - 1 < min D (a.size - 1 + (b.size - 1))
    · have hg : growTo C p 1 a (min D (a.size - 1 + (b.size - 1))) = .panic := by
        unfold growTo
        rw [C94_degree, if_pos ha, Res.bind_ok, if_pos h1, addW_ok (by omega), Res.bind_ok, C94_start_of_degree]
        rfl
      rw [hg]
      refine ⟨fun ⟨d, hd, _, _, h⟩ => ?_, fun _ => rfl⟩
      cases hd
      obtain h | ⟨-, y, hy, -⟩ := h
      · exact absurd h h0
      · have : b.size = 1 := by simp [Dense.size, hy]
        omega
    · have hg : growTo C p 1 a (min D (a.size - 1 + (b.size - 1))) = .ok a := by
        unfold growTo
        rw [C94_degree, if_pos ha, Res.bind_ok, if_neg h1]
        rfl
      have hm : min D (a.size - 1 + (b.size - 1)) = 1 := by omega
      have ha2 : a.size = 2 := by omega
      rw [hg, Res.bind_ok, hm]
      show _ ∧ _
      have hr : ∀ g : Dense S → Nat → Res (Dense S), List.foldlM g a (List.range' 1 1).reverse = g a 1 := by
        intro g
        show (g a 1 >>= fun s => pure s) = _
        cases g a 1 <;> rfl
      simp only [hr]
      have hP : InplaceReturns C a b (some D) ↔ ∃ y, b.data = [y] ∧ C.eq y C.zero = false ∧ C.eq y C.one = true := by
        constructor
        · rintro ⟨d, hd, -, -, h⟩
          cases hd
          exact h.elim (fun h => absurd h h0) (·.2)
        · exact fun h => ⟨D, rfl, ha, hb, .inr ⟨ha2, h⟩⟩
      rw [hP]
      have hassign : ∀ o, o ≤ 1 → mulIntoDegree C p 1 b f o true (a.size - 1) (b.size - 1) a 1 = .panic := by
        intro o ho
        unfold mulIntoDegree
        rw [subW_ok (by omega), Res.bind_ok, subW_ok ho, Res.bind_ok]
        simp only [if_true]
        rw [mulIntoAssign_one C p b f o 1 _ (by omega)]
        rfl
      unfold offsetAssign
      obtain hl | ⟨y, hl⟩ | ⟨y, z, hl⟩ : b.data = [] ∨ (∃ y, b.data = [y]) ∨ ∃ y z, b.data = [y, z] := by
        rcases hbd : b.data with _ | ⟨y, _ | ⟨z, _ | ⟨u, l⟩⟩⟩
        · exact .inl rfl
        · exact .inr (.inl ⟨y, rfl⟩)
        · exact .inr (.inr ⟨y, z, rfl⟩)
        · simp [Dense.size, hbd] at hb
      · rw [hl]
        exact ⟨fun ⟨y, h, _⟩ => (by cases h), fun _ => hassign 0 (by omega)⟩
      · have hbs : b.size = 1 := by simp [Dense.size, hl]
        rw [hl]
        show (_ → _ = _) ∧ (_ → _ = _)
        simp only [List.getElem?_cons_zero]
        by_cases hz : C.eq y C.zero = true
        · rw [if_pos hz]
          refine ⟨fun ⟨y', h, h', _⟩ => ?_, fun _ => hassign 1 (by omega)⟩
          cases h
          rw [hz] at h'
          cases h'
        rw [if_neg hz]
        by_cases ho : C.eq y C.one = true
        · rw [if_pos ho]
          refine ⟨fun _ => ?_, fun h => absurd ⟨y, rfl, by simpa using hz, ho⟩ h⟩
          unfold mulIntoDegree
          rw [hbs, subW_ok (by omega), Res.bind_ok, subW_ok (by omega), Res.bind_ok, ha2]
          rfl
        · rw [if_neg ho]
          refine ⟨fun ⟨y', h, _, h'⟩ => ?_, fun _ => hassign 0 (by omega)⟩
          cases h
          exact absurd h' ho
      · have hbs : b.size = 2 := by simp [Dense.size, hl]
        rw [hl]
        show (_ → _ = _) ∧ (_ → _ = _)
        simp only [List.getElem?_cons_zero]
        refine ⟨fun ⟨y', h, _⟩ => (by cases h), fun _ => ?_⟩
        by_cases hz : C.eq y C.zero = true
        · rw [if_pos hz]
          exact hassign 1 (by omega)
        rw [if_neg hz]
        by_cases ho : C.eq y C.one = true
        · rw [if_pos ho]
          unfold mulIntoDegree
          rw [hbs, subW_ok (by omega), Res.bind_ok, Res.bind_ok, ha2]
          show (mulIntoStep C p 1 b f 1 0 a 0 >>= fun s => pure s) = _
          unfold mulIntoStep
          rw [subW_ok (by omega), Res.bind_ok, Res.bind_ok, degreeRange_one]
          rfl
        · rw [if_neg ho]
          exact hassign 0 (by omega)

example : InplaceReturns intCoeff (.ofVec [3, 4]) (.ofVec [1]) (some 5) := ⟨5, rfl, by decide, by decide, .inr ⟨rfl, 1, rfl, rfl, rfl⟩⟩
example : ¬ InplaceReturns intCoeff (.ofVec [3, 4]) (.ofVec [2]) (some 5) := by
  rintro ⟨d, hd, -, -, h | ⟨-, y, hy, -, h⟩⟩
  · cases hd
    revert h
    decide
  · cases hy
    revert h
    decide

/-- C94.  For two scalars the product in place is wrong: the left one comes back unchanged. -/
theorem C94_scalars_inplace (x y : S) (d : Nat) :
    (DenseAlg.ops C p 1).multiplyInplace (.ofVec [x]) (.ofVec [y]) (some d) = .ok (.ofVec [x]) := by
  show (DenseAlg.ops C p 1).mulInto _ _ _ _ = _
  exact (C94_mul_inplace C p _ _ _ _).1
    ⟨d, rfl, by simp [Dense.size, Dense.ofVec], by simp [Dense.size, Dense.ofVec], .inl (by simp [Dense.size, Dense.ofVec])⟩

example : (DenseAlg.ops intCoeff .debug 1).multiplyInplace (.ofVec [2]) (.ofVec [3]) (some 4) = .ok (.ofVec [2]) := C94_scalars_inplace intCoeff .debug 2 3 4

/-- C94, the part that holds.  The keys of the powers of the letter can be built; a dense tensor made from a list of coefficients has the `n`-th of
them at the power `n`, it can be changed there, and tensors are added and scaled coefficient by coefficient. -/
theorem C94_one_letter_partial (n : Nat) (hn : n ≤ maxDepth 1) :
    ∃ k, fromLetters p 1 (List.replicate n 1) = .ok k ∧ toLetters p 1 k = .ok (List.replicate n 1) ∧ keyToIndex p 1 k = .ok n ∧ indexToKey p 1 n = .ok k ∧
      ∀ v : Dense S, (DenseAlg.ops C p 1).get v k = .ok v.data[n]? ∧
        (∀ f, ∃ v', (DenseAlg.ops C p 1).getMut v k f = .ok (decide (n < v.size), v') ∧ v'.data = v.data.modify n f) ∧
        (∀ u : Dense S, ∃ r, (DenseAlg.ops C p 1).add v u = .ok r ∧ (DenseAlg.ops C p 1).get r k = .ok (combineEntry C.add C.zero v.data[n]? u.data[n]?)) ∧
        ∀ s, ∃ r, (DenseAlg.ops C p 1).scalarRmultiply v s = .ok r ∧ (DenseAlg.ops C p 1).get r k = .ok (v.data[n]?.map fun x => C.mul x s) := by
  have hw : ValidWord 1 (List.replicate n 1) := validWord_unary n
  have hl : (List.replicate n 1).length ≤ maxDepth 1 := by simpa using hn
  have hi : wordIndex 1 (List.replicate n 1) = n := by rw [← indexWord_unary, wordIndex_indexWord]
  have hk := keyToIndex_keyOf p 1 (by omega) (by omega) _ hw hl
  rw [hi] at hk
  refine ⟨keyOf 1 (List.replicate n 1), fromLetters_ok p 1 (by omega) (by omega) _ hw hl, ?_, hk, ?_, fun v => ?_⟩
  · rw [toLetters_keyOf p 1 (by omega) (by omega) _ hw hl, List.reverse_replicate]
  · rw [indexToKey_ok p 1 (by omega) (by omega) n (by rw [geomSum_one]; omega), indexWord_unary]
  have hg : ∀ v : Dense S, (DenseAlg.ops C p 1).get v (keyOf 1 (List.replicate n 1)) = .ok v.data[n]? := by
    intro v
    show Dense.get _ _ _ = _
    unfold Dense.get
    rw [show (tensorBasis p 1).keyToIndex _ = .ok n from hk]
    rfl
  refine ⟨hg v, fun f => ?_, fun u => ?_, fun s => ?_⟩
  · show ∃ v', Dense.getMut _ _ _ _ = _ ∧ _
    unfold Dense.getMut
    rw [show (tensorBasis p 1).keyToIndex _ = .ok n from hk, Res.bind_ok]
    by_cases h : n < v.data.length
    · rw [if_pos h, show decide (n < v.size) = true from decide_eq_true h]
      exact ⟨_, rfl, by rcases v with ⟨_ | _ | _, d, l⟩ <;> rfl⟩
    · rw [if_neg h, show decide (n < v.size) = false from decide_eq_false h]
      refine ⟨_, rfl, ?_⟩
      rw [List.modify_eq_self (by omega)]
      unfold Dense.makeMut
      cases v.mode <;> rfl
  · obtain ⟨r, r', -, hr', -, hd, -, hget⟩ := C19_add C (tensorBasis p 1) v u
    refine ⟨r', hr', ?_⟩
    rw [hg, hd, ← hg]
    exact hget _ _ _ (hg v) (hg u)
  · obtain ⟨r, r', -, -, -, hr', -, hd, -, hget⟩ := C19_scalar_multiply C (tensorBasis p 1) v s
    refine ⟨r', hr', ?_⟩
    rw [hg, hd, ← hg]
    exact hget _ _ (hg v)

example := C94_one_letter_partial intCoeff .release 40 (by decide +kernel)

end

/-- C94 is false of the code, for all coefficients and in both profiles: the empty word cannot be made into a dense tensor. -/
theorem C94_one_letter_refuted {S R : Type} (C : Coeff S R) (p : Profile) : ¬ C94_one_letter_full C p := by
  intro h
  obtain ⟨r, hr, -⟩ := h.1 [] _ C.zero (by decide) (by simp) (fromLetters_ok p 1 (by omega) (by omega) [] (by decide) (by simp))
  rw [(C94_constructors_panic C p _ _ 0).2.1] at hr
  cases hr

example : ¬ C94_one_letter_full intCoeff .debug := C94_one_letter_refuted _ _

/-- C94.  Sparse vectors are not affected: programs on sparse vectors over one letter compute the vectors of their mathematical meaning. -/
theorem C94_sparse_partial {S R : Type} [CommRing S] (C : Coeff S R) (p : Profile) (hC : C.IsRing) (hE : C.EqLawful) (prog : List (PStmt S R))
    (hs : ∀ s ∈ prog, s.Within 1 (maxDepth 1) ∧ Linear s) :
    ∃ σ, runSparseProg C p 1 prog = .ok σ ∧ ∀ i n k, n ≤ maxDepth 1 → fromLetters p 1 (List.replicate n 1) = .ok k →
      ∃ x, (Sparse.ops C).get (σ i) k = .ok x ∧ x.getD 0 = valueProg prog i (List.replicate n 1) := by
  obtain ⟨σ, h, hσ⟩ := C67_sparse_programs C p 1 hC hE (by omega) (by omega) (maxDepth 1) (Nat.le_refl _) prog hs
  exact ⟨σ, h, fun i n k hn hk => (hσ i).2 _ k (validWord_unary n) (by simpa using hn) hk⟩

/-- C94.  An alphabet without letters: the only word is the empty one.  In release builds the subtractions wrap and the quotient happens to be the
number of words of smaller degree; in debug builds every call panics. -/
theorem C94_no_letters (d : Nat) : startOfDegree .release 0 d = .ok (min d 1) ∧ geomSum 0 d = min d 1 ∧ startOfDegree .debug 0 d = .panic := by
  cases d with
  | zero => exact ⟨by decide +kernel, rfl, by decide +kernel⟩
  | succ d =>
    refine ⟨?_, ?_, ?_⟩
    · rw [show min (d + 1) 1 = 1 by omega]
      unfold startOfDegree
      rw [powW_ok (by simp)]
      simp only [Res.bind_ok, Nat.zero_pow (Nat.succ_pos d)]
      decide +kernel
    · induction d with
      | zero => rfl
      | succ d ih => rw [geomSum, ih]; simp
    · unfold startOfDegree
      rw [powW_ok (by simp)]
      simp only [Res.bind_ok, Nat.zero_pow (Nat.succ_pos d)]
      decide +kernel

example : startOfDegree .release 0 7 = .ok 1 := (C94_no_letters 7).1

end RA
