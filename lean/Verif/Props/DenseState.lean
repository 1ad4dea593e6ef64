import Verif.Props.Dense

/-!
# Equality, copies, insertion, degree and storage modes of the dense vector (C21-C25)
-/

namespace RA
open Spec TensorKey TensorBasis

section
variable {K S R : Type} (C : Coeff S R) (B : Basis K)

/-! ## C21: equality -/

/-- C21, full statement: `a == b` exactly when the coefficients agree at every key. -/
def C21_eq_full : Prop :=
  ∀ a b : Dense S, (Dense.ops C B).eq a b = true ↔
    ∀ k x y, coefAt C B a k = .ok x → coefAt C B b k = .ok y → x = y

/-- C21 is false for every coefficient type and basis: the empty vector and a vector of one zero have the same coefficients and compare unequal. -/
theorem C21_eq_refuted : ¬ C21_eq_full C B := by
  intro h
  have := (h Dense.new (Dense.fromDimension C 1)).2 (by
    intro k x y hx hy
    obtain ⟨i, _, rfl⟩ := coef_inv C B hx
    obtain ⟨j, _, rfl⟩ := coef_inv C B hy
    unfold Dense.new Dense.fromDimension Dense.ofVec
    simp only [List.getElem?_replicate]
    split_ifs <;> simp)
  change Dense.eq C (Dense.new : Dense S) (Dense.fromDimension C 1) = true at this
  unfold Dense.eq Dense.new Dense.fromDimension Dense.ofVec at this
  simp at this

example : ¬ C21_eq_full intCoeff (tensorBasis .debug 3) := C21_eq_refuted _ _

/-- The same with public constructors on tensors: `x - x` for the word `[1]` is not equal to the zero vector `new()`, although every coefficient is zero. -/
theorem C21_eq_difference_refuted (p : Profile) :
    ∃ x d, (Dense.ops intCoeff (tensorBasis p 2)).fromKey (keyOf 2 [1]) = .ok x ∧
      (Dense.ops intCoeff (tensorBasis p 2)).sub x x = .ok d ∧ d.data = [0, 0, 0] ∧
      (Dense.ops intCoeff (tensorBasis p 2)).eq d Dense.new = false := by
  refine ⟨⟨.owned, [0, 1, 0], []⟩, ⟨.owned, [0, 0, 0], []⟩, ?_, ?_, rfl, ?_⟩ <;> cases p <;> decide +kernel

theorem eq_iff_data (hE : C.EqLawful) (a b : Dense S) : (Dense.ops C B).eq a b = true ↔ a.data = b.data := by
  show Dense.eq C a b = true ↔ _
  unfold Dense.eq
  generalize a.data = l
  generalize b.data = m
  rw [Bool.and_eq_true, decide_eq_true_eq]
  constructor
  · rintro ⟨hl, hall⟩
    refine List.ext_getElem hl ?_
    intro i h1 h2
    rw [List.all_eq_true] at hall
    have := hall (C.eq l[i] m[i]) (by
      rw [List.mem_iff_getElem]
      exact ⟨i, by simp; omega, by simp⟩)
    exact (hE _ _).1 this
  · rintro rfl
    refine ⟨rfl, ?_⟩
    rw [List.all_eq_true]
    intro x hx
    rw [List.mem_iff_getElem] at hx
    obtain ⟨i, hi, rfl⟩ := hx
    simp only [List.getElem_zipWith, id]
    exact (hE _ _).2 rfl

/-- C21, the part that holds: vectors of the same size, over coefficients whose `==` is equality, with a basis that has a key for every stored index.
Missing: vectors of different sizes that differ by trailing zeros. -/
theorem C21_eq_partial (hE : C.EqLawful) (a b : Dense S) (hs : a.size = b.size) (hB : ∀ i, i < a.size → ∃ k, B.keyToIndex k = .ok i) :
    (Dense.ops C B).eq a b = true ↔ ∀ k x y, coefAt C B a k = .ok x → coefAt C B b k = .ok y → x = y := by
  rw [eq_iff_data C B hE]
  constructor
  · intro h k x y hx hy
    obtain ⟨i, hi, rfl⟩ := coef_inv C B hx
    obtain ⟨j, hj, rfl⟩ := coef_inv C B hy
    rw [hi] at hj
    cases hj
    rw [h]
  · intro h
    refine List.ext_getElem hs ?_
    intro i h1 h2
    obtain ⟨k, hk⟩ := hB i h1
    have := h k _ _ (coef_ok C B a hk) (coef_ok C B b hk)
    rw [List.getElem?_eq_getElem h1, List.getElem?_eq_getElem h2] at this
    exact this

example : (Dense.ops intCoeff integerBasis).eq (.ofVec [1, 2]) (.ofBorrowed [1, 2]) = true ↔
    ∀ k x y, coefAt intCoeff integerBasis (.ofVec [1, 2]) k = .ok x → coefAt intCoeff integerBasis (.ofBorrowed [1, 2]) k = .ok y → x = y :=
  C21_eq_partial intCoeff integerBasis intCoeff_eqLawful _ _ rfl (fun i _ => ⟨i, rfl⟩)

/-- C21, soundness without a size condition: vectors that compare equal have the same size and the same coefficients. -/
theorem C21_eq_sound_partial (hE : C.EqLawful) (a b : Dense S) (h : (Dense.ops C B).eq a b = true) :
    a.size = b.size ∧ ∀ k, (Dense.ops C B).get a k = (Dense.ops C B).get b k := by
  rw [eq_iff_data C B hE] at h
  refine ⟨by unfold Dense.size; rw [h], fun k => ?_⟩
  show Dense.get B a k = Dense.get B b k
  unfold Dense.get
  rw [h]

example := C21_eq_sound_partial intCoeff (tensorBasis .debug 2) intCoeff_eqLawful (.ofVec [1, 2, 3]) (.ofBorrowed [1, 2, 3]) (by decide +kernel)

/-- The tensor basis has a key for every index of a vector of degree at most `max_depth`. -/
theorem C21_tensor_keys (p : Profile) (N : Nat) (h1 : 1 ≤ N) (hN : N < 2 ^ 32) (i : Nat) (hi : i < geomSum N (maxDepth N + 1)) :
    ∃ k, (tensorBasis p N).keyToIndex k = .ok i := by
  have := keyToIndex_keyOf p N h1 hN _ (validWord_indexWord h1 i) ((indexWord_length_le i _ h1).2 hi)
  rw [wordIndex_indexWord] at this
  exact ⟨_, this⟩

example : ∃ k, (tensorBasis .release 3).keyToIndex k = .ok 1000 :=
  C21_tensor_keys .release 3 (by omega) (by omega) 1000 (by decide +kernel)

example : (Dense.ops intCoeff (tensorBasis .debug 2)).eq (.ofVec [1, 2, 3]) (.ofBorrowed [1, 2, 3]) = true ∧
    (Dense.ops intCoeff (tensorBasis .debug 2)).eq (.ofVec [1, 2, 3]) (.ofBorrowed [1, 5, 3]) = false := by decide +kernel

/-! ## C22: copies, swap, clear, erase -/

/-- C22.  `to_owned` and `clone` give an owned vector with the same slice, whatever the storage mode. -/
theorem C22_copies (d : Dense S) :
    ∃ r, (Dense.ops C B).toOwned d = .ok r ∧ r.mode = .owned ∧ r.data = d.data ∧ d.clone = r :=
  ⟨_, rfl, rfl, rfl, rfl⟩

example : (Dense.ops intCoeff integerBasis).toOwned (.ofBorrowed [1, 2]) = .ok (.ofVec [1, 2]) := by decide +kernel

/-- C22.  `swap` exchanges the two vectors. -/
theorem C22_swap (a b : Dense S) : (Dense.ops C B).swap a b = .ok (b, a) := rfl

example : (Dense.ops intCoeff integerBasis).swap (.ofVec [1]) (.ofBorrowed [2, 3]) = .ok (.ofBorrowed [2, 3], .ofVec [1]) :=
  C22_swap intCoeff integerBasis _ _

/-- C22.  After `clear` every coefficient is zero; an owned or read-only borrowed vector is left empty, a mutably borrowed one keeps its length. -/
theorem C22_clear (d : Dense S) :
    ∃ r, (Dense.ops C B).clear d = .ok r ∧ r.size = (if d.mode = .borrowedMut then d.size else 0) ∧
      ∀ k x, coefAt C B r k = .ok x → x = C.zero := by
  have key : ∀ r : Dense S, (∀ x ∈ r.data, x = C.zero) → ∀ k x, coefAt C B r k = .ok x → x = C.zero := by
    intro r hr k x hx
    obtain ⟨i, _, rfl⟩ := coef_inv C B hx
    cases h : r.data[i]? with
    | none => rfl
    | some v => exact hr v (List.mem_of_getElem? h)
  obtain ⟨m, l, b⟩ := d
  cases m
  · exact ⟨_, rfl, rfl, key _ (by intro x hx; cases hx)⟩
  · exact ⟨_, rfl, rfl, key _ (by intro x hx; cases hx)⟩
  · refine ⟨_, rfl, ?_, key _ ?_⟩
    · simp [Dense.size]
    · intro x hx
      rw [Dense.writeSlice_data] at hx
      obtain ⟨_, _, rfl⟩ := List.mem_map.1 hx
      rfl

/-- C22.  `erase(k)` sets the coefficient of `k` to zero, changes no other key and does not change the size. -/
theorem C22_erase (d : Dense S) (k : K) (i : Nat) (hk : B.keyToIndex k = .ok i) :
    ∃ r, (Dense.ops C B).erase d k = .ok r ∧ r.size = d.size ∧ coefAt C B r k = .ok C.zero ∧
      ∀ k' i', B.keyToIndex k' = .ok i' → i' ≠ i → (Dense.ops C B).get r k' = (Dense.ops C B).get d k' := by
  have hget : ∀ (d' : Dense S) k' i', B.keyToIndex k' = .ok i' → (Dense.ops C B).get d' k' = .ok d'.data[i']? := by
    intro d' k' i' h
    show Dense.get B d' k' = _
    unfold Dense.get
    rw [h]; rfl
  by_cases hi : i < d.data.length
  · refine ⟨d.writeSlice (d.data.modify i fun _ => C.zero), ?_, ?_, ?_, ?_⟩
    · show Dense.erase C B d k = _
      unfold Dense.erase Dense.getMut
      rw [hk]
      simp only [Res.bind_ok, if_pos hi, Res.pure_eq]
    · simp [Dense.size]
    · rw [coef_ok C B _ hk, Dense.writeSlice_data, List.getElem?_modify]
      cases d.data[i]? <;> simp
    · intro k' i' h' hne
      rw [hget _ _ _ h', hget _ _ _ h', Dense.writeSlice_data, List.getElem?_modify]
      simp [Ne.symm hne]
  · refine ⟨d.makeMut, ?_, ?_, ?_, ?_⟩
    · show Dense.erase C B d k = _
      unfold Dense.erase Dense.getMut
      rw [hk]
      simp only [Res.bind_ok, if_neg hi, Res.pure_eq]
    · simp [Dense.size]
    · rw [coef_ok C B _ hk, Dense.makeMut_data, List.getElem?_eq_none (by omega)]
      rfl
    · intro k' i' h' hne
      rw [hget _ _ _ h', hget _ _ _ h', Dense.makeMut_data]

example := C22_erase intCoeff (tensorBasis .debug 3) (.ofVec [1, 2, 3, 4]) ⟨1, 1⟩ 2 (by decide +kernel)

example : (Dense.ops intCoeff integerBasis).erase (.ofBorrowedMut [1, 2, 3]) 1 = .ok ⟨.borrowedMut, [1, 0, 3], [1, 0, 3]⟩ ∧
    (Dense.ops intCoeff integerBasis).clear (.ofBorrowed [1, 2, 3]) = .ok ⟨.owned, [], [1, 2, 3]⟩ := by decide +kernel

/-! ## C23: insertion (dense part) -/

/-- C23, full statement for a vector type: after `insert_single(k, v)`, `get(k)` is `v` and the other keys are unchanged. -/
def C23_insert_full {V : Type} (T : VecOps V K S R) : Prop :=
  ∀ d k v, ∃ r, T.insertSingle d k v = .ok r ∧ T.get r k = .ok (some v) ∧ ∀ k', k' ≠ k → T.get r k' = T.get d k'

/-- C23, what the dense vector really does: `insert_single` never changes anything. -/
theorem C23_dense_insert_noop (d : Dense S) (k : K) (v : S) (i : Nat) (hk : B.keyToIndex k = .ok i) :
    (Dense.ops C B).insertSingle d k v = .ok d := by
  show Dense.insertSingle B d k v = _
  unfold Dense.insertSingle
  rw [hk]; rfl

example : (Dense.ops intCoeff (tensorBasis .debug 3)).insertSingle (.ofVec [1, 2]) ⟨1, 0⟩ 9 = .ok (.ofVec [1, 2]) :=
  C23_dense_insert_noop intCoeff (tensorBasis .debug 3) _ _ _ 1 (by decide +kernel)

/-- C23 is false of the dense vector for every basis with a key and every coefficient type with a value: the empty vector stays empty. -/
theorem C23_dense_insert_refuted (k : K) (i : Nat) (hk : B.keyToIndex k = .ok i) : ¬ C23_insert_full (Dense.ops C B) := by
  intro h
  obtain ⟨r, h1, h2, _⟩ := h Dense.new k C.one
  rw [C23_dense_insert_noop C B _ k _ i hk] at h1
  cases h1
  change Dense.get B Dense.new k = _ at h2
  unfold Dense.get at h2
  rw [hk] at h2
  cases h2

example : ¬ C23_insert_full (Dense.ops intCoeff (tensorBasis .debug 3)) :=
  C23_dense_insert_refuted intCoeff (tensorBasis .debug 3) ⟨1, 0⟩ 1 (by decide +kernel)

/-- C23, the trivial part that holds: inserting the value that is already stored. -/
theorem C23_dense_insert_partial (d : Dense S) (k : K) (v : S) (h : (Dense.ops C B).get d k = .ok (some v)) :
    ∃ r, (Dense.ops C B).insertSingle d k v = .ok r ∧ (Dense.ops C B).get r k = .ok (some v) ∧
      ∀ k', k' ≠ k → (Dense.ops C B).get r k' = (Dense.ops C B).get d k' := by
  obtain ⟨i, hk, _⟩ := get_eq C B d k _ h
  exact ⟨d, C23_dense_insert_noop C B d k v i hk, h, fun _ _ => rfl⟩

example := C23_dense_insert_partial intCoeff (tensorBasis .debug 3) (.ofVec [1, 2]) ⟨1, 0⟩ 2 (by decide +kernel)

/-- C23.  Writing through `get_mut` is the way to change a stored dense entry: it changes exactly that entry. -/
theorem C23_dense_get_mut (d : Dense S) (k : K) (i : Nat) (hk : B.keyToIndex k = .ok i) (f : S → S) :
    ∃ found r, (Dense.ops C B).getMut d k f = .ok (found, r) ∧ (found = true ↔ i < d.size) ∧ r.size = d.size ∧
      ∀ k' i' x, B.keyToIndex k' = .ok i' → (Dense.ops C B).get d k' = .ok x →
        (Dense.ops C B).get r k' = .ok (if i' = i then x.map f else x) := by
  have hget : ∀ (d' : Dense S) k' i', B.keyToIndex k' = .ok i' → (Dense.ops C B).get d' k' = .ok d'.data[i']? := by
    intro d' k' i' h
    show Dense.get B d' k' = _
    unfold Dense.get
    rw [h]; rfl
  by_cases hi : i < d.data.length
  · refine ⟨true, d.writeSlice (d.data.modify i f), ?_, by simp [Dense.size, hi], by simp [Dense.size], ?_⟩
    · show Dense.getMut B d k f = _
      unfold Dense.getMut
      rw [hk]
      simp only [Res.bind_ok, if_pos hi, Res.pure_eq]
    · intro k' i' x h' hx
      rw [hget _ _ _ h'] at hx ⊢
      injection hx with hx
      rw [Dense.writeSlice_data, List.getElem?_modify, hx]
      by_cases he : i' = i
      · subst he; simp
      · simp [he, Ne.symm he]
  · refine ⟨false, d.makeMut, ?_, by simp [Dense.size]; omega, by simp [Dense.size], ?_⟩
    · show Dense.getMut B d k f = _
      unfold Dense.getMut
      rw [hk]
      simp only [Res.bind_ok, if_neg hi, Res.pure_eq]
    · intro k' i' x h' hx
      rw [hget _ _ _ h'] at hx ⊢
      injection hx with hx
      rw [Dense.makeMut_data, hx]
      split_ifs with he
      · subst he
        rw [List.getElem?_eq_none (by omega)] at hx
        subst hx
        rfl
      · rfl

example := C23_dense_get_mut intCoeff (tensorBasis .debug 3) (.ofBorrowed [1, 2]) ⟨1, 0⟩ 1 (by decide +kernel) (· + 5)

end

/-! ## C24: degree -/

/-- C24.  The degree of a non-empty tensor vector is the largest degree of a word it stores a coefficient for. -/
theorem C24_degree {S R : Type} (C : Coeff S R) (p : Profile) (N : Nat) (h2 : 2 ≤ N) (hN : N < 2 ^ 32) (v : Dense S) (D : Nat)
    (h0 : 0 < v.size) (hs : v.size ≤ geomSum N (D + 1)) (hD : D ≤ maxDepth N) (hp : N ^ (D + 1) < 2 ^ 64) :
    ∃ d, v.degree (tensorBasis p N) = .ok d ∧ d ≤ D ∧
      (∃ w k x, ValidWord N w ∧ w.length = d ∧ fromLetters p N w = .ok k ∧ (Dense.ops C (tensorBasis p N)).get v k = .ok (some x)) ∧
      ∀ w k x, ValidWord N w → w.length ≤ maxDepth N → fromLetters p N w = .ok k →
        (Dense.ops C (tensorBasis p N)).get v k = .ok (some x) → w.length ≤ d := by
  have hget : ∀ w, ValidWord N w → w.length ≤ maxDepth N → (Dense.ops C (tensorBasis p N)).get v (keyOf N w) = .ok v.data[wordIndex N w]? := by
    intro w hw hl
    show Dense.get _ _ _ = _
    unfold Dense.get
    rw [show (tensorBasis p N).keyToIndex (keyOf N w) = .ok (wordIndex N w) from keyToIndex_keyOf p N (by omega) hN w hw hl]
    rfl
  set u := indexWord N (v.size - 1) with hu
  have huv : ValidWord N u := validWord_indexWord (by omega) _
  have hul : u.length ≤ D := (indexWord_length_le _ _ (by omega)).2 (by omega)
  have hui : wordIndex N u = v.size - 1 := wordIndex_indexWord N _
  have hub := wordIndex_bounds huv
  rw [hui] at hub
  refine ⟨u.length, ?_, hul, ⟨u, keyOf N u, v.data[v.size - 1]'(by unfold Dense.size at *; omega), huv, rfl,
    fromLetters_ok p N (by omega) hN u huv (by omega), ?_⟩, ?_⟩
  · unfold Dense.degree
    rw [if_neg (by omega)]
    exact indexToDegree_ok p N h2 _ _ (pow_lt64_mono h2 (by omega) hp) hub.1 hub.2
  · rw [hget u huv (by omega), hui, List.getElem?_eq_getElem]
  · intro w k x hw hl hk hx
    rw [fromLetters_ok p N (by omega) hN w hw hl] at hk
    cases hk
    rw [hget w hw hl] at hx
    injection hx with hx
    have hlt : wordIndex N w < v.size := by
      by_contra hc
      rw [List.getElem?_eq_none (by unfold Dense.size at hc; omega)] at hx
      cases hx
    have hwb := wordIndex_bounds hw
    by_contra hc
    have := geomSum_mono (N := N) (show u.length + 1 ≤ w.length by omega)
    omega

example := C24_degree intCoeff .debug 2 (by omega) (by omega) (.ofVec [5, 0, 7, 1]) 2 (by decide) (by decide) (by decide +kernel) (by decide)

/-- C24.  The empty vector has degree 0. -/
theorem C24_degree_empty {K S : Type} (B : Basis K) (v : Dense S) (h : v.size = 0) : v.degree B = .ok 0 := by
  unfold Dense.degree; rw [if_pos h]

example : (Dense.new : Dense Int).degree (tensorBasis .debug 3) = .ok 0 := C24_degree_empty _ _ rfl

/-- C24.  A vector storing all words up to degree `d` (as every constructor from keys makes) has degree `d`. -/
theorem C24_degree_full_vector {S : Type} (p : Profile) (N : Nat) (h2 : 2 ≤ N) (v : Dense S) (d : Nat) (hs : v.size = geomSum N (d + 1))
    (hp : N ^ (d + 1) < 2 ^ 64) : v.degree (tensorBasis p N) = .ok d := by
  have h1 : 1 ≤ geomSum N (d + 1) := geomSum_pos (by omega)
  unfold Dense.degree
  rw [if_neg (by omega), hs]
  refine indexToDegree_ok p N h2 _ _ hp ?_ (by omega)
  have := geomSum_strict (N := N) (by omega) (show d < d + 1 by omega)
  omega

example : (Dense.ofVec [1, 2, 3, 4, 5, 6, 7]).degree (tensorBasis .debug 2) = .ok 2 :=
  C24_degree_full_vector .debug 2 (by omega) _ 2 rfl (by decide)

example : (Dense.ofVec [5, 0, 7, 1]).degree (tensorBasis .debug 2) = .ok 2 ∧
    (Dense.ofVec [5, 0, 7]).degree (tensorBasis .release 2) = .ok 1 := by decide +kernel

/-! ## C25: storage modes -/

section
variable {K S R : Type} (C : Coeff S R) (B : Basis K)

/-- The operations that change a vector. `other` operands are arbitrary vectors. -/
inductive MutOp (K S R : Type) where
  | clear
  | modify (k : K) (f : S → S)
  | insertSingle (k : K) (s : S)
  | insert (items : List (K × S))
  | erase (k : K)
  | uminus
  | add (o : Dense S)
  | sub (o : Dense S)
  | lmul (s : S)
  | rmul (s : S)
  | rdiv (r : R)
  | ldiv (r : R)
  | addLmul (o : Dense S) (s : S)
  | addRmul (o : Dense S) (s : S)
  | subLmul (o : Dense S) (s : S)
  | subRmul (o : Dense S) (s : S)
  | addLdiv (o : Dense S) (r : R)
  | addRdiv (o : Dense S) (r : R)
  | subLdiv (o : Dense S) (r : R)
  | subRdiv (o : Dense S) (r : R)
  | resize (n : Nat)

/-- Apply one operation through the `Vector`/`ResizeableDenseVector` interface. -/
def MutOp.run (d : Dense S) : MutOp K S R → Res (Dense S)
  | .clear => (Dense.ops C B).clear d
  | .modify k f => (·.2) <$> (Dense.ops C B).getMut d k f
  | .insertSingle k s => (Dense.ops C B).insertSingle d k s
  | .insert l => (Dense.ops C B).insert d l
  | .erase k => (Dense.ops C B).erase d k
  | .uminus => (Dense.ops C B).uminusInplace d
  | .add o => (Dense.ops C B).addInplace d o
  | .sub o => (Dense.ops C B).subInplace d o
  | .lmul s => (Dense.ops C B).scalarLmultiplyInplace d s
  | .rmul s => (Dense.ops C B).scalarRmultiplyInplace d s
  | .rdiv r => (Dense.ops C B).scalarRdivideInplace d r
  | .ldiv r => (Dense.ops C B).scalarLdivideInplace d r
  | .addLmul o s => (Dense.ops C B).addScalarLmultiply d o s
  | .addRmul o s => (Dense.ops C B).addScalarRmultiply d o s
  | .subLmul o s => (Dense.ops C B).subScalarLmultiply d o s
  | .subRmul o s => (Dense.ops C B).subScalarRmultiply d o s
  | .addLdiv o r => (Dense.ops C B).addScalarLdivide d o r
  | .addRdiv o r => (Dense.ops C B).addScalarRdivide d o r
  | .subLdiv o r => (Dense.ops C B).subScalarLdivide d o r
  | .subRdiv o r => (Dense.ops C B).subScalarRdivide d o r
  | .resize n => .ok (Dense.resize C d n)

/-- Apply a history of operations. -/
def MutOp.runAll (d : Dense S) (ops : List (MutOp K S R)) : Res (Dense S) := ops.foldlM (MutOp.run C B) d

/-- The vector argument of an operation fits into `n` entries and the operation does not resize. -/
def MutOp.Fits (n : Nat) : MutOp K S R → Prop
  | .add o | .sub o | .addLmul o _ | .addRmul o _ | .subLmul o _ | .subRmul o _ | .addLdiv o _ | .addRdiv o _
  | .subLdiv o _ | .subRdiv o _ => o.size ≤ n
  | .resize _ => False
  | _ => True


/-- What one operation may do to the storage. -/
structure StorageStep (d r : Dense S) : Prop where
  other : d.mode ≠ .borrowedMut → r.lent = d.lent ∧ r.mode ≠ .borrowedMut
  owned : d.mode = .owned → r.mode = .owned
  excl : d.mode = .borrowedMut → d.lent = d.data →
    (r.mode = .borrowedMut ∧ r.lent = r.data ∧ r.size = d.size) ∨ (r.mode = .owned ∧ r.lent = d.lent)

theorem StorageStep.refl (d : Dense S) : StorageStep d d :=
  ⟨fun h => ⟨rfl, h⟩, id, fun h h' => .inl ⟨h, h', rfl⟩⟩

theorem StorageStep.write (d : Dense S) (l : List S) (hl : l.length = d.size) : StorageStep d (d.writeSlice l) := by
  obtain ⟨m, a, b⟩ := d
  constructor <;> intro h <;> cases m <;> simp_all [Dense.writeSlice, Dense.makeMut, Dense.size]

theorem StorageStep.makeMut (d : Dense S) : StorageStep d d.makeMut := by
  obtain ⟨m, a, b⟩ := d
  constructor <;> intro h <;> cases m <;> simp_all [Dense.makeMut]

theorem StorageStep.resize (d : Dense S) (n : Nat) : StorageStep d (Dense.resize C d n) := by
  obtain ⟨m, a, b⟩ := d
  constructor <;> intro h <;> cases m <;> simp_all [Dense.resize]

/-- A step that ends in owned storage, then a write. -/
theorem StorageStep.resizeWrite (d : Dense S) (n : Nat) (l : List S) : StorageStep d ((Dense.resize C d n).writeSlice l) := by
  obtain ⟨m, a, b⟩ := d
  constructor <;> intro h <;> cases m <;> simp_all [Dense.resize, Dense.writeSlice, Dense.makeMut]

theorem storage_add (d o r : Dense S) (h : Dense.addInplace C d o = .ok r) :
    StorageStep d r ∧ (o.size ≤ d.size → d.mode = .borrowedMut → r.mode = .borrowedMut) := by
  unfold Dense.addInplace at h
  simp only at h
  injection h with h
  subst h
  have hz : (Dense.makeMut d).size = d.size := by simp [Dense.size]
  have hres : ∀ n l, StorageStep d ((Dense.resize C d.makeMut n).writeSlice l) := by
    intro n l
    obtain ⟨m, a, b⟩ := d
    constructor <;> intro h <;> cases m <;> simp_all [Dense.resize, Dense.writeSlice, Dense.makeMut]
  have hwr : ∀ l, l.length = d.size → StorageStep d (d.makeMut.writeSlice l) := by
    intro l hl
    obtain ⟨m, a, b⟩ := d
    constructor <;> intro h <;> cases m <;> simp_all [Dense.writeSlice, Dense.makeMut, Dense.size]
  split_ifs with hc
  · exact ⟨hres _ _, fun hle => by omega⟩
  · refine ⟨hwr _ (by rw [Dense.zipInto_length]; simp [Dense.size]), fun _ hm => ?_⟩
    obtain ⟨m, a, b⟩ := d
    cases hm
    rfl

theorem storage_sub (d o r : Dense S) (h : Dense.subInplace C d o = .ok r) :
    StorageStep d r ∧ (o.size ≤ d.size → d.mode = .borrowedMut → r.mode = .borrowedMut) := by
  unfold Dense.subInplace at h
  simp only at h
  injection h with h
  subst h
  split_ifs with hc
  · exact ⟨.resizeWrite C _ _ _, fun hle => by omega⟩
  · refine ⟨.write _ _ (by rw [Dense.zipInto_length]; rfl), fun _ hm => ?_⟩
    obtain ⟨m, a, b⟩ := d
    cases hm
    rfl

theorem storage_write (d : Dense S) (l : List S) (hl : l.length = d.size) :
    StorageStep d (d.writeSlice l) ∧ (d.mode = .borrowedMut → (d.writeSlice l).mode = .borrowedMut) := by
  refine ⟨.write d l hl, fun hm => ?_⟩
  obtain ⟨m, a, b⟩ := d
  cases hm
  rfl

theorem storage_getMut (d : Dense S) (k : K) (f : S → S) (x : Bool × Dense S) (h : Dense.getMut B d k f = .ok x) :
    StorageStep d x.2 ∧ (d.mode = .borrowedMut → x.2.mode = .borrowedMut) := by
  unfold Dense.getMut at h
  match hk : B.keyToIndex k with
  | .ok i =>
    rw [hk, Res.bind_ok] at h
    split_ifs at h with hi
    · injection h with h
      subst h
      exact storage_write d _ (by simp [Dense.size])
    · injection h with h
      subst h
      refine ⟨.makeMut d, fun hm => ?_⟩
      obtain ⟨m, a, b⟩ := d
      cases hm
      rfl
  | .panic => rw [hk] at h; cases h
  | .ub => rw [hk] at h; cases h
  | .diverge => rw [hk] at h; cases h

/-- Every operation is a `StorageStep`, and one that fits keeps a mutable borrow. -/
theorem storage_run (d r : Dense S) (op : MutOp K S R) (h : MutOp.run C B d op = .ok r) :
    StorageStep d r ∧ (op.Fits d.size → d.mode = .borrowedMut → r.mode = .borrowedMut) := by
  have hmapm : ∀ (g : S → S), StorageStep d (d.writeSlice (d.data.map g)) ∧
      (d.mode = .borrowedMut → (d.writeSlice (d.data.map g)).mode = .borrowedMut) :=
    fun g => storage_write d _ (by simp [Dense.size])
  cases op with
  | clear =>
    obtain ⟨m, a, b⟩ := d
    cases m <;> (cases h; constructor)
    · constructor <;> simp
    · simp
    · constructor <;> simp
    · simp
    · exact .write _ _ (by simp [Dense.size])
    · intro _ _; rfl
  | modify k f =>
    change (·.2) <$> Dense.getMut B d k f = _ at h
    match hg : Dense.getMut B d k f with
    | .ok x =>
      rw [hg] at h
      cases h
      have := storage_getMut B d k f x hg
      exact ⟨this.1, fun _ => this.2⟩
    | .panic => rw [hg] at h; cases h
    | .ub => rw [hg] at h; cases h
    | .diverge => rw [hg] at h; cases h
  | insertSingle k s =>
    change Dense.insertSingle B d k s = _ at h
    unfold Dense.insertSingle at h
    match hk : B.keyToIndex k with
    | .ok i => rw [hk] at h; cases h; exact ⟨.refl _, fun _ h => h⟩
    | .panic => rw [hk] at h; cases h
    | .ub => rw [hk] at h; cases h
    | .diverge => rw [hk] at h; cases h
  | insert l => cases h
  | erase k =>
    change Dense.erase C B d k = _ at h
    unfold Dense.erase at h
    match hg : Dense.getMut B d k (fun _ => C.zero) with
    | .ok x =>
      rw [hg] at h
      cases h
      have := storage_getMut B d k _ x hg
      exact ⟨this.1, fun _ => this.2⟩
    | .panic => rw [hg] at h; cases h
    | .ub => rw [hg] at h; cases h
    | .diverge => rw [hg] at h; cases h
  | uminus => cases h; exact ⟨(hmapm _).1, fun _ => (hmapm _).2⟩
  | lmul s => cases h; exact ⟨(hmapm _).1, fun _ => (hmapm _).2⟩
  | rmul s => cases h; exact ⟨(hmapm _).1, fun _ => (hmapm _).2⟩
  | rdiv s => cases h; exact ⟨(hmapm _).1, fun _ => (hmapm _).2⟩
  | ldiv s => cases h; exact ⟨(hmapm _).1, fun _ => (hmapm _).2⟩
  | add o => exact storage_add C d o r h
  | sub o => exact storage_sub C d o r h
  | addLmul o s =>
    have := storage_add C d _ r h
    exact ⟨this.1, fun hf => this.2 (by simpa [Dense.size, MutOp.Fits] using hf)⟩
  | addRmul o s =>
    have := storage_add C d _ r h
    exact ⟨this.1, fun hf => this.2 (by simpa [Dense.size, MutOp.Fits] using hf)⟩
  | subLmul o s =>
    have := storage_sub C d _ r h
    exact ⟨this.1, fun hf => this.2 (by simpa [Dense.size, MutOp.Fits] using hf)⟩
  | subRmul o s =>
    have := storage_sub C d _ r h
    exact ⟨this.1, fun hf => this.2 (by simpa [Dense.size, MutOp.Fits] using hf)⟩
  | addLdiv o s =>
    have := storage_add C d _ r h
    exact ⟨this.1, fun hf => this.2 (by simpa [Dense.size, MutOp.Fits] using hf)⟩
  | addRdiv o s =>
    have := storage_add C d _ r h
    exact ⟨this.1, fun hf => this.2 (by simpa [Dense.size, MutOp.Fits] using hf)⟩
  | subLdiv o s =>
    have := storage_sub C d _ r h
    exact ⟨this.1, fun hf => this.2 (by simpa [Dense.size, MutOp.Fits] using hf)⟩
  | subRdiv o s =>
    have := storage_sub C d _ r h
    exact ⟨this.1, fun hf => this.2 (by simpa [Dense.size, MutOp.Fits] using hf)⟩
  | resize n => cases h; exact ⟨.resize C d n, fun hf => hf.elim⟩

theorem runAll_cons {d r : Dense S} {op : MutOp K S R} {ops : List (MutOp K S R)} (h : MutOp.runAll C B d (op :: ops) = .ok r) :
    ∃ d', MutOp.run C B d op = .ok d' ∧ MutOp.runAll C B d' ops = .ok r := by
  unfold MutOp.runAll at h
  rw [List.foldlM_cons] at h
  match hr : MutOp.run C B d op with
  | .ok d' => rw [hr] at h; exact ⟨d', rfl, h⟩
  | .panic => rw [hr] at h; cases h
  | .ub => rw [hr] at h; cases h
  | .diverge => rw [hr] at h; cases h

/-- C25.  A vector that is not mutably borrowed never writes to the buffer it was built over, whatever the history. -/
theorem C25_no_write (d r : Dense S) (ops : List (MutOp K S R)) (hm : d.mode ≠ .borrowedMut)
    (h : MutOp.runAll C B d ops = .ok r) : r.lent = d.lent ∧ r.mode ≠ .borrowedMut := by
  induction ops generalizing d with
  | nil => cases h; exact ⟨rfl, hm⟩
  | cons op ops ih =>
    obtain ⟨d', h1, h2⟩ := runAll_cons C B h
    have hs := (storage_run C B d d' op h1).1.other hm
    obtain ⟨h3, h4⟩ := ih d' hs.2 h2
    exact ⟨h3.trans hs.1, h4⟩

example : (⟨.owned, [-2, -4], [1, 2]⟩ : Dense Int).lent = [1, 2] ∧ Mode.owned ≠ .borrowedMut :=
  C25_no_write intCoeff integerBasis (.ofBorrowed [1, 2]) ⟨.owned, [-2, -4], [1, 2]⟩ [.lmul 2, .uminus] (by decide) (by decide +kernel)

/-- C25.  A read-only borrowed buffer is never written. -/
theorem C25_borrowed (l : List S) (r : Dense S) (ops : List (MutOp K S R)) (h : MutOp.runAll C B (.ofBorrowed l) ops = .ok r) :
    r.lent = l := (C25_no_write C B _ r ops (by simp [Dense.ofBorrowed]) h).1

example : (⟨.owned, [-2, -4], [1, 2]⟩ : Dense Int).lent = [1, 2] :=
  C25_borrowed intCoeff integerBasis [1, 2] _ [.lmul 2, .uminus] (by decide +kernel)

/-- C25.  A mutably borrowed buffer always shows the vector's own content (and has the vector's size) until the vector has become owned. -/
theorem C25_borrowed_mut (l : List S) (r : Dense S) (ops : List (MutOp K S R)) (h : MutOp.runAll C B (.ofBorrowedMut l) ops = .ok r) :
    (r.mode = .borrowedMut ∧ r.lent = r.data ∧ r.size = l.length) ∨ (r.mode = .owned ∧ r.lent.length = l.length) := by
  have key : ∀ (ops : List (MutOp K S R)) (d : Dense S),
      (d.mode = .borrowedMut ∧ d.lent = d.data ∧ d.size = l.length) ∨ (d.mode = .owned ∧ d.lent.length = l.length) →
      MutOp.runAll C B d ops = .ok r →
      (r.mode = .borrowedMut ∧ r.lent = r.data ∧ r.size = l.length) ∨ (r.mode = .owned ∧ r.lent.length = l.length) := by
    intro ops
    induction ops with
    | nil => intro d hd h; cases h; exact hd
    | cons op ops ih =>
      intro d hd h
      obtain ⟨d', h1, h2⟩ := runAll_cons C B h
      have hs := (storage_run C B d d' op h1).1
      refine ih d' ?_ h2
      rcases hd with ⟨a, b, c⟩ | ⟨a, b⟩
      · rcases hs.excl a b with ⟨x, y, z⟩ | ⟨x, y⟩
        · exact .inl ⟨x, y, by omega⟩
        · refine .inr ⟨x, ?_⟩
          rw [y, b]
          exact c
      · exact .inr ⟨hs.owned a, by rw [(hs.other (by rw [a]; decide)).1, b]⟩
  exact key ops _ (.inl ⟨rfl, rfl, rfl⟩) h

example := C25_borrowed_mut intCoeff integerBasis [1, 2] ⟨.owned, [-2, -4, 5], [2, 4]⟩ [.lmul 2, .sub (.ofVec [0, 0, 5]), .uminus]
  (by decide +kernel)

/-- C25.  As long as no operand is larger than the buffer and `resize` is not called, the vector stays on the buffer, which receives every write. -/
theorem C25_borrowed_mut_write_through (l : List S) (r : Dense S) (ops : List (MutOp K S R)) (hf : ∀ op ∈ ops, op.Fits l.length)
    (h : MutOp.runAll C B (.ofBorrowedMut l) ops = .ok r) : r.mode = .borrowedMut ∧ r.lent = r.data ∧ r.size = l.length := by
  have key : ∀ (ops : List (MutOp K S R)) (d : Dense S), (∀ op ∈ ops, op.Fits l.length) →
      (d.mode = .borrowedMut ∧ d.lent = d.data ∧ d.size = l.length) →
      MutOp.runAll C B d ops = .ok r → (r.mode = .borrowedMut ∧ r.lent = r.data ∧ r.size = l.length) := by
    intro ops
    induction ops with
    | nil => intro d _ hd h; cases h; exact hd
    | cons op ops ih =>
      intro d hf hd h
      obtain ⟨d', h1, h2⟩ := runAll_cons C B h
      obtain ⟨hs, hm⟩ := storage_run C B d d' op h1
      refine ih d' (fun o ho => hf o (by simp [ho])) ?_ h2
      obtain ⟨a, b, c⟩ := hd
      have hm' := hm (by rw [c]; exact hf op (by simp)) a
      rcases hs.excl a b with ⟨x, y, z⟩ | ⟨x, y⟩
      · exact ⟨x, y, by omega⟩
      · rw [hm'] at x; cases x
  exact key ops _ hf ⟨rfl, rfl, rfl⟩ h

example := C25_borrowed_mut_write_through intCoeff integerBasis [1, 2, 3] ⟨.borrowedMut, [3, 0, 6], [3, 0, 6]⟩
  [.lmul 2, .erase 1, .add (.ofVec [1])] (by simp [MutOp.Fits, Dense.size]) (by decide +kernel)

/-- C25.  `resize(n)` has `n` entries: the old coefficients where they exist, zero beyond; the result is owned. -/
theorem C25_resize (d : Dense S) (n : Nat) :
    (Dense.resize C d n).size = n ∧ (Dense.resize C d n).mode = .owned ∧ (Dense.resize C d n).lent = d.lent ∧
      ∀ i, i < n → (Dense.resize C d n).data[i]? = some (d.data[i]?.getD C.zero) := by
  refine ⟨by simp [Dense.size, vecResize_length], ?_, ?_, fun i hi => by rw [Dense.resize_data, vecResize_getElem?, if_pos hi]⟩ <;>
    (obtain ⟨m, a, b⟩ := d; cases m <;> rfl)

example : Dense.resize intCoeff (.ofBorrowedMut [1, 2]) 3 = ⟨.owned, [1, 2, 0], [1, 2]⟩ ∧ Dense.resize intCoeff (.ofVec [1, 2]) 1 = .ofVec [1] := by
  decide +kernel

/-- C25.  The storage mode is invisible: histories without `clear` give the same slice (or the same failure) from vectors with the same slice. -/
theorem C25_mode_transparent (d e : Dense S) (hde : d.data = e.data) (ops : List (MutOp K S R)) (hc : .clear ∉ ops) :
    (·.data) <$> MutOp.runAll C B d ops = (·.data) <$> MutOp.runAll C B e ops := by
  have step : ∀ (d e : Dense S) (op : MutOp K S R), d.data = e.data → op ≠ .clear →
      (·.data) <$> MutOp.run C B d op = (·.data) <$> MutOp.run C B e op := by
    intro d e op hde hne
    have hadd : ∀ o, (·.data) <$> Dense.addInplace C d o = (·.data) <$> Dense.addInplace C e o := by
      intro o
      obtain ⟨r, h1, h2⟩ := Dense.addInplace_data C d o
      obtain ⟨r', h1', h2'⟩ := Dense.addInplace_data C e o
      rw [h1, h1', Res.map_ok, Res.map_ok, h2, h2', hde]
    have hsub : ∀ o, (·.data) <$> Dense.subInplace C d o = (·.data) <$> Dense.subInplace C e o := by
      intro o
      obtain ⟨r, h1, h2⟩ := Dense.subInplace_data C d o
      obtain ⟨r', h1', h2'⟩ := Dense.subInplace_data C e o
      rw [h1, h1', Res.map_ok, Res.map_ok, h2, h2', hde]
    have hget : ∀ k f, (·.2.data) <$> Dense.getMut B d k f = (·.2.data) <$> Dense.getMut B e k f := by
      intro k f
      unfold Dense.getMut
      match hk : B.keyToIndex k with
      | .ok i =>
        simp only [Res.bind_ok, hde]
        split_ifs <;> simp [hde]
      | .panic => rfl
      | .ub => rfl
      | .diverge => rfl
    have hw : ∀ g : S → S, (d.writeSlice (d.data.map g)).data = (e.writeSlice (e.data.map g)).data := by
      intro g; simp [hde]
    cases op with
    | clear => exact absurd rfl hne
    | modify k f =>
      have := hget k f
      change _ <$> (_ <$> Dense.getMut B d k f) = _ <$> (_ <$> Dense.getMut B e k f)
      rw [← comp_map, ← comp_map]
      exact this
    | insertSingle k s =>
      change _ <$> Dense.insertSingle B d k s = _ <$> Dense.insertSingle B e k s
      unfold Dense.insertSingle
      match hk : B.keyToIndex k with
      | .ok i => simp only [Res.bind_ok, Res.pure_eq, Res.map_ok, hde]
      | .panic => rfl
      | .ub => rfl
      | .diverge => rfl
    | insert l => rfl
    | erase k =>
      have := hget k (fun _ => C.zero)
      change _ <$> Dense.erase C B d k = _ <$> Dense.erase C B e k
      unfold Dense.erase
      rw [bind_pure_comp, bind_pure_comp, ← comp_map, ← comp_map]
      exact this
    | uminus => exact congrArg Res.ok (hw _)
    | lmul s => exact congrArg Res.ok (hw _)
    | rmul s => exact congrArg Res.ok (hw _)
    | rdiv s => exact congrArg Res.ok (hw _)
    | ldiv s => exact congrArg Res.ok (hw _)
    | add o => exact hadd o
    | sub o => exact hsub o
    | addLmul o s => exact hadd _
    | addRmul o s => exact hadd _
    | subLmul o s => exact hsub _
    | subRmul o s => exact hsub _
    | addLdiv o s => exact hadd _
    | addRdiv o s => exact hadd _
    | subLdiv o s => exact hsub _
    | subRdiv o s => exact hsub _
    | resize n =>
      exact congrArg Res.ok (by simp only [Dense.resize_data, hde])
  induction ops generalizing d e with
  | nil => exact congrArg Res.ok hde
  | cons op ops ih =>
    have hs := step d e op hde (fun h => hc (by rw [← h]; simp))
    unfold MutOp.runAll at ih ⊢
    rw [List.foldlM_cons, List.foldlM_cons]
    revert hs
    match h1 : MutOp.run C B d op, h2 : MutOp.run C B e op with
    | .ok d', .ok e' => intro hs; injection hs with hs; exact ih d' e' hs (fun ho => hc (by simp [ho]))
    | .panic, .panic => intro _; rfl
    | .ub, .ub => intro _; rfl
    | .diverge, .diverge => intro _; rfl
    | .ok _, .panic => intro hs; cases hs
    | .ok _, .ub => intro hs; cases hs
    | .ok _, .diverge => intro hs; cases hs
    | .panic, .ok _ => intro hs; cases hs
    | .panic, .ub => intro hs; cases hs
    | .panic, .diverge => intro hs; cases hs
    | .ub, .ok _ => intro hs; cases hs
    | .ub, .panic => intro hs; cases hs
    | .ub, .diverge => intro hs; cases hs
    | .diverge, .ok _ => intro hs; cases hs
    | .diverge, .panic => intro hs; cases hs
    | .diverge, .ub => intro hs; cases hs

example := C25_mode_transparent intCoeff integerBasis (.ofBorrowed [1, 2]) (.ofBorrowedMut [1, 2]) rfl [.lmul 2, .uminus] (by simp)

example : MutOp.runAll intCoeff integerBasis (.ofBorrowedMut [1, 2, 3]) [.lmul 2, .erase 1, .add (.ofVec [1])] =
      .ok ⟨.borrowedMut, [3, 0, 6], [3, 0, 6]⟩ ∧
    MutOp.runAll intCoeff integerBasis (.ofBorrowedMut [1, 2]) [.lmul 2, .sub (.ofVec [0, 0, 5]), .uminus] =
      .ok ⟨.owned, [-2, -4, 5], [2, 4]⟩ ∧
    MutOp.runAll intCoeff integerBasis (.ofBorrowed [1, 2]) [.lmul 2, .uminus] = .ok ⟨.owned, [-2, -4], [1, 2]⟩ := by
  decide +kernel

end
end RA
