import Verif.Proofs.BasisIter

/-!
# Properties of the tensor basis (C07-C14)
-/

namespace RA
open Spec TensorKey TensorBasis

/-! ## C07: enumeration -/

/-- C07, full statement for one alphabet and profile: the `n`-th item of `iter_keys()` is `index_to_key(n)` for every `n` below the number
of words of length at most `max_depth`, and the iterator then ends. -/
def C07_iter_keys_full (p : Profile) (N : Nat) : Prop :=
  (∀ n, n < geomSum N (maxDepth N + 1) →
    ∃ k, indexToKey p N n = .ok k ∧ BasisIter.nth p N n (.new N) = .ok (some k)) ∧
  ∀ n, geomSum N (maxDepth N + 1) ≤ n → BasisIter.nth p N n (.new N) = .ok none

/-- C07 holds in full for the one-letter alphabet. -/
theorem C07_iter_keys_one_letter (p : Profile) : C07_iter_keys_full p 1 := by
  have hchain : ∀ n m, n ≤ 59 → BasisIter.nth p 1 (n + m) (.new 1) = BasisIter.nth p 1 m (.startingFrom 1 ⟨n, 0⟩) := by
    intro n m hn
    have := nth_chain p 1 (fun i => ⟨i, 0⟩) m n 0 (by
      intro i _ hi
      rw [advance_unary p i (by omega), if_neg (by omega)])
    rw [Nat.zero_add] at this
    exact this
  constructor
  · intro n hn
    refine ⟨_, indexToKey_ok p 1 (by omega) (by omega) n hn, ?_⟩
    rw [geomSum_one, maxDepth_one] at hn
    have := hchain n 0 (by omega)
    rw [Nat.add_zero] at this
    rw [this, indexWord_unary, keyOf_unary]
    exact nth_zero_of_advance p 1 _ _ (advance_unary p n (by omega))
  · intro n hn
    rw [geomSum_one, maxDepth_one] at hn
    obtain ⟨m, rfl⟩ : ∃ m, n = 59 + (m + 1) := ⟨n - 60, by omega⟩
    rw [hchain 59 (m + 1) (by omega), nth_succ_of_advance p 1 m _ _ (advance_unary p 59 (by omega))]
    simp only [if_true]
    exact nth_none p 1 m _

/-- C07, the part that holds for three or more letters: items `0 .. 4N` (all words of length at most one, and the words `[1,*]`, `[2,*]`,
`[3,*]`) are right.  Missing: everything after, see `C07_iter_keys_refuted`. -/
theorem C07_iter_keys_partial (p : Profile) (N : Nat) (h3 : 3 ≤ N) (hN : N < 2 ^ 32) (n : Nat) (hn : n ≤ 4 * N) :
    ∃ k, indexToKey p N n = .ok k ∧ BasisIter.nth p N n (.new N) = .ok (some k) := by
  have h2 := two_le_maxDepth N (by omega) hN
  have hg : 4 * N < geomSum N (2 + 1) := by simp only [geomSum]; nlinarith
  have hgm : geomSum N (2 + 1) ≤ geomSum N (maxDepth N + 1) := geomSum_mono (by omega)
  have hlen : ∀ i, i ≤ 4 * N → (indexWord N i).length ≤ maxDepth N := by
    intro i hi
    exact (indexWord_length_le i _ (by omega)).2 (by omega)
  refine ⟨_, indexToKey_ok p N (by omega) hN n (by omega), ?_⟩
  have hstep : ∀ i, i < 4 * N → advance p N (keyOf N (indexWord N i)) = .ok (some (keyOf N (indexWord N (i + 1)))) := by
    intro i hi
    have := advance_good p N (by omega) hN _ (validWord_indexWord (by omega) i) (hlen i (by omega)) (good_lt_four h3 hi)
    rwa [wordIndex_indexWord] at this
  have := nth_chain p N (fun i => keyOf N (indexWord N i)) 0 n 0 (fun i _ hi => hstep i (by omega))
  simp only [Nat.add_zero, Nat.zero_add, indexWord_zero, keyOf_nil] at this
  rw [show BasisIter.new N = .startingFrom N TensorKey.new from rfl, this]
  rcases Nat.lt_or_eq_of_le hn with h | h
  · exact nth_zero_of_advance p N _ _ (hstep n h)
  · subst h
    obtain ⟨k, hk, _⟩ := advance_three p N h3 hN
    rw [indexWord_four h3]
    exact nth_zero_of_advance p N _ _ hk

example : ∃ k, indexToKey .debug 5 17 = .ok k ∧ BasisIter.nth .debug 5 17 (.new 5) = .ok (some k) :=
  C07_iter_keys_partial .debug 5 (by omega) (by omega) 17 (by omega)

/-- C07, two letters: the first 15 items (all words of length at most three) are right. The range of `n` is finite, so
this is a complete check. -/
theorem C07_iter_keys_two_letters_partial (p : Profile) (n : Nat) (hn : n ≤ 14) :
    ∃ k, indexToKey p 2 n = .ok k ∧ BasisIter.nth p 2 n (.new 2) = .ok (some k) := by
  have key : ∀ n, n < 15 → BasisIter.nth p 2 n (.new 2) = some <$> indexToKey p 2 n := by
    cases p <;> decide +kernel
  have hlt : 14 < geomSum 2 (maxDepth 2 + 1) := by decide +kernel
  have hk := indexToKey_ok p 2 (by omega) (by omega) n (by omega)
  refine ⟨_, hk, ?_⟩
  rw [key n (by omega), hk]
  rfl

example : ∃ k, indexToKey .release 2 13 = .ok k ∧ BasisIter.nth .release 2 13 (.new 2) = .ok (some k) :=
  C07_iter_keys_two_letters_partial .release 13 (by omega)

/-- C07 is false for every alphabet with two or more letters: some index in range is never produced at its place. -/
theorem C07_iter_keys_refuted (p : Profile) (N : Nat) (h2 : 2 ≤ N) (hN : N < 2 ^ 32) : ¬ C07_iter_keys_full p N := by
  rintro ⟨hfull, _⟩
  rcases Nat.lt_or_eq_of_le h2 with h3 | rfl
  · have hd := two_le_maxDepth N (by omega) hN
    have hlt : 4 * N + 1 < geomSum N (maxDepth N + 1) := by
      rcases Nat.lt_or_eq_of_le (show 3 ≤ N from h3) with h4 | rfl
      · have hgm : geomSum N (2 + 1) ≤ geomSum N (maxDepth N + 1) := geomSum_mono (by omega)
        have hg : 4 * N + 1 < geomSum N (2 + 1) := by simp only [geomSum]; nlinarith
        omega
      · decide +kernel
    obtain ⟨k, hk, hnth⟩ := hfull (4 * N + 1) hlt
    rw [indexToKey_ok p N (by omega) hN _ hlt] at hk
    cases hk
    obtain ⟨k', hk', hne⟩ := advance_three p N h3 hN
    have hlen : ∀ i, i ≤ 4 * N → (indexWord N i).length ≤ maxDepth N := by
      intro i hi
      exact (indexWord_length_le i _ (by omega)).2 (by omega)
    have hstep : ∀ i, i < 4 * N → advance p N (keyOf N (indexWord N i)) = .ok (some (keyOf N (indexWord N (i + 1)))) := by
      intro i hi
      have := advance_good p N (by omega) hN _ (validWord_indexWord (by omega) i) (hlen i (by omega)) (good_lt_four h3 hi)
      rwa [wordIndex_indexWord] at this
    have := nth_chain p N (fun i => keyOf N (indexWord N i)) 1 (4 * N) 0 (fun i _ hi => hstep i (by omega))
    simp only [Nat.zero_add, indexWord_zero, keyOf_nil] at this
    rw [show BasisIter.new N = .startingFrom N TensorKey.new from rfl, this, indexWord_four h3,
      nth_succ_of_advance p N 0 _ _ hk'] at hnth
    exact nth_zero_ne p N k' _ hne hnth
  · have hlt : 15 < geomSum 2 (maxDepth 2 + 1) := by decide +kernel
    obtain ⟨k, hk, hnth⟩ := hfull 15 hlt
    have h1 : indexToKey p 2 15 = .ok ⟨4, 0⟩ := by cases p <;> decide +kernel
    have h2 : BasisIter.nth p 2 15 (.new 2) = .ok (some ⟨4, 16⟩) := by cases p <;> decide +kernel
    rw [h1] at hk
    cases hk
    rw [h2] at hnth
    simp at hnth

example : ¬ C07_iter_keys_full .debug 7 := C07_iter_keys_refuted .debug 7 (by omega) (by omega)

/-- C07, one step from an arbitrary key (`starting_from`): if the last letter is not the largest one, or it is and the letter before it is 1 or 2
(and not the largest), the second item is the key with the next index. -/
theorem C07_successor_partial (p : Profile) (N : Nat) (h1 : 1 ≤ N) (hN : N < 2 ^ 32) (w : List Nat)
    (hw : ValidWord N w) (hl : w.length ≤ maxDepth N)
    (hg : (∃ u l, w = u ++ [l] ∧ l < N) ∨ (∃ u l, w = u ++ [l, N] ∧ l < N ∧ l ≤ 2))
    (k : TensorKey) (hk : fromLetters p N w = .ok k) (i : Nat) (hi : keyToIndex p N k = .ok i) :
    ∃ k' it, BasisIter.next p N (.startingFrom N k) = .ok (some k, it) ∧ it.current = some k' ∧
      indexToKey p N (i + 1) = .ok k' := by
  rw [fromLetters_ok p N h1 hN w hw hl] at hk
  cases hk
  rw [keyToIndex_keyOf p N h1 hN w hw hl] at hi
  cases hi
  have hadv := advance_good p N h1 hN w hw hl (by
    rcases hg with h | h
    · exact .inr (.inr (.inl h))
    · exact .inr (.inr (.inr h)))
  refine ⟨keyOf N (indexWord N (wordIndex N w + 1)), ⟨_, maxDepth N⟩, ?_, rfl, ?_⟩
  · rw [next_some, hadv]; rfl
  · -- the successor has the same length
    apply indexToKey_ok p N h1 hN
    have hb := wordIndex_bounds (N := N) (w := w)
    have : ∃ w', ValidWord N w' ∧ w'.length = w.length ∧ wordIndex N w' = wordIndex N w + 1 := by
      rcases hg with ⟨u, l, rfl, hlN⟩ | ⟨u, l, rfl, hlN, hl2⟩
      · refine ⟨u ++ [l + 1], ?_, by simp, by rw [wordIndex_snoc, wordIndex_snoc]; omega⟩
        have := ValidWord.append.1 hw
        refine ValidWord.append.2 ⟨this.1, ?_⟩
        intro x hx; simp at hx; omega
      · refine ⟨u ++ [l + 1, 1], ?_, by simp, by simp [wordIndex_append, wordIndex_cons]; ring⟩
        have := ValidWord.append.1 hw
        refine ValidWord.append.2 ⟨this.1, ?_⟩
        intro x hx; simp at hx; omega
    obtain ⟨w', hv, hlen, he⟩ := this
    rw [← he]
    have h3 := (wordIndex_bounds hv).2
    have : geomSum N (w'.length + 1) ≤ geomSum N (maxDepth N + 1) := geomSum_mono (by omega)
    omega

example : ∃ k' it, BasisIter.next .debug 4 (.startingFrom 4 ⟨4, 1739⟩) = .ok (some ⟨4, 1739⟩, it) ∧ it.current = some k' ∧
    indexToKey .debug 4 (332 + 1) = .ok k' :=
  C07_successor_partial .debug 4 (by omega) (by omega) [4, 4, 2, 4] (by decide) (by decide +kernel) (.inr ⟨[4, 4], 2, by decide⟩) _
    (by decide +kernel) 332 (by decide +kernel)

example : ∃ k i, fromLetters .debug 4 [4, 4, 2, 4] = .ok k ∧ keyToIndex .debug 4 k = .ok i ∧
    ∃ u l, ([4, 4, 2, 4] : List Nat) = u ++ [l, 4] ∧ l < 4 ∧ l ≤ 2 :=
  ⟨⟨4, 1739⟩, 332, by decide +kernel, by decide +kernel, [4, 4], 2, by decide⟩

/-! ## C08, C09: the bijection between keys and indices -/

/-- C08.  For every index below the number of words of length at most `max_depth`, `index_to_key` succeeds and `key_to_index` gives the index
back. -/
theorem C08_index_key_index (p : Profile) (N : Nat) (h1 : 1 ≤ N) (hN : N < 2 ^ 32) (i : Nat)
    (hi : i < geomSum N (maxDepth N + 1)) :
    ∃ k, indexToKey p N i = .ok k ∧ keyToIndex p N k = .ok i ∧
      ∃ w, ValidWord N w ∧ w.length ≤ maxDepth N ∧ fromLetters p N w = .ok k := by
  have hl := (indexWord_length_le i (maxDepth N) h1).2 hi
  have hv := validWord_indexWord h1 i
  refine ⟨_, indexToKey_ok p N h1 hN i hi, ?_, _, hv, hl, fromLetters_ok p N h1 hN _ hv hl⟩
  rw [keyToIndex_keyOf p N h1 hN _ hv hl, wordIndex_indexWord]

example : ∃ k, indexToKey .debug 3 1000 = .ok k ∧ keyToIndex .debug 3 k = .ok 1000 ∧
    ∃ w, ValidWord 3 w ∧ w.length ≤ maxDepth 3 ∧ fromLetters .debug 3 w = .ok k :=
  C08_index_key_index .debug 3 (by omega) (by omega) 1000 (by decide +kernel)

example : (1000 : Nat) < geomSum 3 (maxDepth 3 + 1) := by decide +kernel

/-- C09.  For every valid key, `key_to_index` does not overflow, and `index_to_key` gives an equal key back. -/
theorem C09_key_index_key (p : Profile) (N : Nat) (h1 : 1 ≤ N) (hN : N < 2 ^ 32) (w : List Nat)
    (hw : ValidWord N w) (hl : w.length ≤ maxDepth N) (k : TensorKey) (hk : fromLetters p N w = .ok k) :
    ∃ i, keyToIndex p N k = .ok i ∧ i < 2 ^ 64 ∧ indexToKey p N i = .ok k := by
  rw [fromLetters_ok p N h1 hN w hw hl] at hk
  cases hk
  refine ⟨_, keyToIndex_keyOf p N h1 hN w hw hl, wordIndex_lt64 h1 hw hl, ?_⟩
  rw [indexToKey_ok p N h1 hN, indexWord_wordIndex h1 hw]
  have := (wordIndex_bounds hw).2
  have : geomSum N (w.length + 1) ≤ geomSum N (maxDepth N + 1) := geomSum_mono (by omega)
  omega

example : ∃ i, keyToIndex .debug 3 ⟨3, 24⟩ = .ok i ∧ i < 2 ^ 64 ∧ indexToKey .debug 3 i = .ok ⟨3, 24⟩ :=
  C09_key_index_key .debug 3 (by omega) (by omega) [2, 3, 1] (by decide) (by decide +kernel) _ (by decide +kernel)

/-- C09.  Distinct keys have distinct indices. -/
theorem C09_index_injective (p : Profile) (N : Nat) (h1 : 1 ≤ N) (hN : N < 2 ^ 32) (u v : List Nat)
    (hu : ValidWord N u) (hv : ValidWord N v) (hlu : u.length ≤ maxDepth N) (hlv : v.length ≤ maxDepth N)
    (ku kv : TensorKey) (hku : fromLetters p N u = .ok ku) (hkv : fromLetters p N v = .ok kv)
    (h : keyToIndex p N ku = keyToIndex p N kv) : ku = kv := by
  obtain ⟨i, hi, _, hki⟩ := C09_key_index_key p N h1 hN u hu hlu ku hku
  obtain ⟨j, hj, _, hkj⟩ := C09_key_index_key p N h1 hN v hv hlv kv hkv
  rw [hi, hj] at h
  cases h
  rw [hki] at hkj
  cases hkj
  rfl

example : keyToIndex .debug 3 ⟨3, 24⟩ ≠ keyToIndex .debug 3 ⟨3, 18⟩ := fun h =>
  absurd (C09_index_injective .debug 3 (by omega) (by omega) [2, 3, 1] [2, 1, 3] (by decide) (by decide) (by decide +kernel) (by decide +kernel)
    _ _ (by decide +kernel) (by decide +kernel) h) (by decide)

example : ∃ k, fromLetters .debug 3 [2, 3, 1] = .ok k ∧ keyToIndex .debug 3 k = .ok 28 := ⟨⟨3, 24⟩, by decide +kernel⟩

/-! ## C10: order -/

/-- C10.  Indices order keys by degree first, then lexicographically. -/
theorem C10_graded_lex (p : Profile) (N : Nat) (h1 : 1 ≤ N) (hN : N < 2 ^ 32) (u v : List Nat)
    (hu : ValidWord N u) (hv : ValidWord N v) (hlu : u.length ≤ maxDepth N) (hlv : v.length ≤ maxDepth N)
    (ku kv : TensorKey) (hku : fromLetters p N u = .ok ku) (hkv : fromLetters p N v = .ok kv) :
    ∃ i j, keyToIndex p N ku = .ok i ∧ keyToIndex p N kv = .ok j ∧ (i < j ↔ GradedLex u v) := by
  rw [fromLetters_ok p N h1 hN u hu hlu] at hku
  rw [fromLetters_ok p N h1 hN v hv hlv] at hkv
  cases hku; cases hkv
  exact ⟨_, _, keyToIndex_keyOf p N h1 hN u hu hlu, keyToIndex_keyOf p N h1 hN v hv hlv, wordIndex_lt_iff hu hv⟩

example : ∃ i j, keyToIndex .debug 3 ⟨2, 10⟩ = .ok i ∧ keyToIndex .debug 3 ⟨3, 0⟩ = .ok j ∧ (i < j ↔ GradedLex [3, 3] [1, 1, 1]) :=
  C10_graded_lex .debug 3 (by omega) (by omega) [3, 3] [1, 1, 1] (by decide) (by decide) (by decide +kernel) (by decide +kernel) _ _
    (by decide +kernel) (by decide +kernel)

example : GradedLex [2, 1, 3] [2, 2, 1] ∧ GradedLex [3, 3] [1, 1, 1] ∧ ¬ GradedLex [2, 2] [2, 1] := by
  unfold GradedLex; decide

/-! ## C11: compare -/

/-- C11, full statement: `compare` orders valid keys like their indices. -/
def C11_compare_full (p : Profile) (N : Nat) : Prop :=
  ∀ (u v : List Nat) (ku kv : TensorKey) (i j : Nat), ValidWord N u → ValidWord N v →
    fromLetters p N u = .ok ku → fromLetters p N v = .ok kv → keyToIndex p N ku = .ok i → keyToIndex p N kv = .ok j →
    TensorBasis.compare ku kv = Ord.compare i j

/-- C11 is false for every alphabet: the empty key and the one-letter key `1` compare as equal. -/
theorem C11_compare_refuted (p : Profile) (N : Nat) (h1 : 1 ≤ N) (hN : N < 2 ^ 32) : ¬ C11_compare_full p N := by
  intro h
  have hd := two_le_maxDepth N h1 hN
  have h0 : ValidWord N [] := by simp [ValidWord]
  have hone : ValidWord N [1] := by intro x hx; simp at hx; omega
  have := h [] [1] _ _ _ _ h0 hone (fromLetters_ok p N h1 hN _ h0 (by simp)) (fromLetters_ok p N h1 hN _ hone (by simp; omega))
    (keyToIndex_keyOf p N h1 hN _ h0 (by simp)) (keyToIndex_keyOf p N h1 hN _ hone (by simp; omega))
  simp [TensorBasis.compare, keyOf, wordData, wordIndex, Ord.compare, compareOfLessAndEq] at this

example : ¬ C11_compare_full .release 4 := C11_compare_refuted .release 4 (by omega) (by omega)

/-- C11, for two or more letters the order is wrong as well, not only the ties: `[2]` is reported greater than `[1, 1]` although its index is
smaller. -/
theorem C11_compare_inverted (p : Profile) (N : Nat) (h2 : 2 ≤ N) (hN : N < 2 ^ 32) :
    ∃ ku kv i j, fromLetters p N [2] = .ok ku ∧ fromLetters p N [1, 1] = .ok kv ∧ keyToIndex p N ku = .ok i ∧
      keyToIndex p N kv = .ok j ∧ i < j ∧ TensorBasis.compare ku kv = .gt := by
  have hd := two_le_maxDepth N (by omega) hN
  have hu : ValidWord N [2] := by intro x hx; simp at hx; omega
  have hv : ValidWord N [1, 1] := by intro x hx; simp at hx; omega
  refine ⟨_, _, _, _, fromLetters_ok p N (by omega) hN _ hu (by simp; omega), fromLetters_ok p N (by omega) hN _ hv (by simp; omega),
    keyToIndex_keyOf p N (by omega) hN _ hu (by simp; omega), keyToIndex_keyOf p N (by omega) hN _ hv (by simp; omega), ?_, ?_⟩
  · simp [wordIndex]; omega
  · simp [TensorBasis.compare, keyOf, wordData, Ord.compare, compareOfLessAndEq]

example : ∃ ku kv i j, fromLetters .debug 4 [2] = .ok ku ∧ fromLetters .debug 4 [1, 1] = .ok kv ∧ keyToIndex .debug 4 ku = .ok i ∧
    keyToIndex .debug 4 kv = .ok j ∧ i < j ∧ TensorBasis.compare ku kv = .gt :=
  C11_compare_inverted .debug 4 (by omega) (by omega)

theorem wordData_lt_iff_lex {N b : Nat} (hb : N ≤ 2 ^ b) {u v : List Nat} (hu : ValidWord N u) (hv : ValidWord N v)
    (hlen : u.length = v.length) : wordData b u < wordData b v ↔ u < v := by
  induction u generalizing v with
  | nil =>
    cases v with
    | nil => simp
    | cons => simp at hlen
  | cons l u ih =>
    cases v with
    | nil => simp at hlen
    | cons m v =>
      rw [ValidWord.cons] at hu hv
      simp only [List.length_cons, Nat.add_right_cancel_iff] at hlen
      have hlt1 := wordData_lt hb hu.2
      have hlt2 := wordData_lt hb hv.2
      rw [List.cons_lt_cons_iff, ← ih hu.2 hv.2 hlen, wordData_cons, wordData_cons, hlen]
      rw [hlen] at hlt1
      rcases Nat.lt_trichotomy l m with h | h | h
      · have : (l - 1 + 1) * 2 ^ (v.length * b) ≤ (m - 1) * 2 ^ (v.length * b) := Nat.mul_le_mul_right _ (by omega)
        rw [Nat.add_mul] at this
        constructor
        · intro; exact .inl h
        · intro; omega
      · subst h; omega
      · have : (m - 1 + 1) * 2 ^ (v.length * b) ≤ (l - 1) * 2 ^ (v.length * b) := Nat.mul_le_mul_right _ (by omega)
        rw [Nat.add_mul] at this
        omega

/-- C11, the part that holds: on keys of the same degree `compare` agrees with the index order. -/
theorem C11_compare_same_degree_partial (p : Profile) (N : Nat) (h1 : 1 ≤ N) (hN : N < 2 ^ 32) (u v : List Nat)
    (hu : ValidWord N u) (hv : ValidWord N v) (hlu : u.length ≤ maxDepth N) (hlv : v.length ≤ maxDepth N)
    (ku kv : TensorKey) (hku : fromLetters p N u = .ok ku) (hkv : fromLetters p N v = .ok kv)
    (hdeg : degree ku = degree kv) :
    ∃ i j, keyToIndex p N ku = .ok i ∧ keyToIndex p N kv = .ok j ∧ TensorBasis.compare ku kv = Ord.compare i j := by
  rw [fromLetters_ok p N h1 hN u hu hlu] at hku
  rw [fromLetters_ok p N h1 hN v hv hlv] at hkv
  cases hku; cases hkv
  refine ⟨_, _, keyToIndex_keyOf p N h1 hN u hu hlu, keyToIndex_keyOf p N h1 hN v hv hlv, ?_⟩
  have hlen : u.length = v.length := hdeg
  have hb := Nat.le_of_lt (lt_two_pow_bpl N h1)
  have ha := wordData_lt_iff_lex hb hu hv hlen
  have hc := wordData_lt_iff_lex hb hv hu hlen.symm
  have hi1 := wordIndex_lt_iff_lex hu hv hlen
  have hi2 := wordIndex_lt_iff_lex hv hu hlen.symm
  show Ord.compare (wordData (bitsPerLetter N) u) (wordData (bitsPerLetter N) v) = _
  by_cases h : u < v
  · rw [Nat.compare_eq_lt.2 (ha.2 h), Nat.compare_eq_lt.2 (hi1.2 h)]
  · by_cases h' : v < u
    · rw [Nat.compare_eq_gt.2 (hc.2 h'), Nat.compare_eq_gt.2 (hi2.2 h')]
    · have e1 : ¬ wordData (bitsPerLetter N) u < wordData (bitsPerLetter N) v := fun hh => h (ha.1 hh)
      have e2 : ¬ wordData (bitsPerLetter N) v < wordData (bitsPerLetter N) u := fun hh => h' (hc.1 hh)
      have e3 : ¬ wordIndex N u < wordIndex N v := fun hh => h (hi1.1 hh)
      have e4 : ¬ wordIndex N v < wordIndex N u := fun hh => h' (hi2.1 hh)
      rw [Nat.compare_eq_eq.2 (by omega), Nat.compare_eq_eq.2 (by omega)]

example : ∃ i j, keyToIndex .debug 3 ⟨2, 4⟩ = .ok i ∧ keyToIndex .debug 3 ⟨2, 2⟩ = .ok j ∧
    TensorBasis.compare ⟨2, 4⟩ ⟨2, 2⟩ = Ord.compare i j :=
  C11_compare_same_degree_partial .debug 3 (by omega) (by omega) [2, 1] [1, 3] (by decide) (by decide) (by decide +kernel) (by decide +kernel)
    _ _ (by decide +kernel) (by decide +kernel) rfl

example : ∃ ku kv, fromLetters .debug 3 [2, 1] = .ok ku ∧ fromLetters .debug 3 [1, 3] = .ok kv ∧ degree ku = degree kv ∧
    TensorBasis.compare ku kv = .gt := ⟨⟨2, 4⟩, ⟨2, 2⟩, by decide +kernel⟩

/-! ## C12: degree blocks -/

/-- C12.  `start_of_degree(d)` is the number of words shorter than `d`, as long as `N^d` fits in a `usize`. -/
theorem C12_start_of_degree (p : Profile) (N : Nat) (h2 : 2 ≤ N) (d : Nat) (hp : N ^ d < 2 ^ 64) :
    startOfDegree p N d = .ok (geomSum N d) := startOfDegree_ok p N h2 d hp

example : startOfDegree .release 3 4 = .ok (geomSum 3 4) ∧ geomSum 3 4 = 40 := ⟨C12_start_of_degree .release 3 (by omega) 4 (by omega), by decide⟩

/-- C12.  `index_to_degree(i)` is `d` exactly when `start_of_degree(d) ≤ i < start_of_degree(d+1)`. -/
theorem C12_index_to_degree (p : Profile) (N : Nat) (h2 : 2 ≤ N) (hN : N < 2 ^ 32) (i d : Nat) (hp : N ^ (d + 1) < 2 ^ 64) :
    ∃ s e, startOfDegree p N d = .ok s ∧ startOfDegree p N (d + 1) = .ok e ∧ degreeRange p N d = .ok (s, e) ∧
      (indexToDegree p N i = .ok d ↔ s ≤ i ∧ i < e) := by
  have hs := startOfDegree_ok p N h2 d (pow_lt64_mono h2 (by omega) hp)
  have he := startOfDegree_ok p N h2 (d + 1) hp
  have hd64 := deg_lt64 h2 hp
  have hadd : addW p 32 d 1 = .ok (d + 1) := addW_ok (by omega)
  refine ⟨_, _, hs, he, ?_, ?_, fun h => indexToDegree_ok p N h2 i d hp h.1 h.2⟩
  · unfold degreeRange
    rw [hs, Res.bind_ok, hadd, Res.bind_ok, he]
    rfl
  · intro h
    have main : ∀ deg fuel, indexToDegreeImpl p N i fuel deg = .ok d → geomSum N d ≤ i ∧ i < geomSum N (d + 1) := by
      intro deg fuel hh
      obtain ⟨s, d1, e, h1, h2, h3, h4, h5⟩ := indexToDegreeImpl_sound p N i fuel deg d hh
      rw [hs] at h1; cases h1
      rw [hadd] at h2; cases h2
      rw [he] at h3; cases h3
      exact ⟨h4, h5⟩
    unfold indexToDegree at h
    by_cases h0 : i = 0
    · rw [if_pos h0] at h; cases h; simp [geomSum, h0]
    rw [if_neg h0] at h
    by_cases h1 : 1 ≤ i ∧ i ≤ N
    · rw [if_pos h1] at h; cases h; simp [geomSum]; omega
    rw [if_neg h1] at h
    have hN2 : N ^ 2 < 2 ^ 64 := Nat.lt_of_lt_of_le (Nat.pow_lt_pow_left hN (by omega)) (by rw [← Nat.pow_mul])
    rw [startOfDegree_ok p N h2 2 hN2] at h
    simp only [Res.bind_ok] at h
    by_cases hi2 : geomSum N 2 ≤ i
    · rw [if_pos hi2] at h
      cases h3 : startOfDegree p N 3 with
      | ok s3 =>
        rw [h3] at h
        simp only [Res.bind_ok] at h
        by_cases hi3 : i < s3
        · rw [if_pos hi3] at h
          cases h
          rw [he] at h3; cases h3
          exact ⟨hi2, hi3⟩
        · rw [if_neg hi3] at h
          exact main _ _ h
      | panic => rw [h3] at h; cases h
      | ub => rw [h3] at h; cases h
      | diverge => rw [h3] at h; cases h
    · rw [if_neg hi2] at h
      exact main _ _ h

example : ∃ s e, startOfDegree .debug 3 3 = .ok s ∧ startOfDegree .debug 3 (3 + 1) = .ok e ∧ degreeRange .debug 3 3 = .ok (s, e) ∧
    (indexToDegree .debug 3 20 = .ok 3 ↔ s ≤ 20 ∧ 20 < e) := C12_index_to_degree .debug 3 (by omega) (by omega) 20 3 (by omega)

/-- C12.  Beyond that: when an index has degree at least `d` and `N^(d+1)` does not fit a `usize`, `index_to_degree` panics in debug builds rather
than answering. -/
theorem C12_index_to_degree_overflow (N : Nat) (h2 : 2 ≤ N) (hN : N < 2 ^ 32) (i d : Nat) (hi : i < 2 ^ 64)
    (hp : 2 ^ 64 ≤ N ^ (d + 1)) (hlo : geomSum N d ≤ i) : indexToDegree .debug N i = .panic := by
  have hN2 : N ^ 2 < 2 ^ 64 := Nat.lt_of_lt_of_le (Nat.pow_lt_pow_left hN (by omega)) (by rw [← Nat.pow_mul])
  have hd2 : 2 ≤ d := by
    by_contra hc
    have : N ^ (d + 1) ≤ N ^ 2 := Nat.pow_le_pow_right (by omega) (by omega)
    omega
  have hg2 : geomSum N 2 ≤ geomSum N d := geomSum_mono hd2
  have e2 : geomSum N 2 = 1 + N := by simp [geomSum]
  have hd := geomSum_lt64_deg h2 hi hlo
  unfold indexToDegree
  rw [if_neg (by omega), if_neg (by omega), startOfDegree_ok _ N h2 2 hN2]
  simp only [Res.bind_ok]
  rw [if_pos (by omega)]
  by_cases h3 : N ^ 3 < 2 ^ 64
  · rw [startOfDegree_ok _ N h2 3 h3]
    simp only [Res.bind_ok]
    have hne : d ≠ 2 := by rintro rfl; exact absurd hp (Nat.not_le.2 h3)
    have hg3 : geomSum N 3 ≤ geomSum N d := geomSum_mono (by omega)
    rw [if_neg (by omega)]
    exact indexToDegreeImpl_overflow N h2 i d hi hp hlo _ _ (by omega) (by omega)
  · rw [startOfDegree_debug_overflow N 3 (by omega)]; rfl

example : indexToDegree .debug 31 (10 ^ 18) = .panic :=
  C12_index_to_degree_overflow 31 (by omega) (by omega) (10 ^ 18) 12 (by omega) (by decide) (by decide)

example : (2 : Nat) ^ 64 ≤ 31 ^ (12 + 1) ∧ geomSum 31 12 ≤ 10 ^ 18 := by decide

/-- C12.  The degree of the index of a key is the degree of the key. -/
theorem C12_degree_of_key (p : Profile) (N : Nat) (h2 : 2 ≤ N) (hN : N < 2 ^ 32) (w : List Nat)
    (hw : ValidWord N w) (hl : w.length ≤ maxDepth N) (hp : N ^ (w.length + 1) < 2 ^ 64)
    (k : TensorKey) (hk : fromLetters p N w = .ok k) :
    ∃ i, keyToIndex p N k = .ok i ∧ indexToDegree p N i = .ok (degree k) ∧ degree k = w.length := by
  rw [fromLetters_ok p N (by omega) hN w hw hl] at hk
  cases hk
  have := wordIndex_bounds hw
  exact ⟨_, keyToIndex_keyOf p N (by omega) hN w hw hl, indexToDegree_ok p N h2 _ _ hp this.1 this.2, rfl⟩

example : ∃ i, keyToIndex .debug 3 ⟨4, 96⟩ = .ok i ∧ indexToDegree .debug 3 i = .ok (degree ⟨4, 96⟩) ∧ degree ⟨4, 96⟩ = 4 :=
  C12_degree_of_key .debug 3 (by omega) (by omega) [2, 3, 1, 1] (by decide) (by decide +kernel) (by decide) _ (by decide +kernel)

example : ∃ k, fromLetters .debug 3 [2, 3, 1, 1] = .ok k ∧ 3 ^ (4 + 1) < 2 ^ 64 := ⟨⟨4, 96⟩, by decide +kernel⟩

/-! ## C13: vector dimensions -/

/-- C13.  `vector_dimension_for_key(k)` is the number of words of length at most `degree(k)`, it is larger than the index of `k` and equals
`vector_dimension_for_index` of that index. -/
theorem C13_vector_dimension (p : Profile) (N : Nat) (h2 : 2 ≤ N) (hN : N < 2 ^ 32) (w : List Nat)
    (hw : ValidWord N w) (hl : w.length ≤ maxDepth N) (hp : N ^ (w.length + 1) < 2 ^ 64)
    (k : TensorKey) (hk : fromLetters p N w = .ok k) :
    ∃ i dim, keyToIndex p N k = .ok i ∧ vectorDimensionForKey p N k = .ok dim ∧
      vectorDimensionForIndex p N i = .ok dim ∧ i < dim ∧ dim = geomSum N (w.length + 1) := by
  obtain ⟨i, hi, hdeg, _⟩ := C12_degree_of_key p N h2 hN w hw hl hp k hk
  rw [fromLetters_ok p N (by omega) hN w hw hl] at hk
  cases hk
  have hd := deg_lt64 h2 hp
  have hs := startOfDegree_ok p N h2 _ hp
  have hidx := keyToIndex_keyOf p N (by omega) hN w hw hl
  rw [hi] at hidx
  cases hidx
  have hadd : addW p 32 w.length 1 = .ok (w.length + 1) := addW_ok (by omega)
  have hdg : degree (keyOf N w) = w.length := rfl
  refine ⟨_, _, hi, ?_, ?_, (wordIndex_bounds hw).2, rfl⟩
  · unfold vectorDimensionForKey
    rw [hdg, hadd, Res.bind_ok, hs]
  · unfold vectorDimensionForIndex
    rw [hdeg, Res.bind_ok, hdg, hadd, Res.bind_ok, hs]

example : ∃ i dim, keyToIndex .debug 3 ⟨4, 96⟩ = .ok i ∧ vectorDimensionForKey .debug 3 ⟨4, 96⟩ = .ok dim ∧
    vectorDimensionForIndex .debug 3 i = .ok dim ∧ i < dim ∧ dim = geomSum 3 (4 + 1) :=
  C13_vector_dimension .debug 3 (by omega) (by omega) [2, 3, 1, 1] (by decide) (by decide +kernel) (by decide) _ (by decide +kernel)

/-- C13.  A key of higher degree has a larger dimension. -/
theorem C13_vector_dimension_mono (p : Profile) (N : Nat) (h2 : 2 ≤ N) (hN : N < 2 ^ 32) (u v : List Nat)
    (hu : ValidWord N u) (hv : ValidWord N v) (hlv : v.length ≤ maxDepth N) (hp : N ^ (v.length + 1) < 2 ^ 64)
    (hlt : u.length < v.length)
    (ku kv : TensorKey) (hku : fromLetters p N u = .ok ku) (hkv : fromLetters p N v = .ok kv) :
    ∃ a b, vectorDimensionForKey p N ku = .ok a ∧ vectorDimensionForKey p N kv = .ok b ∧ a < b := by
  obtain ⟨_, a, _, ha, _, _, rfl⟩ := C13_vector_dimension p N h2 hN u hu (by omega)
    (pow_lt64_mono h2 (by omega) hp) ku hku
  obtain ⟨_, b, _, hb, _, _, rfl⟩ := C13_vector_dimension p N h2 hN v hv hlv hp kv hkv
  exact ⟨_, _, ha, hb, geomSum_strict (by omega) (by omega)⟩

example : ∃ a b, vectorDimensionForKey .debug 3 ⟨2, 10⟩ = .ok a ∧ vectorDimensionForKey .debug 3 ⟨4, 96⟩ = .ok b ∧ a < b :=
  C13_vector_dimension_mono .debug 3 (by omega) (by omega) [3, 3] [2, 3, 1, 1] (by decide) (by decide) (by decide +kernel) (by decide)
    (by decide) _ _ (by decide +kernel) (by decide +kernel)

/-- C13.  With at least two letters the debug build panics exactly when `N^(degree+1)` does not fit a `usize` (for any key, valid or not). -/
theorem C13_vector_dimension_panics_iff (N : Nat) (h2 : 2 ≤ N) (k : TensorKey) (hs : k.size < 2 ^ 32 - 1) :
    vectorDimensionForKey .debug N k = .panic ↔ 2 ^ 64 ≤ N ^ (k.size + 1) := by
  unfold vectorDimensionForKey
  have hadd : addW .debug 32 (degree k) 1 = .ok (k.size + 1) := addW_ok (by unfold degree; omega)
  rw [hadd, Res.bind_ok]
  by_cases h : N ^ (k.size + 1) < 2 ^ 64
  · rw [startOfDegree_ok _ N h2 _ h]
    constructor
    · intro hc; cases hc
    · intro hc; omega
  · rw [startOfDegree_debug_overflow N _ (by omega)]
    simp; omega

example : vectorDimensionForKey .debug 31 ⟨12, 0⟩ = .panic := (C13_vector_dimension_panics_iff 31 (by omega) ⟨12, 0⟩ (by decide)).2 (by decide)

/-- C13.  In release builds the same overflow is silent: the dimension is computed from the wrapped power. -/
theorem C13_vector_dimension_release_wraps (N : Nat) (h2 : 2 ≤ N) (k : TensorKey) (hs : k.size < 2 ^ 32 - 1)
    (ho : 2 ^ 64 ≤ N ^ (k.size + 1)) (hnz : N ^ (k.size + 1) % 2 ^ 64 ≠ 0) :
    vectorDimensionForKey .release N k = .ok ((N ^ (k.size + 1) % 2 ^ 64 - 1) / (N - 1)) := by
  unfold vectorDimensionForKey
  have hadd : addW .release 32 (degree k) 1 = .ok (k.size + 1) := addW_ok (by unfold degree; omega)
  rw [hadd, Res.bind_ok, startOfDegree_release_overflow N _ h2 ho hnz]

example : vectorDimensionForKey .release 31 ⟨12, 0⟩ = .ok ((31 ^ (12 + 1) % 2 ^ 64 - 1) / (31 - 1)) :=
  C13_vector_dimension_release_wraps 31 (by omega) ⟨12, 0⟩ (by decide) (by decide) (by decide)

/-- With 31 letters a valid key of degree 12 (within `max_depth`) has that overflow, and the release dimension does not even cover the key's own
index. -/
example : ∃ k i dim, fromLetters .release 31 (List.replicate 12 31) = .ok k ∧ keyToIndex .release 31 k = .ok i ∧
    vectorDimensionForKey .release 31 k = .ok dim ∧ dim ≤ i :=
  ⟨⟨12, 1115730488329206750⟩, 813918209914834752, 199026740791183032, by decide +kernel⟩

/-- C13.  With one letter the dimension functions always panic (division by zero), in both profiles. -/
theorem C13_vector_dimension_one_letter (p : Profile) (k : TensorKey) :
    vectorDimensionForKey p 1 k = .panic := by
  have hs : ∀ d, startOfDegree p 1 d = .panic := by
    intro d
    unfold startOfDegree
    rw [powW_ok (by simp), Res.bind_ok, subW_ok (by simp), Res.bind_ok, subW_ok (by simp), Res.bind_ok]
    rfl
  unfold vectorDimensionForKey
  cases h : addW p 32 (degree k) 1 with
  | ok d => rw [Res.bind_ok, hs]
  | panic => rfl
  | ub => unfold addW fitW at h; split at h <;> [cases h; (cases p <;> cases h)]
  | diverge => unfold addW fitW at h; split at h <;> [cases h; (cases p <;> cases h)]

example : vectorDimensionForKey .release 1 ⟨5, 0⟩ = .panic := C13_vector_dimension_one_letter .release _

/-! ## C14: index of a concatenation -/

/-- C14.  `index(u·v) = index(u) * N^degree(v) + index(v)`. -/
theorem C14_index_concatenate (p : Profile) (N : Nat) (h1 : 1 ≤ N) (hN : N < 2 ^ 31) (u v : List Nat)
    (hu : ValidWord N u) (hv : ValidWord N v) (hl : (u ++ v).length ≤ maxDepth N)
    (ku kv : TensorKey) (hku : fromLetters p N u = .ok ku) (hkv : fromLetters p N v = .ok kv) :
    ∃ k a b c, concatenate p N ku kv = .ok k ∧ keyToIndex p N ku = .ok a ∧ keyToIndex p N kv = .ok b ∧
      keyToIndex p N k = .ok c ∧ c = a * N ^ degree kv + b := by
  have hl' := hl
  simp only [List.length_append] at hl'
  have huv := ValidWord.append.2 ⟨hu, hv⟩
  rw [fromLetters_ok p N h1 (by omega) u hu (by omega)] at hku
  rw [fromLetters_ok p N h1 (by omega) v hv (by omega)] at hkv
  cases hku; cases hkv
  have hs : v.length * bitsPerLetter N < 64 := by
    have hb : bitsPerLetter N ≤ 31 := by
      unfold bitsPerLetter
      exact constLogn_lt_of_lt h1 hN
    rcases sizeBits_bpl N h1 (by omega) with h | h
    · exact Nat.lt_of_le_of_lt (Nat.mul_le_mul_right _ (by omega)) h
    · omega
  exact ⟨_, _, _, _, concatenate_keyOf p N h1 u v hu hv hl hs, keyToIndex_keyOf p N h1 (by omega) u hu (by omega),
    keyToIndex_keyOf p N h1 (by omega) v hv (by omega), keyToIndex_keyOf p N h1 (by omega) _ huv hl, wordIndex_append N u v⟩

example : ∃ k a b c, concatenate .debug 3 ⟨2, 6⟩ ⟨3, 10⟩ = .ok k ∧ keyToIndex .debug 3 ⟨2, 6⟩ = .ok a ∧ keyToIndex .debug 3 ⟨3, 10⟩ = .ok b ∧
    keyToIndex .debug 3 k = .ok c ∧ c = a * 3 ^ 3 + b :=
  C14_index_concatenate .debug 3 (by omega) (by omega) [2, 3] [1, 3, 3] (by decide) (by decide) (by decide +kernel) _ _
    (by decide +kernel) (by decide +kernel)

example : ([2, 3] ++ [1, 3, 3] : List Nat).length ≤ maxDepth 3 ∧ ValidWord 3 ([2, 3] ++ [1, 3, 3]) := by decide +kernel

end RA
