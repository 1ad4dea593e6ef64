import Verif.Props.Basis
import Mathlib.Data.Set.Card

/-!
# C10, C12, C13: indices and dimensions as numbers of words

The theorems of `Props/Basis.lean` give indices and dimensions by formulas.  Here they are numbers of words, counted in the plain sense (`Set.encard`).
-/

namespace RA
open Spec TensorKey TensorBasis

/-- The words whose index is less than `n` are `n` in number. -/
theorem encard_below {N : Nat} (h1 : 1 ≤ N) (n : Nat) : {u | ValidWord N u ∧ wordIndex N u < n}.encard = n := by
  have he : {u | ValidWord N u ∧ wordIndex N u < n} = indexWord N '' (Finset.range n : Set Nat) := by
    ext u
    simp only [Set.mem_ofPred_eq, Set.mem_image, Finset.coe_range, Set.mem_Iio]
    constructor
    · rintro ⟨hu, hlt⟩
      exact ⟨_, hlt, indexWord_wordIndex h1 hu⟩
    · rintro ⟨i, hi, rfl⟩
      exact ⟨validWord_indexWord h1 i, by rw [wordIndex_indexWord]; exact hi⟩
  have hinj : Set.InjOn (indexWord N) (Finset.range n : Set Nat) := by
    intro a _ b _ h
    rw [← wordIndex_indexWord N a, h, wordIndex_indexWord]
  rw [he, hinj.encard_image, Set.encard_coe_eq_coe_finsetCard, Finset.card_range]

/-- `geomSum N d` is the number of words of length less than `d`. -/
theorem encard_shorter {N : Nat} (h1 : 1 ≤ N) (d : Nat) : {u | ValidWord N u ∧ u.length < d}.encard = geomSum N d := by
  rw [← encard_below h1]
  congr 1
  ext u
  simp only [Set.mem_ofPred_eq, and_congr_right_iff]
  intro hu
  have hb := wordIndex_bounds hu
  constructor
  · intro h
    have := geomSum_mono (N := N) (show u.length + 1 ≤ d from h)
    omega
  · intro h
    by_contra hc
    have := geomSum_mono (N := N) (show d ≤ u.length by omega)
    omega

/-- C10.  The index of a key is the number of words that come before its word in graded lexicographic order. -/
theorem C10_index_counts (p : Profile) (N : Nat) (h1 : 1 ≤ N) (hN : N < 2 ^ 32) (w : List Nat) (hw : ValidWord N w) (hl : w.length ≤ maxDepth N)
    (k : TensorKey) (hk : fromLetters p N w = .ok k) :
    ∃ i : Nat, keyToIndex p N k = .ok i ∧ {u | ValidWord N u ∧ GradedLex u w}.encard = i := by
  rw [fromLetters_ok p N h1 hN w hw hl] at hk
  cases Res.ok.inj hk
  refine ⟨_, keyToIndex_keyOf p N h1 hN w hw hl, ?_⟩
  rw [← encard_below h1]
  congr 1
  ext u
  simp only [Set.mem_ofPred_eq, and_congr_right_iff]
  exact fun hu => (wordIndex_lt_iff hu hw).symm

example : ∃ i : Nat, keyToIndex .debug 3 ⟨2, 10⟩ = .ok i ∧ {u | ValidWord 3 u ∧ GradedLex u [3, 3]}.encard = i :=
  C10_index_counts .debug 3 (by omega) (by omega) [3, 3] (by decide) (by decide +kernel) _ (by decide +kernel)

/-- C12.  `start_of_degree(d)` is the number of words of length less than `d`, and the block of degree `d` has as many places as there are words of
length `d`. -/
theorem C12_block_counts (p : Profile) (N : Nat) (h2 : 2 ≤ N) (d : Nat) (hp : N ^ (d + 1) < 2 ^ 64) :
    ∃ s e : Nat, degreeRange p N d = .ok (s, e) ∧ {u | ValidWord N u ∧ u.length < d}.encard = s ∧
      {u | ValidWord N u ∧ u.length = d}.encard = (e - s : Nat) := by
  refine ⟨geomSum N d, geomSum N (d + 1), ?_, encard_shorter (by omega) d, ?_⟩
  · have hd := deg_lt64 h2 hp
    unfold degreeRange
    rw [startOfDegree_ok p N h2 d (pow_lt64_mono h2 (by omega) hp), Res.bind_ok, addW_ok (by omega), Res.bind_ok,
      startOfDegree_ok p N h2 (d + 1) hp, Res.bind_ok]
    rfl
  · have hu : {u | ValidWord N u ∧ u.length < d + 1} = {u | ValidWord N u ∧ u.length < d} ∪ {u | ValidWord N u ∧ u.length = d} := by
      ext u
      simp only [Set.mem_ofPred_eq, Set.mem_union]
      rw [← and_or_left, Nat.lt_succ_iff_lt_or_eq]
    have hdis : Disjoint {u | ValidWord N u ∧ u.length < d} {u | ValidWord N u ∧ u.length = d} := by
      rw [Set.disjoint_left]
      rintro u ⟨_, h⟩ ⟨_, h'⟩
      omega
    have hc := Set.encard_union_eq hdis
    rw [← hu, encard_shorter (by omega), encard_shorter (by omega)] at hc
    have hfin : {u | ValidWord N u ∧ u.length = d}.Finite := by
      have : {u | ValidWord N u ∧ u.length < d + 1}.Finite := Set.finite_of_encard_eq_coe (encard_shorter (by omega) (d + 1))
      exact this.subset fun u hu => ⟨hu.1, by have := hu.2; omega⟩
    obtain ⟨n, hn⟩ := ENat.ne_top_iff_exists.1 (Set.encard_ne_top_iff.2 hfin)
    rw [← hn] at hc ⊢
    have : geomSum N (d + 1) = geomSum N d + n := by exact_mod_cast hc
    rw [show geomSum N (d + 1) - geomSum N d = n by omega]

example : ∃ s e : Nat, degreeRange .release 5 7 = .ok (s, e) ∧ {u | ValidWord 5 u ∧ u.length < 7}.encard = s ∧
    {u | ValidWord 5 u ∧ u.length = 7}.encard = (e - s : Nat) := C12_block_counts .release 5 (by omega) 7 (by norm_num)

/-- C13.  `vector_dimension_for_key(k)` is the number of words of length at most the degree of `k`. -/
theorem C13_dimension_counts (p : Profile) (N : Nat) (h2 : 2 ≤ N) (hN : N < 2 ^ 32) (w : List Nat)
    (hw : ValidWord N w) (hl : w.length ≤ maxDepth N) (hp : N ^ (w.length + 1) < 2 ^ 64) (k : TensorKey) (hk : fromLetters p N w = .ok k) :
    ∃ dim : Nat, vectorDimensionForKey p N k = .ok dim ∧ {u | ValidWord N u ∧ u.length ≤ w.length}.encard = dim := by
  obtain ⟨_, dim, _, hd, _, _, rfl⟩ := C13_vector_dimension p N h2 hN w hw hl hp k hk
  refine ⟨_, hd, ?_⟩
  rw [← encard_shorter (by omega)]
  simp only [Nat.lt_succ_iff]

example : ∃ dim : Nat, vectorDimensionForKey .debug 3 ⟨2, 10⟩ = .ok dim ∧ {u | ValidWord 3 u ∧ u.length ≤ [3, 3].length}.encard = dim :=
  C13_dimension_counts .debug 3 (by omega) (by omega) [3, 3] (by decide) (by decide +kernel) (by decide) _ (by decide +kernel)

/-! ## C12 past the range of `usize`, release builds -/

/-- C12, `start_of_degree` in release builds, always: the power is taken modulo `2^64`. -/
theorem C12_start_of_degree_release (N : Nat) (h2 : 2 ≤ N) (d : Nat) :
    startOfDegree .release N d = .ok ((N ^ d % 2 ^ 64 + (2 ^ 64 - 1)) % 2 ^ 64 / (N - 1)) := by
  by_cases hp : N ^ d < 2 ^ 64
  · rw [startOfDegree_ok .release N h2 d hp]
    have := geomSum_mul N d (by omega)
    rw [Nat.mod_eq_of_lt hp, ← this]
    congr 1
    have hlt : geomSum N d * (N - 1) < 2 ^ 64 := by omega
    rw [show geomSum N d * (N - 1) + 1 + (2 ^ 64 - 1) = geomSum N d * (N - 1) + 2 ^ 64 by omega, Nat.add_mod_right, Nat.mod_eq_of_lt hlt,
      Nat.mul_div_cancel _ (by omega)]
  · by_cases hz : N ^ d % 2 ^ 64 = 0
    · unfold startOfDegree
      have : powW .release 64 N d = .ok 0 := by
        unfold powW fitW
        rw [if_neg hp, hz]
      rw [this, Res.bind_ok, show subW .release 64 0 1 = .ok (2 ^ 64 - 1) from rfl, Res.bind_ok, subW_ok (by omega), Res.bind_ok, divW_ok (by omega), hz,
        Nat.zero_add, Nat.mod_eq_of_lt (by decide)]
    · rw [startOfDegree_release_overflow N d h2 (by omega) hz]
      have hlt : N ^ d % 2 ^ 64 < 2 ^ 64 := Nat.mod_lt _ (by decide)
      have he : (N ^ d % 2 ^ 64 + (2 ^ 64 - 1)) % 2 ^ 64 = N ^ d % 2 ^ 64 - 1 := by
        generalize N ^ d % 2 ^ 64 = m at hz hlt
        omega
      rw [he]

example : startOfDegree .release 10 64 = .ok ((10 ^ 64 % 2 ^ 64 + (2 ^ 64 - 1)) % 2 ^ 64 / 9) := C12_start_of_degree_release 10 (by omega) 64

/-- C12.  The condition that the powers fit is needed: in release builds the index of a key can be given a wrong degree.  Over 31 letters the word of
twelve letters 8 gets degree 15. -/
theorem C12_release_wrong_degree :
    ∃ w k i, ValidWord 31 w ∧ w.length ≤ maxDepth 31 ∧ fromLetters .release 31 w = .ok k ∧ keyToIndex .release 31 k = .ok i ∧
      w.length = 12 ∧ indexToDegree .release 31 i = .ok 15 := by
  refine ⟨List.replicate 12 8, keyOf 31 (List.replicate 12 8), 210043409010279936, by decide, by decide +kernel, by decide +kernel,
    by decide +kernel, rfl, by decide +kernel⟩

theorem indexToDegreeImpl_diverge (N i : Nat) (h2 : 2 ≤ N)
    (h : ∀ d, d < 2 ^ 32 → ∀ s e, startOfDegree .release N d = .ok s → startOfDegree .release N ((d + 1) % 2 ^ 32) = .ok e → ¬ (s ≤ i ∧ i < e))
    (fuel d : Nat) (hd : d < 2 ^ 32) : indexToDegreeImpl .release N i fuel d = .diverge := by
  induction fuel generalizing d with
  | zero => rfl
  | succ fuel ih =>
    have ha : addW .release 32 d 1 = .ok ((d + 1) % 2 ^ 32) := by
      unfold addW fitW
      split_ifs with hc
      · rw [Nat.mod_eq_of_lt hc]
      · rfl
    have hs := C12_start_of_degree_release N h2 d
    have he := C12_start_of_degree_release N h2 ((d + 1) % 2 ^ 32)
    have hn := h d hd _ _ hs he
    unfold indexToDegreeImpl
    rw [hs, Res.bind_ok]
    split_ifs with hi
    · rw [ha, Res.bind_ok, he, Res.bind_ok, if_neg (fun hlt => hn ⟨hi, hlt⟩), Res.bind_ok]
      exact ih _ (Nat.mod_lt _ (by decide))
    · rw [ha, Res.bind_ok]
      exact ih _ (Nat.mod_lt _ (by decide))

/-- C12.  Or the search for the degree does not end: over 1000 letters, for the last word of length 6. -/
theorem C12_release_diverges :
    ∃ w k i, ValidWord 1000 w ∧ w.length ≤ maxDepth 1000 ∧ fromLetters .release 1000 w = .ok k ∧ keyToIndex .release 1000 k = .ok i ∧
      indexToDegree .release 1000 i = .diverge := by
  refine ⟨List.replicate 6 1000, keyOf 1000 (List.replicate 6 1000), 1001001001001001000, by decide +kernel, by decide +kernel, by decide +kernel,
    by decide +kernel, ?_⟩
  have hbig : ∀ d, 22 ≤ d → startOfDegree .release 1000 d = .ok ((2 ^ 64 - 1) / 999) := by
    intro d hd
    rw [C12_start_of_degree_release 1000 (by omega) d]
    have hz : 1000 ^ d % 2 ^ 64 = 0 := by
      apply Nat.mod_eq_zero_of_dvd
      exact Dvd.dvd.trans (by decide : 2 ^ 64 ∣ 1000 ^ 22) (Nat.pow_dvd_pow _ hd)
    rw [hz, Nat.zero_add, Nat.mod_eq_of_lt (by decide)]
  have himpl : ∀ fuel, indexToDegreeImpl .release 1000 1001001001001001000 fuel 3 = .diverge := by
    intro fuel
    refine indexToDegreeImpl_diverge 1000 _ (by omega) ?_ fuel 3 (by omega)
    intro d hd s e hs he ⟨h1, h2⟩
    by_cases hd22 : 22 ≤ d
    · rw [hbig d hd22] at hs
      have hs := Res.ok.inj hs
      by_cases hl : d + 1 < 2 ^ 32
      · rw [Nat.mod_eq_of_lt hl, hbig _ (by omega)] at he
        have he := Res.ok.inj he
        omega
      · rw [show d + 1 = 2 ^ 32 by omega] at he
        have : startOfDegree .release 1000 (2 ^ 32 % 2 ^ 32) = .ok 0 := by decide +kernel
        rw [this] at he
        have he := Res.ok.inj he
        omega
    · have : ∀ d : Fin 22, ∀ (s e : Nat), startOfDegree .release 1000 d.1 = .ok s → startOfDegree .release 1000 ((d.1 + 1) % 2 ^ 32) = .ok e →
          (decide (s ≤ 1001001001001001000) && decide (1001001001001001000 < e)) = false := by
        intro d s e hs he
        have key : ∀ d : Fin 22, (match startOfDegree .release 1000 d.1, startOfDegree .release 1000 ((d.1 + 1) % 2 ^ 32) with
            | .ok s, .ok e => decide (s ≤ 1001001001001001000) && decide (1001001001001001000 < e)
            | _, _ => false) = false := by decide +kernel
        have := key d
        rw [hs, he] at this
        exact this
      have := this ⟨d, by omega⟩ s e hs he
      simp only [Bool.and_eq_false_iff, decide_eq_false_iff_not] at this
      omega
  unfold indexToDegree
  rw [if_neg (by decide), if_neg (by decide), show startOfDegree .release 1000 2 = .ok 1001 by decide +kernel, Res.bind_ok,
    if_pos (by decide), show startOfDegree .release 1000 3 = .ok 1001001 by decide +kernel, Res.bind_ok, if_neg (by decide)]
  exact himpl _

end RA
