import Verif.Model.TensorBasis
import Verif.Proofs.TensorKey
import Mathlib.Tactic.Ring
import Mathlib.Tactic.Linarith

namespace RA
open Spec

/-! ## Bijective base-`N` numerals -/

theorem wordIndex_foldl (N : Nat) (w : List Nat) (a : Nat) :
    w.foldl (fun acc l => acc * N + l) a = a * N ^ w.length + wordIndex N w := by
  induction w generalizing a with
  | nil => simp [wordIndex]
  | cons l w ih =>
    simp only [wordIndex, List.foldl_cons, List.length_cons, Nat.zero_mul, Nat.zero_add]
    rw [ih, ih l]
    ring

@[simp] theorem wordIndex_nil (N : Nat) : wordIndex N [] = 0 := rfl

theorem wordIndex_cons (N l : Nat) (w : List Nat) :
    wordIndex N (l :: w) = l * N ^ w.length + wordIndex N w := by
  have := wordIndex_foldl N w l
  simpa [wordIndex] using this

theorem wordIndex_append (N : Nat) (u v : List Nat) :
    wordIndex N (u ++ v) = wordIndex N u * N ^ v.length + wordIndex N v := by
  have := wordIndex_foldl N v (wordIndex N u)
  simpa [wordIndex, List.foldl_append] using this

theorem wordIndex_snoc (N l : Nat) (w : List Nat) : wordIndex N (w ++ [l]) = wordIndex N w * N + l := by
  simp [wordIndex_append, wordIndex_cons]

theorem geomSum_pos {N d : Nat} (h : 1 ≤ d) : 1 ≤ geomSum N d := by
  cases d with
  | zero => omega
  | succ d =>
    induction d with
    | zero => simp [geomSum]
    | succ d ih => rw [geomSum]; have := ih (by omega); omega

theorem geomSum_mono {N a b : Nat} (h : a ≤ b) : geomSum N a ≤ geomSum N b := by
  induction h with
  | refl => exact Nat.le_refl _
  | step _ ih => rw [geomSum]; omega

theorem geomSum_strict {N a b : Nat} (hN : 1 ≤ N) (h : a < b) : geomSum N a < geomSum N b := by
  have h1 : geomSum N (a + 1) ≤ geomSum N b := geomSum_mono h
  have : 1 ≤ N ^ a := Nat.one_le_pow _ _ (by omega)
  rw [geomSum] at h1; omega

/-- Shifted geometric sum: `1 + N * (1 + ... + N^(d-1)) = 1 + ... + N^d`. -/
theorem geomSum_succ' (N d : Nat) : geomSum N (d + 1) = N * geomSum N d + 1 := by
  induction d with
  | zero => simp [geomSum]
  | succ d ih =>
    have e : geomSum N (d + 1) = geomSum N d + N ^ d := rfl
    have e' : geomSum N (d + 1 + 1) = geomSum N (d + 1) + N ^ (d + 1) := rfl
    rw [e', ih, Nat.pow_succ]
    have : N ^ d = N * geomSum N d + 1 - geomSum N d := by omega
    have h2 : geomSum N d + N ^ d = N * geomSum N d + 1 := by omega
    nlinarith

theorem geomSum_mul (N d : Nat) (hN : 1 ≤ N) : geomSum N d * (N - 1) + 1 = N ^ d := by
  induction d with
  | zero => simp [geomSum]
  | succ d ih =>
    obtain ⟨m, rfl⟩ : ∃ m, N = m + 1 := ⟨N - 1, by omega⟩
    rw [geomSum, Nat.pow_succ]
    simp only [Nat.add_sub_cancel] at *
    nlinarith

theorem wordIndex_bounds {N : Nat} {w : List Nat} (hw : ValidWord N w) :
    geomSum N w.length ≤ wordIndex N w ∧ wordIndex N w < geomSum N (w.length + 1) := by
  induction w with
  | nil => simp [geomSum]
  | cons l w ih =>
    rw [TensorKey.ValidWord.cons] at hw
    have ⟨h1, h2⟩ := ih hw.2
    rw [wordIndex_cons, List.length_cons]
    have e1 : geomSum N (w.length + 1) = geomSum N w.length + N ^ w.length := rfl
    have e2 : geomSum N (w.length + 1 + 1) = geomSum N (w.length + 1) + N ^ (w.length + 1) := rfl
    have e3 : 1 * N ^ w.length ≤ l * N ^ w.length := Nat.mul_le_mul_right _ hw.1.1
    have e4 : l * N ^ w.length ≤ N * N ^ w.length := Nat.mul_le_mul_right _ hw.1.2
    have e5 : N ^ (w.length + 1) = N * N ^ w.length := by ring
    constructor <;> omega

/-- The word with a given index. -/
def indexWord (N : Nat) (i : Nat) : List Nat :=
  match i with
  | 0 => []
  | i + 1 => indexWord N (i / N) ++ [i % N + 1]
termination_by i
decreasing_by exact Nat.lt_succ_of_le (Nat.div_le_self i N)

theorem indexWord_zero (N : Nat) : indexWord N 0 = [] := by rw [indexWord]
theorem indexWord_succ (N i : Nat) : indexWord N (i + 1) = indexWord N (i / N) ++ [i % N + 1] := by
  rw [indexWord]

theorem wordIndex_indexWord (N : Nat) (i : Nat) : wordIndex N (indexWord N i) = i := by
  induction i using Nat.strongRecOn with
  | ind i ih =>
    cases i with
    | zero => simp [indexWord_zero]
    | succ i =>
      rw [indexWord_succ, wordIndex_snoc, ih _ (Nat.lt_succ_of_le (Nat.div_le_self i N))]
      have := Nat.div_add_mod i N
      rw [Nat.mul_comm] at this
      omega

theorem validWord_indexWord {N : Nat} (hN : 1 ≤ N) (i : Nat) : ValidWord N (indexWord N i) := by
  induction i using Nat.strongRecOn with
  | ind i ih =>
    cases i with
    | zero => simp [indexWord_zero, ValidWord]
    | succ i =>
      rw [indexWord_succ, TensorKey.ValidWord.append]
      refine ⟨ih _ (Nat.lt_succ_of_le (Nat.div_le_self i N)), ?_⟩
      have := Nat.mod_lt i (show N > 0 by omega)
      intro l hl
      simp at hl
      omega

theorem wordIndex_length {N : Nat} {u v : List Nat} (hu : ValidWord N u)
    (h : wordIndex N u < geomSum N (v.length + 1)) : u.length ≤ v.length := by
  by_contra hc
  have h1 := (wordIndex_bounds hu).1
  have : geomSum N (v.length + 1) ≤ geomSum N u.length := geomSum_mono (by omega)
  omega

theorem wordIndex_lt_iff_cons {N l m : Nat} {u v : List Nat} (hu : ValidWord N u) (hv : ValidWord N v)
    (hlen : u.length = v.length) :
    wordIndex N (l :: u) < wordIndex N (m :: v) ↔ l < m ∨ (l = m ∧ wordIndex N u < wordIndex N v) := by
  have ⟨a1, a2⟩ := wordIndex_bounds hu
  have ⟨b1, b2⟩ := wordIndex_bounds hv
  have e1 : geomSum N (v.length + 1) = geomSum N v.length + N ^ v.length := rfl
  rw [wordIndex_cons, wordIndex_cons, hlen]
  rw [hlen] at a1 a2
  rcases Nat.lt_trichotomy l m with h | h | h
  · have : (l + 1) * N ^ v.length ≤ m * N ^ v.length := Nat.mul_le_mul_right _ h
    rw [Nat.add_mul] at this
    constructor
    · intro; exact .inl h
    · intro; omega
  · subst h; omega
  · have : (m + 1) * N ^ v.length ≤ l * N ^ v.length := Nat.mul_le_mul_right _ h
    rw [Nat.add_mul] at this
    omega

theorem wordIndex_lt_iff_lex {N : Nat} {u v : List Nat} (hu : ValidWord N u) (hv : ValidWord N v)
    (hlen : u.length = v.length) : wordIndex N u < wordIndex N v ↔ u < v := by
  induction u generalizing v with
  | nil =>
    cases v with
    | nil => simp
    | cons => simp at hlen
  | cons l u ih =>
    cases v with
    | nil => simp at hlen
    | cons m v =>
      rw [TensorKey.ValidWord.cons] at hu hv
      rw [wordIndex_lt_iff_cons hu.2 hv.2 (by simpa using hlen), ih hu.2 hv.2 (by simpa using hlen)]
      rw [List.cons_lt_cons_iff]

theorem wordIndex_lt_iff {N : Nat} {u v : List Nat} (hu : ValidWord N u) (hv : ValidWord N v) :
    wordIndex N u < wordIndex N v ↔ GradedLex u v := by
  have ⟨a1, a2⟩ := wordIndex_bounds hu
  have ⟨b1, b2⟩ := wordIndex_bounds hv
  unfold GradedLex
  rcases Nat.lt_trichotomy u.length v.length with h | h | h
  · have : geomSum N (u.length + 1) ≤ geomSum N v.length := geomSum_mono h
    constructor
    · intro; exact .inl h
    · intro; omega
  · rw [wordIndex_lt_iff_lex hu hv h]; simp [h]
  · have : geomSum N (v.length + 1) ≤ geomSum N u.length := geomSum_mono h
    constructor
    · intro; omega
    · rintro (h' | ⟨h', _⟩) <;> omega

theorem wordIndex_inj {N : Nat} {u v : List Nat} (hu : ValidWord N u) (hv : ValidWord N v)
    (h : wordIndex N u = wordIndex N v) : u = v := by
  have h1 : ¬ GradedLex u v := by rw [← wordIndex_lt_iff hu hv]; omega
  have h2 : ¬ GradedLex v u := by rw [← wordIndex_lt_iff hv hu]; omega
  unfold GradedLex at h1 h2
  have hl : u.length = v.length := by
    rcases Nat.lt_trichotomy u.length v.length with h | h | h
    · exact absurd (.inl h) h1
    · exact h
    · exact absurd (.inl h) h2
  have h3 : ¬ u < v := fun hc => h1 (.inr ⟨hl, hc⟩)
  have h4 : ¬ v < u := fun hc => h2 (.inr ⟨hl.symm, hc⟩)
  exact List.le_antisymm (List.not_lt.1 h4) (List.not_lt.1 h3)

theorem indexWord_wordIndex {N : Nat} (hN : 1 ≤ N) {w : List Nat} (hw : ValidWord N w) :
    indexWord N (wordIndex N w) = w :=
  wordIndex_inj (validWord_indexWord hN _) hw (wordIndex_indexWord N _)

theorem indexWord_length_le {N : Nat} (i d : Nat) (hN : 1 ≤ N) :
    (indexWord N i).length ≤ d ↔ i < geomSum N (d + 1) := by
  have ⟨a1, a2⟩ := wordIndex_bounds (validWord_indexWord hN i)
  rw [wordIndex_indexWord] at a1 a2
  constructor
  · intro h
    have : geomSum N ((indexWord N i).length + 1) ≤ geomSum N (d + 1) := geomSum_mono (by omega)
    omega
  · intro h
    by_contra hc
    have : geomSum N (d + 1) ≤ geomSum N (indexWord N i).length := geomSum_mono (by omega)
    omega

theorem wordIndex_succ_le {N : Nat} {w : List Nat} (hw : ValidWord N w) :
    wordIndex N w + 1 ≤ (N + 1) ^ w.length := by
  induction w with
  | nil => simp
  | cons l w ih =>
    rw [TensorKey.ValidWord.cons] at hw
    have h1 := ih hw.2
    rw [wordIndex_cons, List.length_cons, Nat.pow_succ]
    have e4 : l * N ^ w.length ≤ N * N ^ w.length := Nat.mul_le_mul_right _ hw.1.2
    have e5 : N ^ w.length ≤ (N + 1) ^ w.length := Nat.pow_le_pow_left (by omega) _
    have e6 : N * N ^ w.length ≤ N * (N + 1) ^ w.length := Nat.mul_le_mul_left _ e5
    nlinarith

namespace TensorBasis
open TensorKey

theorem wordIndex_lt64 {N : Nat} (h1 : 1 ≤ N) {w : List Nat} (hw : ValidWord N w)
    (hl : w.length ≤ maxDepth N) : wordIndex N w < 2 ^ 64 := by
  have h := wordIndex_succ_le hw
  have hb : N + 1 ≤ 2 ^ bitsPerLetter N := lt_two_pow_bpl N h1
  calc wordIndex N w < (N + 1) ^ w.length := h
    _ ≤ (2 ^ bitsPerLetter N) ^ w.length := Nat.pow_le_pow_left hb _
    _ = 2 ^ (w.length * bitsPerLetter N) := by rw [← Nat.pow_mul, Nat.mul_comm]
    _ ≤ 2 ^ 64 := Nat.pow_le_pow_right (by omega) (len_mul_le hl)

theorem keyToIndex_keyOf (p : Profile) (N : Nat) (h1 : 1 ≤ N) (hN : N < 2 ^ 32) (w : List Nat)
    (hw : ValidWord N w) (hl : w.length ≤ maxDepth N) :
    keyToIndex p N (keyOf N w) = .ok (wordIndex N w) := by
  have key : ∀ (u v : List Nat), u ++ v = w →
      (List.range v.length).reverse.foldlM (keyToIndexStep p N (keyOf N w)) (wordIndex N u)
        = .ok (wordIndex N w) := by
    intro u v
    induction v generalizing u with
    | nil => intro h; simp at h; subst h; simp
    | cons l v ih =>
      intro h
      have h' : (u ++ [l]) ++ v = w := by simpa using h
      have hvu : ValidWord N (u ++ [l]) := (ValidWord.append.1 (h' ▸ hw)).1
      have hul : (u ++ [l]).length ≤ maxDepth N := by
        have := congrArg List.length h'; simp at this ⊢; omega
      have hlt := wordIndex_lt64 h1 hvu hul
      rw [wordIndex_snoc] at hlt
      rw [List.length_cons, List.range_succ, List.reverse_append, List.reverse_singleton, List.singleton_append,
        List.foldlM_cons]
      have hvlen : v.length < w.length := by
        have := congrArg List.length h; simp at this; omega
      have hget : getLetter p N (keyOf N w) v.length = .ok l := by
        rw [getLetter_keyOf p N h1 hN w hw hl _ hvlen]
        congr 1
        subst h
        rw [List.getElem_reverse]
        simp
      have : keyToIndexStep p N (keyOf N w) (wordIndex N u) v.length = .ok (wordIndex N (u ++ [l])) := by
        unfold keyToIndexStep
        rw [mulW_ok (by omega), Res.bind_ok, hget, Res.bind_ok, addW_ok hlt, wordIndex_snoc]
      rw [this, Res.bind_ok, ih (u ++ [l]) h']
  have := key [] w rfl
  simpa [keyToIndex, keyOf] using this

theorem indexToKeyLoop_ok (p : Profile) (N : Nat) (h1 : 1 ≤ N) (hN : N < 2 ^ 32) (fuel pos : Nat) (v : List Nat)
    (hv : ValidWord N v) (hf : pos < fuel) (hl : (indexWord N pos ++ v).length ≤ maxDepth N) :
    indexToKeyLoop p N fuel pos (keyOf N v) = .ok (keyOf N (indexWord N pos ++ v)) := by
  induction fuel generalizing pos v with
  | zero => omega
  | succ fuel ih =>
    unfold indexToKeyLoop
    cases pos with
    | zero => simp [indexWord_zero]
    | succ pos =>
      have hmod := Nat.mod_lt pos (show N > 0 by omega)
      rw [indexWord_succ] at hl ⊢
      simp only [List.length_append, List.length_cons, List.length_nil] at hl
      rw [if_pos (by omega), subW_ok (by omega)]
      simp only [Res.bind_ok, Nat.add_sub_cancel]
      rw [remW_ok (by omega)]
      simp only [Res.bind_ok]
      rw [Nat.mod_eq_of_lt (b := 2 ^ 32) (by omega),
        pushFrontRaw_keyOf p N h1 hN v _ hv (by omega) hmod]
      simp only [Res.bind_ok]
      rw [divW_ok (by omega)]
      simp only [Res.bind_ok]
      rw [ih]
      · simp
      · exact ValidWord.cons.2 ⟨by omega, hv⟩
      · have := Nat.div_le_self pos N; omega
      · simp; omega

theorem indexToKey_ok (p : Profile) (N : Nat) (h1 : 1 ≤ N) (hN : N < 2 ^ 32) (i : Nat)
    (hi : i < geomSum N (maxDepth N + 1)) : indexToKey p N i = .ok (keyOf N (indexWord N i)) := by
  have hlen : (indexWord N i).length ≤ maxDepth N := (indexWord_length_le i _ h1).2 hi
  unfold indexToKey
  by_cases h0 : i = 0
  · subst h0; simp [indexWord_zero, keyOf_nil]
  rw [if_neg h0]
  by_cases hiN : i ≤ N
  · rw [if_pos hiN, Nat.mod_eq_of_lt (by omega), fromLetter_keyOf p N i (by omega)]
    have : indexWord N i = [i] := by
      apply wordIndex_inj (N := N) (validWord_indexWord h1 i)
      · intro l hl; simp at hl; omega
      · rw [wordIndex_indexWord]; simp [wordIndex_cons]
    rw [this]
  · rw [if_neg hiN]
    have := indexToKeyLoop_ok p N h1 hN (i + 1) i [] (by simp [ValidWord]) (by omega) (by simpa using hlen)
    simpa [keyOf_nil] using this

/-! ## Degrees -/

theorem startOfDegree_ok (p : Profile) (N : Nat) (h2 : 2 ≤ N) (d : Nat) (hp : N ^ d < 2 ^ 64) :
    startOfDegree p N d = .ok (geomSum N d) := by
  unfold startOfDegree
  have hpos : 1 ≤ N ^ d := Nat.one_le_pow _ _ (by omega)
  rw [powW_ok hp]
  simp only [Res.bind_ok]
  rw [subW_ok hpos]
  simp only [Res.bind_ok]
  rw [subW_ok (by omega)]
  simp only [Res.bind_ok]
  rw [divW_ok (by omega)]
  have := geomSum_mul N d (by omega)
  congr 1
  have e : N ^ d - 1 = geomSum N d * (N - 1) := by omega
  rw [e, Nat.mul_div_cancel _ (by omega)]

theorem pow_lt64_mono {N a b : Nat} (h2 : 2 ≤ N) (hab : a ≤ b) (h : N ^ b < 2 ^ 64) : N ^ a < 2 ^ 64 :=
  Nat.lt_of_le_of_lt (Nat.pow_le_pow_right (by omega) hab) h

theorem deg_lt64 {N d : Nat} (h2 : 2 ≤ N) (h : N ^ d < 2 ^ 64) : d < 64 := by
  by_contra hc
  have : 2 ^ 64 ≤ 2 ^ d := Nat.pow_le_pow_right (by omega) (by omega)
  have : 2 ^ d ≤ N ^ d := Nat.pow_le_pow_left h2 _
  omega

theorem indexToDegreeImpl_ok (p : Profile) (N : Nat) (h2 : 2 ≤ N) (i d : Nat) (hp : N ^ (d + 1) < 2 ^ 64)
    (hlo : geomSum N d ≤ i) (hhi : i < geomSum N (d + 1)) (fuel deg : Nat) (hdeg : deg ≤ d)
    (hf : d - deg < fuel) : indexToDegreeImpl p N i fuel deg = .ok d := by
  have hd := deg_lt64 h2 hp
  induction fuel generalizing deg with
  | zero => omega
  | succ fuel ih =>
    unfold indexToDegreeImpl
    rw [startOfDegree_ok p N h2 deg (pow_lt64_mono h2 (by omega) hp)]
    simp only [Res.bind_ok]
    have : geomSum N deg ≤ geomSum N d := geomSum_mono hdeg
    rw [if_pos (by omega), addW_ok (by omega)]
    simp only [Res.bind_ok]
    rw [startOfDegree_ok p N h2 (deg + 1) (pow_lt64_mono h2 (by omega) hp)]
    simp only [Res.bind_ok]
    by_cases hc : deg = d
    · subst hc; rw [if_pos hhi]; rfl
    · have h3 : geomSum N (deg + 1) ≤ geomSum N d := geomSum_mono (by omega)
      rw [if_neg (by omega), ih (deg + 1) (by omega) (by omega)]

theorem indexToDegree_ok (p : Profile) (N : Nat) (h2 : 2 ≤ N) (i d : Nat) (hp : N ^ (d + 1) < 2 ^ 64)
    (hlo : geomSum N d ≤ i) (hhi : i < geomSum N (d + 1)) : indexToDegree p N i = .ok d := by
  have g0 : geomSum N 0 = 0 := rfl
  have g1 : geomSum N 1 = 1 := by simp [geomSum]
  have g2 : geomSum N 2 = 1 + N := by simp [geomSum]
  have hd := deg_lt64 h2 hp
  unfold indexToDegree
  by_cases hi0 : i = 0
  · rw [if_pos hi0]
    have : d = 0 := by
      by_contra hc
      have : 1 ≤ geomSum N d := geomSum_pos (by omega)
      omega
    rw [this]
  rw [if_neg hi0]
  have hd0 : d ≠ 0 := by rintro rfl; rw [g1] at hhi; omega
  by_cases hiN : 1 ≤ i ∧ i ≤ N
  · rw [if_pos hiN]
    have : ¬ 2 ≤ d := by
      intro hc
      have : geomSum N 2 ≤ geomSum N d := geomSum_mono hc
      omega
    have : d = 1 := by omega
    rw [this]
  · rw [if_neg hiN]
    have hd1 : d ≠ 1 := by rintro rfl; rw [g2] at hhi; omega
    have h2d : geomSum N 2 ≤ geomSum N d := geomSum_mono (by omega)
    rw [startOfDegree_ok p N h2 2 (pow_lt64_mono h2 (by omega) hp)]
    simp only [Res.bind_ok]
    rw [if_pos (by omega), startOfDegree_ok p N h2 3 (pow_lt64_mono h2 (by omega) hp)]
    simp only [Res.bind_ok]
    by_cases hd2 : d = 2
    · subst hd2; rw [if_pos hhi]; rfl
    · have h3d : geomSum N 3 ≤ geomSum N d := geomSum_mono (by omega)
      rw [if_neg (by omega)]
      exact indexToDegreeImpl_ok p N h2 i d hp hlo hhi _ _ (by omega) (by omega)

/-- Whatever degree the search returns, the index lies in its (possibly wrapped) range. -/
theorem indexToDegreeImpl_sound (p : Profile) (N i fuel deg d : Nat) (h : indexToDegreeImpl p N i fuel deg = .ok d) :
    ∃ s d1 e, startOfDegree p N d = .ok s ∧ addW p 32 d 1 = .ok d1 ∧ startOfDegree p N d1 = .ok e ∧ s ≤ i ∧ i < e := by
  induction fuel generalizing deg with
  | zero => simp [indexToDegreeImpl] at h
  | succ fuel ih =>
    unfold indexToDegreeImpl at h
    cases hs : startOfDegree p N deg with
    | ok s =>
      rw [hs] at h
      simp only [Res.bind_ok] at h
      cases ha : addW p 32 deg 1 with
      | ok d1 =>
        rw [ha] at h
        simp only [Res.bind_ok] at h
        by_cases hi : i ≥ s
        · rw [if_pos hi] at h
          cases he : startOfDegree p N d1 with
          | ok e =>
            rw [he] at h
            simp only [Res.bind_ok] at h
            by_cases hie : i < e
            · rw [if_pos hie] at h
              cases h
              exact ⟨s, d1, e, hs, ha, he, hi, hie⟩
            · rw [if_neg hie] at h
              exact ih _ h
          | panic => rw [he] at h; cases h
          | ub => rw [he] at h; cases h
          | diverge => rw [he] at h; cases h
        · rw [if_neg hi] at h
          exact ih _ h
      | panic => rw [ha] at h; simp at h; 
      | ub => rw [ha] at h; simp at h
      | diverge => rw [ha] at h; simp at h
    | panic => rw [hs] at h; cases h
    | ub => rw [hs] at h; cases h
    | diverge => rw [hs] at h; cases h

theorem startOfDegree_debug_overflow (N d : Nat) (hp : 2 ^ 64 ≤ N ^ d) : startOfDegree .debug N d = .panic := by
  unfold startOfDegree
  have : powW .debug 64 N d = .panic := by
    unfold powW fitW
    rw [if_neg (by omega)]
  rw [this]; rfl

theorem startOfDegree_release_overflow (N d : Nat) (h2 : 2 ≤ N) (hp : 2 ^ 64 ≤ N ^ d) (hnz : N ^ d % 2 ^ 64 ≠ 0) :
    startOfDegree .release N d = .ok ((N ^ d % 2 ^ 64 - 1) / (N - 1)) := by
  unfold startOfDegree
  have : powW .release 64 N d = .ok (N ^ d % 2 ^ 64) := by
    unfold powW fitW
    rw [if_neg (by omega)]
  rw [this, Res.bind_ok, subW_ok (by omega), Res.bind_ok, subW_ok (by omega), Res.bind_ok, divW_ok (by omega)]

theorem pow_le_geomSum {N d : Nat} : N ^ d ≤ geomSum N (d + 1) := by rw [geomSum]; omega

theorem geomSum_lt64_deg {N d i : Nat} (h2 : 2 ≤ N) (hi : i < 2 ^ 64) (h : geomSum N d ≤ i) : d ≤ 64 := by
  by_contra hc
  have h1 : geomSum N (64 + 1) ≤ geomSum N d := geomSum_mono (by omega)
  have h3 : N ^ 64 ≤ geomSum N (64 + 1) := pow_le_geomSum
  have : 2 ^ 64 ≤ N ^ 64 := Nat.pow_le_pow_left h2 _
  omega

theorem indexToDegreeImpl_overflow (N : Nat) (h2 : 2 ≤ N) (i d : Nat) (hi : i < 2 ^ 64) (hp : 2 ^ 64 ≤ N ^ (d + 1))
    (hlo : geomSum N d ≤ i) (fuel deg : Nat) (hdeg : deg ≤ d)
    (hf : d - deg < fuel) : indexToDegreeImpl .debug N i fuel deg = .panic := by
  have hd := geomSum_lt64_deg h2 hi hlo
  induction fuel generalizing deg with
  | zero => omega
  | succ fuel ih =>
    unfold indexToDegreeImpl
    by_cases ho : N ^ deg < 2 ^ 64
    · rw [startOfDegree_ok _ N h2 deg ho]
      simp only [Res.bind_ok]
      have : geomSum N deg ≤ geomSum N d := geomSum_mono hdeg
      rw [if_pos (by omega), addW_ok (by omega)]
      simp only [Res.bind_ok]
      by_cases ho' : N ^ (deg + 1) < 2 ^ 64
      · rw [startOfDegree_ok _ N h2 (deg + 1) ho']
        simp only [Res.bind_ok]
        have hne : deg ≠ d := by rintro rfl; omega
        have h3 : geomSum N (deg + 1) ≤ geomSum N d := geomSum_mono (by omega)
        rw [if_neg (by omega)]
        exact ih (deg + 1) (by omega) (by omega)
      · rw [startOfDegree_debug_overflow N _ (by omega)]; rfl
    · rw [startOfDegree_debug_overflow N _ (by omega)]; rfl

end TensorBasis
end RA
