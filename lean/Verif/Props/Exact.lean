import Verif.Props.Basis
import Verif.Props.KeysMore
import Verif.Props.Inplace
import Verif.Props.Program

/-!
# Exactly when the incorrect functions are right (C11, C37, C52)

The functions refuted in C11 and C52 are described completely here: for every input, what they answer and when that is the right answer.
For C37, which inputs can give a right product at all, and exactly which scalar factors do.
-/

namespace RA
open Spec TensorKey TensorBasis DenseAlg

/-! ## C11: `compare` -/

theorem wordData_pad (b n : Nat) (w : List Nat) : wordData b (List.replicate n 1 ++ w) = wordData b w := by
  rw [wordData_append]
  have : wordData b (List.replicate n 1) = 0 := by
    induction n with
    | zero => rfl
    | succ n ih => rw [List.replicate_succ, wordData_cons, ih]; simp
  rw [this, Nat.zero_mul, Nat.zero_add]

theorem validWord_pad {N n : Nat} (h1 : 1 ≤ N) {w : List Nat} (hw : ValidWord N w) : ValidWord N (List.replicate n 1 ++ w) := by
  refine ValidWord.append.2 ⟨fun x hx => ?_, hw⟩
  have := List.eq_of_mem_replicate hx
  omega

/-- C11, what `compare` does on any two keys: it compares the words lexicographically after writing the letter `1` in front of the shorter one
until both have the same length. -/
theorem C11_compare_exact (p : Profile) (N : Nat) (h1 : 1 ≤ N) (hN : N < 2 ^ 32) (u v : List Nat) (hu : ValidWord N u) (hv : ValidWord N v)
    (ku kv : TensorKey) (hku : fromLetters p N u = .ok ku) (hkv : fromLetters p N v = .ok kv) (hlu : u.length ≤ maxDepth N)
    (hlv : v.length ≤ maxDepth N) :
    (TensorBasis.compare ku kv = .lt ↔
      List.replicate (v.length - u.length) 1 ++ u < List.replicate (u.length - v.length) 1 ++ v) ∧
    (TensorBasis.compare ku kv = .eq ↔
      List.replicate (v.length - u.length) 1 ++ u = List.replicate (u.length - v.length) 1 ++ v) ∧
    (TensorBasis.compare ku kv = .gt ↔
      List.replicate (u.length - v.length) 1 ++ v < List.replicate (v.length - u.length) 1 ++ u) := by
  rw [fromLetters_ok p N h1 hN u hu hlu] at hku
  rw [fromLetters_ok p N h1 hN v hv hlv] at hkv
  cases hku; cases hkv
  have hb := Nat.le_of_lt (lt_two_pow_bpl N h1)
  have hu' := validWord_pad (n := v.length - u.length) h1 hu
  have hv' := validWord_pad (n := u.length - v.length) h1 hv
  have hlen : (List.replicate (v.length - u.length) 1 ++ u).length = (List.replicate (u.length - v.length) 1 ++ v).length := by
    simp only [List.length_append, List.length_replicate]; omega
  have a := wordData_lt_iff_lex hb hu' hv' hlen
  have c := wordData_lt_iff_lex hb hv' hu' hlen.symm
  have e : wordData (bitsPerLetter N) u = wordData (bitsPerLetter N) v ↔
      List.replicate (v.length - u.length) 1 ++ u = List.replicate (u.length - v.length) 1 ++ v := by
    constructor
    · intro h
      exact wordData_inj hb hu' hv' hlen (by rw [wordData_pad, wordData_pad, h])
    · intro h
      have := congrArg (wordData (bitsPerLetter N)) h
      rwa [wordData_pad, wordData_pad] at this
  rw [wordData_pad, wordData_pad] at a c
  unfold TensorBasis.compare
  simp only [keyOf]
  exact ⟨by rw [Nat.compare_eq_lt, a], by rw [Nat.compare_eq_eq, e], by rw [Nat.compare_eq_gt, c]⟩

example := C11_compare_exact .debug 3 (by omega) (by omega) [2] [1, 3] (by decide) (by decide) ⟨1, 1⟩ ⟨2, 2⟩ (by decide +kernel) (by decide +kernel)
  (by decide +kernel) (by decide +kernel)

/-- C11, exactly when the answer is right: for words of different lengths `compare` agrees with the index order if and only if the longer
word is lexicographically above the shorter one padded with the letter `1`. -/
theorem C11_compare_right_iff (p : Profile) (N : Nat) (h1 : 1 ≤ N) (hN : N < 2 ^ 32) (u v : List Nat) (hu : ValidWord N u) (hv : ValidWord N v)
    (ku kv : TensorKey) (hku : fromLetters p N u = .ok ku) (hkv : fromLetters p N v = .ok kv) (hlv : v.length ≤ maxDepth N)
    (hlt : u.length < v.length) :
    ∃ i j, keyToIndex p N ku = .ok i ∧ keyToIndex p N kv = .ok j ∧
      (TensorBasis.compare ku kv = Ord.compare i j ↔ List.replicate (v.length - u.length) 1 ++ u < v) ∧
      (TensorBasis.compare kv ku = Ord.compare j i ↔ List.replicate (v.length - u.length) 1 ++ u < v) := by
  have x := C11_compare_exact p N h1 hN u v hu hv ku kv hku hkv (by omega) hlv
  have y := C11_compare_exact p N h1 hN v u hv hu kv ku hkv hku hlv (by omega)
  rw [show u.length - v.length = 0 by omega, List.replicate_zero, List.nil_append] at x y
  rw [fromLetters_ok p N h1 hN u hu (by omega)] at hku
  rw [fromLetters_ok p N h1 hN v hv hlv] at hkv
  cases hku; cases hkv
  have hij : wordIndex N u < wordIndex N v := (wordIndex_lt_iff hu hv).2 (by unfold GradedLex; exact .inl hlt)
  refine ⟨_, _, keyToIndex_keyOf p N h1 hN u hu (by omega), keyToIndex_keyOf p N h1 hN v hv hlv, ?_, ?_⟩
  · rw [Nat.compare_eq_lt.2 hij, x.1]
  · rw [Nat.compare_eq_gt.2 hij, y.2.2]

example := C11_compare_right_iff .debug 3 (by omega) (by omega) [2] [1, 3] (by decide) (by decide) ⟨1, 1⟩ ⟨2, 2⟩ (by decide +kernel)
  (by decide +kernel) (by decide +kernel) (by decide)

/-- C11, on words that do not begin with the letter `1` (and the empty word) `compare` orders like the indices, whatever the lengths. -/
theorem C11_compare_no_leading_one_partial (p : Profile) (N : Nat) (h1 : 1 ≤ N) (hN : N < 2 ^ 32) (u v : List Nat) (hu : ValidWord N u)
    (hv : ValidWord N v) (ku kv : TensorKey) (hku : fromLetters p N u = .ok ku) (hkv : fromLetters p N v = .ok kv)
    (hlu : u.length ≤ maxDepth N) (hlv : v.length ≤ maxDepth N) (hu1 : u.head? ≠ some 1) (hv1 : v.head? ≠ some 1) :
    ∃ i j, keyToIndex p N ku = .ok i ∧ keyToIndex p N kv = .ok j ∧ TensorBasis.compare ku kv = Ord.compare i j := by
  have aux : ∀ a b : List Nat, ValidWord N b → b.head? ≠ some 1 → a.length < b.length → List.replicate (b.length - a.length) 1 ++ a < b := by
    intro a b hb hb1 hlt
    cases b with
    | nil => simp at hlt
    | cons l b =>
      have hl := hb l (by simp)
      have : l ≠ 1 := fun h => hb1 (by simp [h])
      rw [show (l :: b).length - a.length = (b.length - a.length) + 1 by simp at hlt ⊢; omega, List.replicate_succ, List.cons_append,
        List.cons_lt_cons_iff]
      exact .inl (by omega)
  rcases Nat.lt_trichotomy u.length v.length with h | h | h
  · obtain ⟨i, j, hi, hj, hij, _⟩ := C11_compare_right_iff p N h1 hN u v hu hv ku kv hku hkv hlv h
    exact ⟨i, j, hi, hj, hij.2 (aux u v hv hv1 h)⟩
  · refine C11_compare_same_degree_partial p N h1 hN u v hu hv hlu hlv ku kv hku hkv ?_
    rw [fromLetters_ok p N h1 hN u hu hlu] at hku
    rw [fromLetters_ok p N h1 hN v hv hlv] at hkv
    cases hku; cases hkv
    exact h
  · obtain ⟨j, i, hj, hi, _, hij⟩ := C11_compare_right_iff p N h1 hN v u hv hu kv ku hkv hku hlu h
    exact ⟨i, j, hi, hj, hij.2 (aux v u hu hu1 h)⟩

example := C11_compare_no_leading_one_partial .debug 3 (by omega) (by omega) [3, 1] [2, 1, 3] (by decide) (by decide) ⟨2, 8⟩ ⟨3, 18⟩
  (by decide +kernel) (by decide +kernel) (by decide +kernel) (by decide +kernel) (by decide) (by decide)

/-! ## C52: `set_letter` -/

theorem split_bits (d s b : Nat) : d = 2 ^ (s + b) * (d / 2 ^ (s + b)) + ((d / 2 ^ s % 2 ^ b) * 2 ^ s + d % 2 ^ s) := by
  have e1 := Nat.div_add_mod d (2 ^ s)
  have e2 := Nat.div_add_mod (d / 2 ^ s) (2 ^ b)
  rw [Nat.div_div_eq_div_mul, ← Nat.pow_add] at e2
  conv_lhs => rw [← e1, ← e2]
  rw [Nat.mul_add, ← Nat.mul_assoc, ← Nat.pow_add, Nat.mul_comm (2 ^ s) (d / 2 ^ s % 2 ^ b), Nat.add_assoc]

/-- Clearing `b` bits from position `s`. -/
theorem clear_bits {d s b : Nat} (hd : d < 2 ^ 64) (h : b + s ≤ 64) :
    (d &&& notW 64 ((2 ^ b - 1) <<< s)) + (d / 2 ^ s % 2 ^ b) * 2 ^ s = d := by
  have hlow : d % 2 ^ s < 2 ^ (s + b) :=
    Nat.lt_of_lt_of_le (Nat.mod_lt _ (Nat.two_pow_pos s)) (Nat.pow_le_pow_right (by omega) (by omega))
  have key : d &&& notW 64 ((2 ^ b - 1) <<< s) = 2 ^ (s + b) * (d / 2 ^ (s + b)) + d % 2 ^ s := by
    apply Nat.eq_of_testBit_eq
    intro i
    rw [Nat.testBit_and, testBit_notW (mask_lt h), testBit_mask, Nat.testBit_two_pow_mul_add _ hlow]
    by_cases h1 : i < s
    · rw [if_pos (by omega), Nat.testBit_mod_two_pow]
      have : i < 64 := by omega
      have h2 : ¬ s ≤ i := by omega
      simp [h1, this, h2]
    · by_cases h2 : i < s + b
      · rw [if_pos h2, Nat.testBit_mod_two_pow]
        have : s ≤ i := by omega
        simp [h1, h2, this]
      · rw [if_neg h2, Nat.testBit_div_two_pow, show i - (s + b) + (s + b) = i by omega]
        by_cases h3 : i < 64
        · simp [h2, h3]
        · rw [Nat.testBit_lt_two_pow (Nat.lt_of_lt_of_le hd (Nat.pow_le_pow_right (by omega) (by omega)))]
          simp
  rw [key]
  have := split_bits d s b
  omega

/-- `set_letter` at a position inside the word, up to the final addition. -/
theorem setLetter_keyOf (p : Profile) (N : Nat) (h1 : 1 ≤ N) (hN : N < 2 ^ 32) (u v : List Nat) (x l : Nat)
    (hl : (u ++ x :: v).length ≤ maxDepth N) (hl1 : 1 ≤ l) (hlN : l ≤ N) :
    setLetter p N (keyOf N (u ++ x :: v)) v.length l =
      (addW p 64 (wordData (bitsPerLetter N) (u ++ x :: v) &&& notW 64 ((2 ^ bitsPerLetter N - 1) <<< v.length))
        ((l - 1) * 2 ^ (bitsPerLetter N * v.length))).bind fun d => .ok ⟨(u ++ x :: v).length, d⟩ := by
  have hb := bpl_le N h1 hN
  have hbp := bpl_pos N
  have hpow := lt_two_pow_bpl N h1
  have hm := maxDepth_le N
  have hlen := len_mul_le hl
  simp only [List.length_append, List.length_cons] at hlen hl
  have h3 : (v.length + 1) * bitsPerLetter N ≤ 64 := Nat.le_trans (Nat.mul_le_mul_right _ (by omega)) hlen
  rw [Nat.add_mul, Nat.one_mul] at h3
  have h4 : v.length ≤ v.length * bitsPerLetter N := Nat.le_mul_of_pos_right _ (by omega)
  have h5 : bitsPerLetter N * v.length = v.length * bitsPerLetter N := Nat.mul_comm _ _
  have h6 : (l - 1) * 2 ^ (bitsPerLetter N * v.length) < 2 ^ 64 := by
    calc (l - 1) * 2 ^ (bitsPerLetter N * v.length) < 2 ^ bitsPerLetter N * 2 ^ (bitsPerLetter N * v.length) :=
          Nat.mul_lt_mul_of_pos_right (by omega) (Nat.two_pow_pos _)
      _ = 2 ^ (bitsPerLetter N + bitsPerLetter N * v.length) := by rw [Nat.pow_add]
      _ ≤ 2 ^ 64 := Nat.pow_le_pow_right (by omega) (by omega)
  unfold setLetter
  rw [if_neg (by simp [keyOf]; omega)]
  simp only [keyOf]
  rw [makeMask_ok p _ _ (by omega) (by omega) (by omega), Res.bind_ok, subW_ok hl1, Res.bind_ok,
    mulW_ok (by omega), Res.bind_ok, shlW_ok' (by omega) h6, Res.bind_ok]
  rfl

/-- C52, exactly when `set_letter` is right.  The word is `u ++ x :: v` and `x`, `i = v.length` letters from the right, is to become `l`.  The
result is the key of `u ++ l :: v` if and only if the `b` bits the code clears, those from bit `i` on, hold the value of the old letter at
the place `b * i` where it is stored.  The new letter does not matter. -/
theorem C52_set_letter_exact (p : Profile) (N : Nat) (h1 : 1 ≤ N) (hN : N < 2 ^ 32) (u v : List Nat) (x l b : Nat) (k : TensorKey)
    (hw : ValidWord N (u ++ x :: v)) (hl : (u ++ x :: v).length ≤ maxDepth N) (hk : fromLetters p N (u ++ x :: v) = .ok k)
    (hl1 : 1 ≤ l) (hlN : l ≤ N) (hb1 : 2 ^ (b - 1) ≤ N) (hb2 : N < 2 ^ b) :
    (∃ k', setLetter p N k v.length l = .ok k' ∧ fromLetters p N (u ++ l :: v) = .ok k') ↔
      k.data / 2 ^ v.length % 2 ^ b * 2 ^ v.length = (x - 1) * 2 ^ (b * v.length) := by
  have eb : b = bitsPerLetter N := by
    have h := lt_two_pow_bpl N h1
    have h' := two_pow_bpl_le N h1
    have hbp := bpl_pos N
    apply Nat.le_antisymm
    · by_contra hc
      have := Nat.pow_le_pow_right (n := 2) (by omega) (show bitsPerLetter N ≤ b - 1 by omega)
      omega
    · by_contra hc
      have := Nat.pow_le_pow_right (n := 2) (by omega) (show b + 1 ≤ bitsPerLetter N by omega)
      rw [Nat.pow_succ] at this
      omega
  subst eb
  have hw' : ValidWord N (u ++ l :: v) := by
    rw [ValidWord.append, ValidWord.cons] at hw ⊢
    exact ⟨hw.1, ⟨hl1, hlN⟩, hw.2.2⟩
  have hlt := wordData_lt64 h1 hw hl
  have hl' : (u ++ l :: v).length ≤ maxDepth N := by simpa using hl
  have hlt' := wordData_lt64 h1 hw' hl'
  rw [fromLetters_ok p N h1 hN _ hw hl] at hk
  cases hk
  have hlen := len_mul_le hl
  simp only [List.length_append, List.length_cons] at hlen
  have h3 : (v.length + 1) * bitsPerLetter N ≤ 64 := Nat.le_trans (Nat.mul_le_mul_right _ (by omega)) hlen
  rw [Nat.add_mul, Nat.one_mul] at h3
  have hbp := bpl_pos N
  have h4 : v.length ≤ v.length * bitsPerLetter N := Nat.le_mul_of_pos_right _ (by omega)
  have hc := clear_bits hlt (show bitsPerLetter N + v.length ≤ 64 by omega)
  rw [setLetter_keyOf p N h1 hN u v x l hl hl1 hlN, fromLetters_ok p N h1 hN _ hw' hl']
  simp only [keyOf]
  rw [Nat.mul_comm (bitsPerLetter N) v.length]
  have ex : wordData (bitsPerLetter N) (u ++ x :: v) = wordData (bitsPerLetter N) u * 2 ^ ((v.length + 1) * bitsPerLetter N) +
      ((x - 1) * 2 ^ (v.length * bitsPerLetter N) + wordData (bitsPerLetter N) v) := by
    rw [wordData_append, wordData_cons]; rfl
  have el : wordData (bitsPerLetter N) (u ++ l :: v) = wordData (bitsPerLetter N) u * 2 ^ ((v.length + 1) * bitsPerLetter N) +
      ((l - 1) * 2 ^ (v.length * bitsPerLetter N) + wordData (bitsPerLetter N) v) := by
    rw [wordData_append, wordData_cons]; rfl
  generalize wordData (bitsPerLetter N) (u ++ x :: v) = d at *
  generalize wordData (bitsPerLetter N) (u ++ l :: v) = d' at *
  generalize d &&& notW 64 ((2 ^ bitsPerLetter N - 1) <<< v.length) = c at *
  generalize d / 2 ^ v.length % 2 ^ bitsPerLetter N * 2 ^ v.length = m at *
  generalize (x - 1) * 2 ^ (v.length * bitsPerLetter N) = ox at *
  generalize (l - 1) * 2 ^ (v.length * bitsPerLetter N) = ol at *
  generalize wordData (bitsPerLetter N) u * 2 ^ ((v.length + 1) * bitsPerLetter N) = hu at *
  generalize wordData (bitsPerLetter N) v = hv at *
  constructor
  · rintro ⟨k', hs, hk'⟩
    have e := Res.ok.inj hk'
    subst e
    unfold addW fitW at hs
    split at hs
    · have := congrArg TensorKey.data (Res.ok.inj hs)
      simp only at this
      omega
    · cases p
      · cases hs
      · have := congrArg TensorKey.data (Res.ok.inj hs)
        simp only at this
        omega
  · intro hm
    refine ⟨_, ?_, rfl⟩
    rw [addW_ok (by omega)]
    show Res.ok _ = Res.ok _
    congr 1
    congr 1
    · simp
    · omega

example : (∃ k', setLetter .debug 2 ⟨3, 21⟩ 2 1 = .ok k' ∧ fromLetters .debug 2 ([] ++ 1 :: [2, 2]) = .ok k') ↔
    21 / 2 ^ 2 % 2 ^ 2 * 2 ^ 2 = (2 - 1) * 2 ^ (2 * 2) :=
  C52_set_letter_exact .debug 2 (by omega) (by omega) [] [2, 2] 2 1 2 ⟨3, 21⟩ (by decide) (by decide +kernel) (by decide +kernel) (by omega)
    (by omega) (by omega) (by omega)

/-- C52, the second letter from the right is replaced correctly if and only if the last two letters are both at most 2. -/
theorem C52_second_letter_iff_partial (p : Profile) (N : Nat) (h2 : 2 ≤ N) (hN : N < 2 ^ 32) (u : List Nat) (x y l : Nat) (k : TensorKey)
    (hw : ValidWord N (u ++ [x, y])) (hl : (u ++ [x, y]).length ≤ maxDepth N) (hk : fromLetters p N (u ++ [x, y]) = .ok k)
    (hl1 : 1 ≤ l) (hlN : l ≤ N) :
    (∃ k', setLetter p N k 1 l = .ok k' ∧ fromLetters p N (u ++ [l, y]) = .ok k') ↔ x ≤ 2 ∧ y ≤ 2 := by
  have hpow := lt_two_pow_bpl N (by omega)
  have hpow' := two_pow_bpl_le N (by omega)
  have hbp := bpl_pos N
  obtain ⟨b, hb⟩ : ∃ b, bitsPerLetter N = b + 2 := ⟨bitsPerLetter N - 2, by
    by_contra hc
    have : bitsPerLetter N = 1 := by omega
    rw [this] at hpow
    omega⟩
  have hex := C52_set_letter_exact p N (by omega) hN u [y] x l (bitsPerLetter N) k hw hl hk hl1 hlN
    (by rw [hb] at hpow' ⊢; rw [Nat.pow_succ] at hpow'; rw [show b + 2 - 1 = b + 1 by omega]; omega) hpow
  rw [List.length_singleton] at hex
  rw [hex]
  rw [fromLetters_ok p N (by omega) hN _ hw hl] at hk
  cases hk
  have hx := hw x (by simp)
  have hy := hw y (by simp)
  have ed : (keyOf N (u ++ [x, y])).data =
      (wordData (bitsPerLetter N) u * 2 ^ bitsPerLetter N + (x - 1)) * 2 ^ bitsPerLetter N + (y - 1) := by
    have : u ++ [x, y] = (u ++ [x]) ++ [y] := by simp
    simp only [keyOf]
    rw [this, wordData_snoc, wordData_snoc]
  rw [ed]
  rw [hb] at hpow ⊢
  have e : 2 ^ (b + 2) = 4 * 2 ^ b := by rw [Nat.pow_add]; omega
  rw [e] at hpow
  simp only [Nat.mul_one, Nat.pow_one, e]
  generalize wordData (b + 2) u = W at *
  generalize hQ : 2 ^ b = Q at *
  have hQ0 : 0 < Q := by rw [← hQ]; exact Nat.two_pow_pos b
  have e2 : ((W * (4 * Q) + (x - 1)) * (4 * Q) + (y - 1)) / 2 = (y - 1) / 2 + (W * (4 * Q) + (x - 1)) * (2 * Q) := by
    rw [show (W * (4 * Q) + (x - 1)) * (4 * Q) = (W * (4 * Q) + (x - 1)) * (2 * Q) * 2 by ring, Nat.add_comm,
      Nat.add_mul_div_right _ _ (by omega)]
  have e3 : ((y - 1) / 2 + (W * (4 * Q) + (x - 1)) * (2 * Q)) % (4 * Q) = (y - 1) / 2 + ((x - 1) % 2) * (2 * Q) := by
    have h : (W * (4 * Q) + (x - 1)) * (2 * Q) = ((x - 1) % 2) * (2 * Q) + (W * (2 * Q) + (x - 1) / 2) * (4 * Q) := by
      have := Nat.div_add_mod (x - 1) 2
      calc (W * (4 * Q) + (x - 1)) * (2 * Q) = (W * (4 * Q) + (2 * ((x - 1) / 2) + (x - 1) % 2)) * (2 * Q) := by rw [this]
        _ = _ := by ring
    rw [h, ← Nat.add_assoc, Nat.add_mul_mod_self_right, Nat.mod_eq_of_lt]
    have h1 : (x - 1) % 2 < 2 := Nat.mod_lt _ (by omega)
    have h3 : ((x - 1) % 2) * (2 * Q) ≤ 1 * (2 * Q) := Nat.mul_le_mul_right _ (by omega)
    omega
  rw [e2, e3]
  constructor
  · intro h
    have hy2 : (y - 1) / 2 < 2 * Q := by omega
    have hx2 : x ≤ 2 := by
      by_contra hc
      have h3 : 2 * (4 * Q) ≤ (x - 1) * (4 * Q) := Nat.mul_le_mul_right _ (by omega)
      have h4 : ((x - 1) % 2) * (2 * Q) ≤ 1 * (2 * Q) := Nat.mul_le_mul_right _ (by omega)
      omega
    refine ⟨hx2, ?_⟩
    rw [show (x - 1) % 2 = x - 1 by omega] at h
    have h5 : (x - 1) * (4 * Q) = (x - 1) * (2 * Q) * 2 := by ring
    omega
  · rintro ⟨h3, h4⟩
    rw [show (x - 1) % 2 = x - 1 by omega, show (y - 1) / 2 = 0 by omega]
    ring

example : (∃ k', setLetter .debug 5 ⟨3, 64 + 8 + 4⟩ 1 3 = .ok k' ∧ fromLetters .debug 5 ([2] ++ [3, 5]) = .ok k') ↔ 2 ≤ 2 ∧ 5 ≤ 2 :=
  C52_second_letter_iff_partial .debug 5 (by omega) (by omega) [2] 2 5 3 ⟨3, 64 + 8 + 4⟩ (by decide) (by decide +kernel) (by decide +kernel)
    (by omega) (by omega)

/-- C52, any letter further to the left is replaced correctly only if it was the letter 1: other letters are never cleared. -/
theorem C52_further_letters (p : Profile) (N : Nat) (h2 : 2 ≤ N) (hN : N < 2 ^ 32) (u v : List Nat) (x l : Nat) (k : TensorKey)
    (hw : ValidWord N (u ++ x :: v)) (hl : (u ++ x :: v).length ≤ maxDepth N) (hk : fromLetters p N (u ++ x :: v) = .ok k)
    (hl1 : 1 ≤ l) (hlN : l ≤ N) (hv : 2 ≤ v.length)
    (h : ∃ k', setLetter p N k v.length l = .ok k' ∧ fromLetters p N (u ++ l :: v) = .ok k') : x = 1 := by
  have hpow := lt_two_pow_bpl N (by omega)
  have hpow' := two_pow_bpl_le N (by omega)
  obtain ⟨b, hb⟩ : ∃ b, bitsPerLetter N = b + 2 := ⟨bitsPerLetter N - 2, by
    by_contra hc
    have hbp := bpl_pos N
    have : bitsPerLetter N = 1 := by omega
    rw [this] at hpow
    omega⟩
  rw [hb] at hpow hpow'
  have hex := (C52_set_letter_exact p N (by omega) hN u v x l (b + 2) k hw hl hk hl1 hlN
    (by rw [Nat.pow_succ] at hpow'; rw [show b + 2 - 1 = b + 1 by omega]; omega) hpow).1 h
  have hlt : k.data / 2 ^ v.length % 2 ^ (b + 2) * 2 ^ v.length < 2 ^ (b + 2) * 2 ^ v.length :=
    Nat.mul_lt_mul_of_pos_right (Nat.mod_lt _ (Nat.two_pow_pos _)) (Nat.two_pow_pos _)
  rw [hex, ← Nat.pow_add] at hlt
  have hx := hw x (by simp)
  by_contra hc
  have h3 : (2 : Nat) ^ (b + 2 + v.length) ≤ 2 ^ ((b + 2) * v.length) := Nat.pow_le_pow_right (by omega) (by nlinarith)
  have h4 := Nat.mul_le_mul_right (2 ^ ((b + 2) * v.length)) (show 1 ≤ x - 1 by omega)
  omega

example : ¬ ∃ k', setLetter .debug 3 ⟨3, 32⟩ 2 1 = .ok k' ∧ fromLetters .debug 3 ([] ++ 1 :: [1, 1]) = .ok k' := fun h => by
  have := C52_further_letters .debug 3 (by omega) (by omega) [] [1, 1] 3 1 ⟨3, 32⟩ (by decide) (by decide +kernel) (by decide +kernel)
    (by omega) (by omega) (by decide) h
  omega

/-! ## C37: `multiply_inplace` -/

section
variable {S R : Type} (C : Coeff S R) (p : Profile) (N : Nat)

/-- Multiplying parts of a vector into its upper part never changes the first entry. -/
theorem splitMul_head {f : S → S} {s b s' : Dense S} {mid : Nat} {ro rl rr : Nat × Nat} (h : splitMul C s b f mid ro rl rr = .ok s') :
    s'.data[0]? = s.data[0]? := by
  unfold splitMul at h
  simp only [Dense.makeMut_data] at h
  split at h
  case isFalse => cases h
  case isTrue hm =>
    obtain ⟨o, ho, h⟩ := bind_inv h
    obtain ⟨l, hl, h⟩ := bind_inv h
    obtain ⟨r, hr, h⟩ := bind_inv h
    obtain ⟨o', ho', h⟩ := bind_inv h
    cases h
    rw [Dense.writeSlice_data]
    rcases Nat.eq_zero_or_pos mid with rfl | hpos
    · rw [List.take_zero] at hl ⊢
      have el : l = [] := by
        unfold sliceUnchecked at hl
        split at hl
        · cases hl; simp
        · cases hl
      subst el
      cases ho'
      unfold sliceUnchecked at ho
      split at ho
      case isFalse => cases ho
      case isTrue hc =>
        cases ho
        have : replaceRange (s.data.drop 0) ro (((s.data.drop 0).take ro.2).drop ro.1) = s.data := by
          unfold replaceRange
          rw [List.drop_zero] at hc ⊢
          rw [List.drop_take]
          conv_rhs => rw [← List.take_append_drop ro.1 s.data, ← List.take_append_drop (ro.2 - ro.1) (s.data.drop ro.1), List.drop_drop,
            show ro.1 + (ro.2 - ro.1) = ro.2 by omega, ← List.append_assoc]
        rw [List.nil_append, this]
    · rw [List.getElem?_append_left (by rw [List.length_take]; omega), List.getElem?_take, if_pos hpos]

/-- One turn of the outer loop never changes the first entry. -/
theorem mulIntoDegree_head (h2 : 2 ≤ N) {f : S → S} {s b s' : Dense S} {off da db o : Nat} {asg : Bool} (ho : 1 ≤ o)
    (hp : N ^ (o + 1) < 2 ^ 64) (h : mulIntoDegree C p N b f off asg da db s o = .ok s') : s'.data[0]? = s.data[0]? := by
  unfold mulIntoDegree at h
  obtain ⟨lo, _, h⟩ := bind_inv h
  obtain ⟨t, _, h⟩ := bind_inv h
  have hA : ∀ m s1, mulIntoAssign C p N b f off o m s = .ok s1 → s1.data[0]? = s.data[0]? := by
    intro m s1 hs1
    unfold mulIntoAssign at hs1
    obtain ⟨t, _, hs1⟩ := bind_inv hs1
    obtain ⟨rr, _, hs1⟩ := bind_inv hs1
    obtain ⟨ro, hro, hs1⟩ := bind_inv hs1
    split at hs1
    · obtain ⟨rl, _, hs1⟩ := bind_inv hs1
      obtain ⟨mid, _, hs1⟩ := bind_inv hs1
      exact splitMul_head C hs1
    · obtain ⟨o1, ho1, hs1⟩ := bind_inv hs1
      obtain ⟨r, _, hs1⟩ := bind_inv hs1
      cases hs1
      rw [degreeRange_ok p N h2 o hp] at hro
      cases hro
      have hg := geomSum_pos (N := N) (d := o) (by omega)
      rw [Dense.makeMut_data] at ho1
      unfold sliceUnchecked at ho1
      split at ho1
      case isFalse => cases ho1
      case isTrue hc =>
        cases ho1
        rw [Dense.writeSlice_data, Dense.makeMut_data]
        unfold replaceRange
        rw [List.append_assoc, List.getElem?_append_left (by rw [List.length_take]; simp only at hc ⊢; omega), List.getElem?_take,
          if_pos (by exact hg)]
  have hL : ∀ m (L : List Nat) (s1 : Dense S), L.foldlM (mulIntoStep C p N b f o m) s1 = .ok s' → s'.data[0]? = s1.data[0]? := by
    intro m L s1 h
    refine foldlM_keep (fun x : Dense S => x.data[0]? = s1.data[0]?) _ ?_ _ _ _ rfl h
    intro x d x' hx hstep
    unfold mulIntoStep at hstep
    obtain ⟨_, _, hstep⟩ := bind_inv hstep
    obtain ⟨_, _, hstep⟩ := bind_inv hstep
    obtain ⟨_, _, hstep⟩ := bind_inv hstep
    obtain ⟨_, _, hstep⟩ := bind_inv hstep
    obtain ⟨_, _, hstep⟩ := bind_inv hstep
    obtain ⟨_, _, hstep⟩ := bind_inv hstep
    rw [splitMul_head C hstep, hx]
  cases asg
  · simp only [Bool.false_eq_true, if_false, Res.bind_ok] at h
    obtain ⟨top, _, h⟩ := bind_inv h
    exact hL _ _ _ h
  · simp only [if_true] at h
    obtain ⟨s1, hs1, h⟩ := bind_inv h
    obtain ⟨top, _, h⟩ := bind_inv h
    rw [hL _ _ _ h, hA _ _ hs1]

/-- C37.  Whenever `multiply_inplace` (or any product built on `multiply_into_impl`) returns, the constant term of `self` is what it was before,
whatever the factors, in both profiles. -/
theorem C37_constant_untouched (h2 : 2 ≤ N) (f : S → S) (a b r : Dense S) (da db D : Nat) (ha : HasDegree N a da) (hb : HasDegree N b db)
    (hne : a.data ≠ []) (hp : N ^ (min D (da + db) + 1) < 2 ^ 64) (hr : (DenseAlg.ops C p N).mulInto a b f (some D) = .ok r) :
    stored N r [] = stored N a [] := by
  change mulInto C p N a b f (some D) = .ok r at hr
  unfold mulInto at hr
  rw [degree_ok p N h2 a da ha.1 ha.2, Res.bind_ok, degree_ok p N h2 b db hb.1 hb.2, Res.bind_ok] at hr
  have b1 := TensorBasis.deg_lt64 h2 ha.2
  have b2 := TensorBasis.deg_lt64 h2 hb.2
  rw [maxDeg_ok p D da db (by omega), Res.bind_ok] at hr
  obtain ⟨s1, hg, hr⟩ := bind_inv hr
  have e1 : s1.data[0]? = a.data[0]? := by
    unfold growTo at hg
    obtain ⟨_, _, hg⟩ := bind_inv hg
    split at hg
    · obtain ⟨d, hd, hg⟩ := bind_inv hg
      obtain ⟨n, hn, hg⟩ := bind_inv hg
      cases hg
      have hM := TensorBasis.deg_lt64 h2 hp
      rw [addW_ok (by omega)] at hd
      cases hd
      rw [startOfDegree_ok p N h2 _ hp] at hn
      cases hn
      have hg := geomSum_pos (N := N) (d := min D (da + db) + 1) (by omega)
      have hl : 0 < a.data.length := List.length_pos_iff.2 hne
      rw [Dense.resize_data]
      unfold vecResize
      rw [List.getElem?_append_left (by rw [List.length_take]; omega), List.getElem?_take, if_pos (by exact hg)]
    · cases hg; rfl
  show r.data[0]? = a.data[0]?
  rw [← e1]
  have aux : ∀ (L : List Nat) (x x' : Dense S), (∀ o ∈ L, 1 ≤ o ∧ o ≤ min D (da + db)) →
      L.foldlM (mulIntoDegree C p N b f (offsetAssign C b).1 (offsetAssign C b).2 da db) x = .ok x' → x'.data[0]? = x.data[0]? := by
    intro L
    induction L with
    | nil => intro x x' _ h; cases h; rfl
    | cons o L ih =>
      intro x x' hL h
      rw [List.foldlM_cons] at h
      obtain ⟨y, hy, h⟩ := bind_inv h
      have ho := hL o (by simp)
      rw [ih y x' (fun o ho => hL o (by simp [ho])) h, mulIntoDegree_head C p N h2 ho.1 (pow_lt64_mono h2 (by omega) hp) hy]
  exact aux _ _ _ (by intro o ho; rw [List.mem_reverse, List.mem_range'_1] at ho; omega) hr

example : stored 2 (.ofVec [3, 2, 3, 0, 0, 0, 0]) [] = stored 2 (.ofVec [(3 : Int), 1, 0]) [] :=
  C37_constant_untouched intCoeff .debug 2 (by omega) id (.ofVec [3, 1, 0]) (.ofVec [2, 1, 0]) (.ofVec [3, 2, 3, 0, 0, 0, 0]) 1 1 2
    ⟨by decide, by decide⟩ ⟨by decide, by decide⟩ (by decide) (by decide) (by decide +kernel)

/-- C37, over an integral domain: as soon as the product reaches the degree of the right factor, `multiply_inplace` can be right only if the constant
term of `self` is zero or the right factor is the number 1. -/
theorem C37_right_only_if [CommRing S] [IsDomain S] (hC : C.IsRing) (hE : C.EqLawful) (h2 : 2 ≤ N) (a b r r' : Dense S) (da db D : Nat)
    (ha : FullTo N a da) (hb : FullTo N b db) (hM : 1 ≤ min D (da + db)) (hMb : db ≤ min D (da + db)) (hp : N ^ (min D (da + db) + 1) < 2 ^ 64)
    (hr : (DenseAlg.ops C p N).multiply a b (some D) = .ok r) (hr' : (DenseAlg.ops C p N).multiplyInplace a b (some D) = .ok r')
    (h : r'.data = r.data) : coef C N a [] = 0 ∨ b.data = [1] := by
  obtain ⟨r0, e1, _, e3⟩ := C33_multiply_ring C p N hC h2 a b da db D ha hb hM hp
  rw [hr] at e1
  cases e1
  have hg : ∀ d, 1 ≤ geomSum N (d + 1) := fun d => geomSum_pos (by omega)
  have hla : a.data.length = geomSum N (da + 1) := ha.1
  have hlb : b.data.length = geomSum N (db + 1) := hb.1
  have hne : a.data ≠ [] := by
    intro h0
    have := hg da
    rw [h0] at hla
    simp at hla
    omega
  have hc := C37_constant_untouched C p N h2 id a b r' da db D (ha.hasDegree h2) (hb.hasDegree h2) hne hp hr'
  have h0 := e3 [] (by simp [ValidWord])
  rw [if_pos (by simp)] at h0
  have hrr : coef C N r [] = coef C N r' [] := by unfold coef stored; rw [h]
  have hra : coef C N r' [] = coef C N a [] := by unfold coef; rw [hc]
  rw [hrr, hra] at h0
  simp only [conv] at h0
  by_cases ha0 : coef C N a [] = 0
  · exact .inl ha0
  right
  have hb0 : coef C N b [] = 1 := mul_left_cancel₀ ha0 (by rw [← h0, mul_one])
  obtain ⟨x, rest, hx⟩ : ∃ x rest, b.data = x :: rest := by
    cases hd : b.data with
    | nil =>
      have := hg db
      rw [hd] at hlb
      simp at hlb
      omega
    | cons x rest => exact ⟨x, rest, rfl⟩
  have hx1 : x = 1 := by
    have : coef C N b [] = x := by unfold coef stored; rw [hx]; simp [wordIndex]
    rw [← this, hb0]
  subst hx1
  rcases Nat.eq_zero_or_pos db with rfl | hdb
  · rw [hx] at hlb ⊢
    have : rest.length = 0 := by
      simp only [List.length_cons, geomSum, Nat.zero_add, Nat.pow_zero] at hlb
      omega
    rw [List.length_eq_zero_iff.1 this]
  · exfalso
    have hz : C.eq (1 : S) C.zero = false := by
      rw [Bool.eq_false_iff, ne_eq, hE, hC.zero]
      exact one_ne_zero
    have := C37_inplace_one_constant_ub C p N h2 id a b da db D ha hb 1 rest hx hz (by rw [hE, hC.one]) hdb hM hMb hp
    cases this.symm.trans hr'

example : coef intCoeff 2 (.ofVec [0, 1, 2]) [] = 0 ∨ (Dense.ofVec [(5 : Int)]).data = [1] :=
  C37_right_only_if intCoeff .debug 2 intCoeff_isRing intCoeff_eqLawful (by omega) (.ofVec [0, 1, 2]) (.ofVec [5]) (.ofVec [0, 5, 10])
    (.ofVec [0, 5, 10]) 1 0 2 ⟨rfl, by decide⟩ ⟨rfl, by decide⟩ (by decide) (by decide) (by decide) (by decide +kernel) (by decide +kernel) rfl

/-- C37, exactly when multiplying in place by a number `x` is right: `x` is not zero, nothing is truncated, and `x` does not change the constant
term of `self`. -/
theorem C37_inplace_scalar_iff_partial [CommRing S] [Nontrivial S] (hC : C.IsRing) (hE : C.EqLawful) (h2 : 2 ≤ N) (a b : Dense S) (da D : Nat)
    (ha : FullTo N a da) (hda : 1 ≤ da) (hD : 1 ≤ D) (x : S) (hx : b.data = [x]) :
    (∃ r r', (DenseAlg.ops C p N).multiply a b (some D) = .ok r ∧ (DenseAlg.ops C p N).multiplyInplace a b (some D) = .ok r' ∧
      r'.data = r.data) ↔ x ≠ 0 ∧ da ≤ D ∧ coef C N a [] * x = coef C N a [] := by
  have hb0 : FullTo N b 0 := ⟨by unfold Dense.size; rw [hx]; rfl, pow_lt64_mono h2 (by omega) ha.2⟩
  have hp : N ^ (min D (da + 0) + 1) < 2 ^ 64 := pow_lt64_mono h2 (by omega) ha.2
  obtain ⟨r, r1, r2, r3⟩ := C33_multiply_ring C p N hC h2 a b da 0 D ha hb0 (by omega) hp
  have hcu : ∀ w, ValidWord N w → coef C N b w = x * unitFn w := by
    intro w hw
    unfold coef stored unitFn
    rw [hx]
    by_cases h : w = []
    · subst h
      simp [wordIndex]
    · have hlen : 0 < w.length := List.length_pos_iff.2 h
      have := (wordIndex_bounds hw).1
      have h4 := geomSum_pos (N := N) (d := w.length) (by omega)
      rw [if_neg h, List.getElem?_eq_none (by simp; omega), Option.getD_none, hC.zero, mul_zero]
  have hr3 : ∀ w, ValidWord N w → coef C N r w = if w.length ≤ D then x * coef C N a w else 0 := by
    intro w hw
    rw [r3 w hw, conv_congr_valid N (f' := coef C N a) (g' := fun u => x * unitFn u) w hw (fun _ _ _ => rfl) (fun u hu _ => hcu u hu),
      conv_smul_right, conv_unit_right]
  rw [r1]
  constructor
  · rintro ⟨r0, r', e0, hr', hd⟩
    cases e0
    have hx0 : x ≠ 0 := by
      intro h0
      have := C37_inplace_zero_constant_ub C p N h2 id a b da 0 D ha hb0 x [] hx (by rw [hE, hC.zero]; exact h0) (by omega) (by omega) hp
      cases this.symm.trans hr'
    have hne : a.data ≠ [] := by
      intro h0
      have h1 : a.data.length = geomSum N (da + 1) := ha.1
      have := geomSum_pos (N := N) (d := da + 1) (by omega)
      rw [h0] at h1
      simp at h1
      omega
    have hc := C37_constant_untouched C p N h2 id a b r' da 0 D (ha.hasDegree h2) (hb0.hasDegree h2) hne hp hr'
    have hsz : r'.size = a.size := by
      by_cases h1 : x = 1
      · have := C37_inplace_by_one C p N h2 id a b da D ha x hx (by rw [Bool.eq_false_iff, ne_eq, hE, hC.zero]; exact hx0)
          (by rw [hE, hC.one]; exact h1)
        cases this.symm.trans hr'
        rfl
      · obtain ⟨r2, q1, q2, _⟩ := C37_inplace_scalar_actual C p N h2 id a b da D ha x hx
          (by rw [Bool.eq_false_iff, ne_eq, hE, hC.zero]; exact hx0) (by rw [Bool.eq_false_iff, ne_eq, hE, hC.one]; exact h1)
        cases q1.symm.trans hr'
        exact q2
    refine ⟨hx0, ?_, ?_⟩
    · by_contra hlt
      have h1 : r'.size = r.size := by unfold Dense.size; rw [hd]
      rw [hsz, ha.1, r2.1] at h1
      have := geomSum_strict (N := N) (a := min D (da + 0) + 1) (b := da + 1) (by omega) (by omega)
      omega
    · have h0 := hr3 [] (by simp [ValidWord])
      rw [if_pos (by simp)] at h0
      have hrr : coef C N r [] = coef C N r' [] := by unfold coef stored; rw [hd]
      have hra : coef C N r' [] = coef C N a [] := by unfold coef; rw [hc]
      rw [mul_comm, ← h0, hrr, hra]
  · rintro ⟨hx0, hdD, hfix⟩
    have hz : C.eq x C.zero = false := by rw [Bool.eq_false_iff, ne_eq, hE, hC.zero]; exact hx0
    have hsz : r.size = a.size := by rw [r2.1, ha.1, show min D (da + 0) = da by omega]
    by_cases h1 : x = 1
    · refine ⟨r, a, rfl, C37_inplace_by_one C p N h2 id a b da D ha x hx hz (by rw [hE, hC.one]; exact h1), ?_⟩
      refine data_ext_coef C (by omega : 1 ≤ N) hsz.symm fun w hw => ?_
      rw [hr3 w hw, h1, one_mul]
      split_ifs with hl
      · rfl
      · exact coef_zero_of_length C N hC (ha.hasDegree h2) w hw (by omega)
    · obtain ⟨r', q1, q2, q3⟩ := C37_inplace_scalar_actual C p N h2 id a b da D ha x hx hz
        (by rw [Bool.eq_false_iff, ne_eq, hE, hC.one]; exact h1)
      refine ⟨r, r', rfl, q1, ?_⟩
      refine data_ext_coef C (by omega : 1 ≤ N) (q2.trans hsz.symm) fun w hw => ?_
      rw [hr3 w hw]
      have hco : coef C N r' w = if 1 ≤ w.length ∧ w.length ≤ D then x * coef C N a w else coef C N a w := by
        unfold coef
        rw [q3 w hw]
        split_ifs with hl
        · cases hs : stored N a w with
          | none => simp [hC.zero]
          | some y => simp [hC.mul, mul_comm]
        · rfl
      rw [hco]
      by_cases hl : w.length ≤ D
      · rw [if_pos hl]
        by_cases hl1 : 1 ≤ w.length
        · rw [if_pos ⟨hl1, hl⟩]
        · rw [if_neg (by omega)]
          have : w = [] := List.length_eq_zero_iff.1 (by omega)
          subst this
          rw [mul_comm, hfix]
      · rw [if_neg hl, if_neg (by omega)]
        exact coef_zero_of_length C N hC (ha.hasDegree h2) w hw (by omega)

example := C37_inplace_scalar_iff_partial intCoeff .debug 2 intCoeff_isRing intCoeff_eqLawful (by omega) (.ofVec [0, 1, 2]) (.ofVec [5]) 1 2
  ⟨rfl, by decide⟩ (by omega) (by omega) 5 rfl

end

end RA
