import Verif.Proofs.BasisIter

/-!
# Keys at and beyond their limits (C51, C52)
-/

namespace RA
open Spec TensorKey TensorBasis

/-! ## C51: concatenating past the capacity -/

/-- C51, full statement for one alphabet and profile: a concatenation that does not fit panics. -/
def C51_overflow_detected_full (p : Profile) (N : Nat) : Prop :=
  ∀ (u v : List Nat) (ku kv : TensorKey), ValidWord N u → ValidWord N v → fromLetters p N u = .ok ku → fromLetters p N v = .ok kv →
    maxDepth N < (u ++ v).length → concatenate p N ku kv = .panic

/-- What `concatenate` returns, whatever the total length, as long as the shift is below 64. -/
theorem concatenate_any (p : Profile) (N : Nat) (h1 : 1 ≤ N) (u v : List Nat) (hv : ValidWord N v)
    (hlu : u.length ≤ maxDepth N) (hlv : v.length ≤ maxDepth N) (hs : v.length * bitsPerLetter N < 64) :
    concatenate p N (keyOf N u) (keyOf N v) =
      .ok ⟨u.length + v.length, wordData (bitsPerLetter N) u * 2 ^ (v.length * bitsPerLetter N) % 2 ^ 64 + wordData (bitsPerLetter N) v⟩ := by
  have hm := maxDepth_le N
  have hdv := wordData_lt (Nat.le_of_lt (lt_two_pow_bpl N h1)) hv
  have hmod : wordData (bitsPerLetter N) u * 2 ^ (v.length * bitsPerLetter N) % 2 ^ 64 =
      wordData (bitsPerLetter N) u % 2 ^ (64 - v.length * bitsPerLetter N) * 2 ^ (v.length * bitsPerLetter N) := by
    have e : (2 : Nat) ^ 64 = 2 ^ (64 - v.length * bitsPerLetter N) * 2 ^ (v.length * bitsPerLetter N) := by
      rw [← Nat.pow_add]; congr 1; omega
    rw [e, Nat.mul_mod_mul_right]
  have hlt : wordData (bitsPerLetter N) u * 2 ^ (v.length * bitsPerLetter N) % 2 ^ 64 + wordData (bitsPerLetter N) v < 2 ^ 64 := by
    rw [hmod]
    have hx := Nat.mod_lt (wordData (bitsPerLetter N) u) (Nat.two_pow_pos (64 - v.length * bitsPerLetter N))
    have e : (2 : Nat) ^ 64 = 2 ^ (64 - v.length * bitsPerLetter N) * 2 ^ (v.length * bitsPerLetter N) := by
      rw [← Nat.pow_add]; congr 1; omega
    rw [e]
    calc _ < wordData (bitsPerLetter N) u % 2 ^ (64 - v.length * bitsPerLetter N) * 2 ^ (v.length * bitsPerLetter N) +
          2 ^ (v.length * bitsPerLetter N) := Nat.add_lt_add_left hdv _
      _ = (wordData (bitsPerLetter N) u % 2 ^ (64 - v.length * bitsPerLetter N) + 1) * 2 ^ (v.length * bitsPerLetter N) := by
          rw [Nat.add_mul, Nat.one_mul]
      _ ≤ _ := Nat.mul_le_mul_right _ hx
  unfold concatenate
  simp only [keyOf]
  rw [addW_ok (by omega), Res.bind_ok, mulW_ok (by omega), Res.bind_ok, shlW_ok hs, Res.bind_ok, Nat.shiftLeft_eq, addW_ok hlt, Res.bind_ok]
  rfl

/-- C51: below `2^31` letters, no concatenation is ever refused: the result has the added size, however long it is. -/
theorem C51_never_detected (p : Profile) (N : Nat) (h1 : 1 ≤ N) (hN : N < 2 ^ 31) (u v : List Nat) (ku kv : TensorKey)
    (hu : ValidWord N u) (hv : ValidWord N v) (hlu : u.length ≤ maxDepth N) (hlv : v.length ≤ maxDepth N)
    (hku : fromLetters p N u = .ok ku) (hkv : fromLetters p N v = .ok kv) :
    ∃ k, concatenate p N ku kv = .ok k ∧ k.size = (u ++ v).length := by
  rw [fromLetters_ok p N h1 (by omega) u hu hlu] at hku
  rw [fromLetters_ok p N h1 (by omega) v hv hlv] at hkv
  cases hku; cases hkv
  have hb : bitsPerLetter N ≤ 31 := by
    have := constLogn_lt_of_lt (k := 31) h1 hN
    unfold bitsPerLetter; omega
  have hs : v.length * bitsPerLetter N < 64 := by
    rcases sizeBits_bpl N h1 (by omega) with h | h
    · exact Nat.lt_of_le_of_lt (Nat.mul_le_mul_right _ hlv) h
    · omega
  exact ⟨_, concatenate_any p N h1 u v hv hlu hlv hs, by simp⟩

example : ∃ k, concatenate .debug 2 ⟨30, 0⟩ ⟨30, 1⟩ = .ok k ∧ k.size = 60 := by
  refine ⟨⟨60, 1⟩, ?_, rfl⟩
  decide +kernel

/-- C51 is false for every alphabet, in both profiles. -/
theorem C51_overflow_detected_refuted (p : Profile) (N : Nat) (h1 : 1 ≤ N) (hN : N < 2 ^ 32) : ¬ C51_overflow_detected_full p N := by
  intro h
  have h2 := two_le_maxDepth N h1 hN
  have hb := bpl_le N h1 hN
  have hw : ∀ n, ValidWord N (List.replicate n 1) := by
    intro n l hl
    rw [List.mem_replicate] at hl
    omega
  have hu := fromLetters_ok p N h1 hN (List.replicate (maxDepth N) 1) (hw _) (by simp)
  have hv := fromLetters_ok p N h1 hN (List.replicate 1 1) (hw _) (by simp; omega)
  have := h _ _ _ _ (hw _) (hw _) hu hv (by simp)
  rw [concatenate_any p N h1 _ _ (hw _) (by simp) (by simp; omega) (by simp; omega)] at this
  cases this

example : ¬ C51_overflow_detected_full .debug 5 := C51_overflow_detected_refuted .debug 5 (by omega) (by omega)

/-- C51: letters are lost.  Once the letters after the first one fill the 64 bits, the first letter has no effect on the result, so different words give
equal keys. -/
theorem C51_letters_lost (p : Profile) (N : Nat) (h1 : 1 ≤ N) (hN : N < 2 ^ 32) (a a' : Nat) (u v : List Nat) (k k' kv : TensorKey)
    (hu : ValidWord N (a :: u)) (hu' : ValidWord N (a' :: u)) (hv : ValidWord N v) (hlu : (a :: u).length ≤ maxDepth N)
    (hlv : v.length ≤ maxDepth N) (hs : N < 2 ^ 31 ∨ v.length ≤ 1) (hfull : ∀ b, N < 2 ^ b → 64 ≤ (u.length + v.length) * b)
    (hk : fromLetters p N (a :: u) = .ok k) (hk' : fromLetters p N (a' :: u) = .ok k') (hkv : fromLetters p N v = .ok kv) :
    ∃ r, concatenate p N k kv = .ok r ∧ concatenate p N k' kv = .ok r := by
  rw [fromLetters_ok p N h1 hN _ hu hlu] at hk
  rw [fromLetters_ok p N h1 hN _ hu' hlu] at hk'
  rw [fromLetters_ok p N h1 hN _ hv hlv] at hkv
  cases hk; cases hk'; cases hkv
  have hf := hfull _ (lt_two_pow_bpl N h1)
  have hs' : v.length * bitsPerLetter N < 64 := by
    rcases hs with hs | hs
    · have hb : bitsPerLetter N ≤ 31 := by
        have := constLogn_lt_of_lt (k := 31) h1 hs
        unfold bitsPerLetter; omega
      rcases sizeBits_bpl N h1 (by omega) with h | h
      · exact Nat.lt_of_le_of_lt (Nat.mul_le_mul_right _ hlv) h
      · omega
    · have := bpl_le N h1 hN
      calc v.length * bitsPerLetter N ≤ 1 * 32 := Nat.mul_le_mul hs this
        _ < 64 := by omega
  have key : ∀ x, wordData (bitsPerLetter N) (x :: u) * 2 ^ (v.length * bitsPerLetter N) % 2 ^ 64 =
      wordData (bitsPerLetter N) u * 2 ^ (v.length * bitsPerLetter N) % 2 ^ 64 := by
    intro x
    rw [wordData_cons, Nat.add_mul, Nat.mul_assoc, ← Nat.pow_add, ← Nat.add_mul]
    have e : (2 : Nat) ^ ((u.length + v.length) * bitsPerLetter N) = 2 ^ 64 * 2 ^ ((u.length + v.length) * bitsPerLetter N - 64) := by
      rw [← Nat.pow_add]; congr 1; omega
    rw [e, Nat.mul_left_comm, Nat.mul_add_mod]
  refine ⟨_, concatenate_any p N h1 _ _ hv hlu hlv hs', ?_⟩
  rw [concatenate_any p N h1 (a' :: u) v hv hlu hlv hs', key a, key a']
  rfl

example : ∃ r, concatenate .debug 2 ⟨30, 0⟩ ⟨30, 1⟩ = .ok r ∧ concatenate .debug 2 ⟨30, 2 ^ 58⟩ ⟨30, 1⟩ = .ok r :=
  C51_letters_lost .debug 2 (by omega) (by omega) 1 2 (List.replicate 29 1) (List.replicate 29 1 ++ [2]) ⟨30, 0⟩ ⟨30, 2 ^ 58⟩ ⟨30, 1⟩
    (by decide +kernel) (by decide +kernel) (by decide +kernel) (by decide +kernel) (by decide +kernel) (.inl (by omega))
    (by
      intro b hb
      have : 2 ≤ b := by
        by_contra hc
        have : b ≤ 1 := by omega
        have := Nat.pow_le_pow_right (n := 2) (by omega) this
        omega
      simp; omega) (by decide +kernel) (by decide +kernel) (by decide +kernel)

/-- C51, the only case that is detected: with `2^31` letters or more a right factor of two letters shifts by 64, which panics in debug builds.  Missing: every
other overlong concatenation, see `C51_never_detected`. -/
theorem C51_overflow_detected_partial (N : Nat) (h31 : 2 ^ 31 ≤ N) (hN : N < 2 ^ 32) (u v : List Nat) (ku kv : TensorKey)
    (hu : ValidWord N u) (hv : ValidWord N v) (hlu : u.length ≤ maxDepth N) (hlv : v.length = 2)
    (hku : fromLetters .debug N u = .ok ku) (hkv : fromLetters .debug N v = .ok kv) : concatenate .debug N ku kv = .panic := by
  have h1 : 1 ≤ N := by omega
  have hm := maxDepth_le N
  rw [fromLetters_ok .debug N h1 hN u hu hlu] at hku
  rw [fromLetters_ok .debug N h1 hN v hv (by have := two_le_maxDepth N h1 hN; omega)] at hkv
  cases hku; cases hkv
  have hb : bitsPerLetter N = 32 := by
    have := bpl_le N h1 hN
    have h := lt_two_pow_bpl N h1
    by_contra hc
    have h' := Nat.pow_le_pow_right (n := 2) (by omega) (show bitsPerLetter N ≤ 31 by omega)
    omega
  unfold concatenate
  simp only [keyOf, hlv, hb]
  rw [addW_ok (by omega), Res.bind_ok, mulW_ok (by omega), Res.bind_ok]
  rfl

example : concatenate .debug (2 ^ 31) ⟨1, 4⟩ ⟨2, 2 ^ 32⟩ = .panic :=
  C51_overflow_detected_partial (2 ^ 31) (by omega) (by omega) [5] [2, 1] _ _ (by decide) (by decide) (by decide +kernel) rfl
    (by decide +kernel) (by decide +kernel)

/-! ## C52: `set_letter` -/

/-- C52, full statement for one alphabet and profile: `set_letter(i, l)` replaces the `i`-th letter from the right and keeps the others. -/
def C52_set_letter_full (p : Profile) (N : Nat) : Prop :=
  ∀ (w : List Nat) (k : TensorKey) (i l : Nat), ValidWord N w → fromLetters p N w = .ok k → i < w.length → 1 ≤ l → l ≤ N →
    ∃ k', setLetter p N k i l = .ok k' ∧ fromLetters p N (w.set (w.length - 1 - i) l) = .ok k'

/-- C52, the last letter (`i = 0`) is replaced correctly.  Missing: the other positions, see `C52_set_letter_refuted`. -/
theorem C52_set_letter_partial (p : Profile) (N : Nat) (h1 : 1 ≤ N) (hN : N < 2 ^ 32) (w : List Nat) (x l : Nat) (k : TensorKey)
    (hw : ValidWord N (w ++ [x])) (hl : (w ++ [x]).length ≤ maxDepth N) (hk : fromLetters p N (w ++ [x]) = .ok k) (hl1 : 1 ≤ l) (hlN : l ≤ N) :
    ∃ k', setLetter p N k 0 l = .ok k' ∧ fromLetters p N (w ++ [l]) = .ok k' := by
  rw [fromLetters_ok p N h1 hN _ hw hl] at hk
  cases hk
  have hx := (ValidWord.append.1 hw).2 x (by simp)
  have hpow := lt_two_pow_bpl N h1
  have hlt := wordData_lt64 h1 hw hl
  rw [wordData_snoc] at hlt
  have hw' : ValidWord N (w ++ [l]) := ValidWord.append.2 ⟨(ValidWord.append.1 hw).1, by intro y hy; simp at hy; omega⟩
  refine ⟨keyOf N (w ++ [l]), ?_, fromLetters_ok p N h1 hN _ hw' (by simpa using hl)⟩
  have := setLetter_zero p N h1 hN (w.length + 1) (wordData (bitsPerLetter N) w) (x - 1) l (by omega) (by omega) hl1 (by omega) hlt
  simp only [keyOf, wordData_snoc, List.length_append, List.length_singleton]
  exact this

example : ∃ k', setLetter .debug 5 ⟨3, 2 * 64 + 8 + 4⟩ 0 2 = .ok k' ∧ fromLetters .debug 5 ([3, 2] ++ [2]) = .ok k' :=
  C52_set_letter_partial .debug 5 (by omega) (by omega) [3, 2] 5 2 _ (by decide) (by decide +kernel) (by decide +kernel) (by omega) (by omega)

/-- C52, with one letter there is nothing to change and the full statement holds. -/
theorem C52_set_letter_one_letter (p : Profile) : C52_set_letter_full p 1 := by
  intro w k i l hw hk hi hl1 hlN
  have hl : w.length ≤ maxDepth 1 := by
    by_contra hc
    unfold fromLetters at hk
    rw [if_pos (by omega)] at hk
    cases hk
  rw [fromLetters_ok p 1 (by omega) (by omega) w hw hl] at hk
  cases hk
  have e1 : l = 1 := by omega
  subst e1
  have ew : w.set (w.length - 1 - i) 1 = w := by
    apply List.ext_getElem (by simp)
    intro j h _
    rw [List.getElem_set]
    split
    · have := hw (w[j]'(by simpa using h)) (List.getElem_mem _)
      omega
    · rfl
  rw [ew]
  refine ⟨_, ?_, fromLetters_ok p 1 (by omega) (by omega) w hw hl⟩
  have hd : wordData (bitsPerLetter 1) w = 0 := by
    have hb : ∀ b, wordData b w = 0 := by
      intro b
      induction w with
      | nil => rfl
      | cons a w ih =>
        have ha := hw a (by simp)
        rw [wordData_cons]
        have : ∀ (w' : List Nat), ValidWord 1 w' → wordData b w' = 0 := by
          intro w'
          induction w' with
          | nil => intro _; rfl
          | cons c w' ih' =>
            intro hc
            have h0 := hc c (by simp)
            rw [wordData_cons, ih' (fun y hy => hc y (by simp [hy]))]
            have : c = 1 := by omega
            simp [this]
        rw [this w (fun y hy => hw y (by simp [hy]))]
        have : a = 1 := by omega
        simp [this]
    exact hb _
  have hm : maxDepth 1 = 59 := by decide +kernel
  have hb1 : bitsPerLetter 1 = 1 := by decide +kernel
  rw [hb1] at hd
  unfold setLetter
  simp only [keyOf, hb1, hd]
  rw [if_neg (by omega), makeMask_ok p 1 i (by omega) (by omega) (by omega), Res.bind_ok, subW_ok (by omega), Res.bind_ok,
    mulW_ok (by omega), Res.bind_ok, shlW_ok' (by omega) (by simp), Res.bind_ok, Nat.zero_and, addW_ok (by simp), Res.bind_ok]
  simp

example : ∃ k', setLetter .debug 1 ⟨4, 0⟩ 2 1 = .ok k' ∧ fromLetters .debug 1 [1, 1, 1, 1] = .ok k' :=
  C52_set_letter_one_letter .debug [1, 1, 1, 1] ⟨4, 0⟩ 2 1 (by decide) (by decide +kernel) (by decide) (by omega) (by omega)

/-- A position outside the word panics in both profiles. -/
theorem C52_out_of_range (p : Profile) (N : Nat) (k : TensorKey) (i l : Nat) (hi : k.size ≤ i) : setLetter p N k i l = .panic := by
  unfold setLetter
  rw [if_pos hi]

example : setLetter .release 3 ⟨2, 5⟩ 2 1 = .panic := C52_out_of_range .release 3 ⟨2, 5⟩ 2 1 (by simp)

/-- C52 is false for every alphabet of two or more letters: the bits cleared are not those of the letter being replaced. -/
theorem C52_set_letter_refuted (p : Profile) (N : Nat) (h2 : 2 ≤ N) (hN : N < 2 ^ 32) : ¬ C52_set_letter_full p N := by
  intro h
  rcases Nat.lt_or_eq_of_le h2 with h3 | rfl
  · have hd := two_le_maxDepth N (by omega) hN
    have hw : ValidWord N [1, 3] := by intro x hx; simp at hx; omega
    have hb := bpl_le N (by omega) hN
    have hb2 : 2 ≤ bitsPerLetter N := by
      by_contra hc
      have h' := lt_two_pow_bpl N (by omega)
      have := Nat.pow_le_pow_right (n := 2) (by omega) (show bitsPerLetter N ≤ 1 by omega)
      omega
    have hk := fromLetters_ok p N (by omega) hN [1, 3] hw (by simpa using hd)
    obtain ⟨k', hs, hk'⟩ := h [1, 3] _ 1 1 hw hk (by simp) (by omega) (by omega)
    have e : ([1, 3] : List Nat).set (([1, 3] : List Nat).length - 1 - 1) 1 = [1, 3] := rfl
    rw [e, hk] at hk'
    cases hk'
    have hdata : (keyOf N [1, 3]).data = 2 := by simp [keyOf, wordData_cons]
    have hclear : 2 &&& notW 64 ((2 ^ bitsPerLetter N - 1) <<< 1) = 0 := by
      apply Nat.eq_of_testBit_eq
      intro i
      rw [Nat.testBit_and, testBit_notW (mask_lt (by omega)), testBit_mask]
      rcases i with _ | _ | i
      · simp
      · have : 1 < 1 + bitsPerLetter N := by omega
        simp [this]
      · have : (2 : Nat).testBit (i + 1 + 1) = false := by simp [Nat.testBit_succ]
        simp [this]
    unfold setLetter at hs
    rw [if_neg (by simp [keyOf]), makeMask_ok p _ 1 (by omega) (by omega) (by omega), Res.bind_ok, subW_ok (by omega), Res.bind_ok,
      mulW_ok (by omega), Res.bind_ok, shlW_ok' (by omega) (by simp), Res.bind_ok, hdata, hclear, addW_ok (by simp), Res.bind_ok] at hs
    have hs' : (⟨(keyOf N [1, 3]).size, 0 + (1 - 1) * 2 ^ (bitsPerLetter N * 1)⟩ : TensorKey) = keyOf N [1, 3] := by injection hs
    have := congrArg TensorKey.data hs'
    rw [hdata] at this
    simp at this
  · obtain ⟨k', hs, hk'⟩ := h [2, 1, 1] ⟨3, 16⟩ 2 1 (by decide) (by cases p <;> decide +kernel) (by simp) (by omega) (by omega)
    have hs2 : setLetter p 2 ⟨3, 16⟩ 2 1 = .ok ⟨3, 16⟩ := by cases p <;> decide +kernel
    have hk2 : fromLetters p 2 (([2, 1, 1] : List Nat).set (([2, 1, 1] : List Nat).length - 1 - 2) 1) = .ok ⟨3, 0⟩ := by
      cases p <;> decide +kernel
    rw [hs2] at hs
    rw [hk2] at hk'
    have e1 : (⟨3, 16⟩ : TensorKey) = k' := by injection hs
    have e2 : (⟨3, 0⟩ : TensorKey) = k' := by injection hk'
    rw [← e2] at e1
    cases e1

example : ¬ C52_set_letter_full .release 4 := C52_set_letter_refuted .release 4 (by omega) (by omega)

end RA
