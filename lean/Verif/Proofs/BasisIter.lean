import Verif.Proofs.TensorBasis

namespace RA.TensorBasis
open Spec TensorKey

/-! ## Clearing bits -/

theorem testBit_notW {m i : Nat} (hm : m < 2 ^ 64) :
    (notW 64 m).testBit i = (decide (i < 64) && !m.testBit i) := by
  have : notW 64 m = 2 ^ 64 - (m + 1) := by unfold notW; omega
  rw [this, Nat.testBit_two_pow_sub_succ hm]

theorem mask_lt {b s : Nat} (h : b + s ≤ 64) : (2 ^ b - 1) <<< s < 2 ^ 64 := by
  rw [Nat.shiftLeft_eq]
  have h1 : 0 < 2 ^ b := Nat.two_pow_pos b
  calc (2 ^ b - 1) * 2 ^ s < 2 ^ b * 2 ^ s := Nat.mul_lt_mul_of_pos_right (by omega) (Nat.two_pow_pos s)
    _ = 2 ^ (b + s) := by rw [Nat.pow_add]
    _ ≤ 2 ^ 64 := Nat.pow_le_pow_right (by omega) h

theorem testBit_mask {b s i : Nat} : ((2 ^ b - 1) <<< s).testBit i = decide (s ≤ i ∧ i < s + b) := by
  rw [Nat.testBit_shiftLeft, Nat.testBit_two_pow_sub_one]
  by_cases h1 : s ≤ i
  · simp [h1]; omega
  · simp [h1]

theorem clear_low {d b : Nat} (hb : b ≤ 64) (hd : d < 2 ^ 64) :
    d &&& notW 64 ((2 ^ b - 1) <<< 0) = d / 2 ^ b * 2 ^ b := by
  apply Nat.eq_of_testBit_eq
  intro i
  rw [Nat.testBit_and, testBit_notW (mask_lt (by omega)), testBit_mask, ← Nat.shiftLeft_eq, ← Nat.shiftRight_eq_div_pow,
    Nat.testBit_shiftLeft, Nat.testBit_shiftRight]
  by_cases h1 : b ≤ i
  · have : b + (i - b) = i := by omega
    rw [this]
    have h64 : d.testBit i = true → i < 64 := by
      intro h
      by_contra hc
      have := Nat.testBit_lt_two_pow (x := d) (i := i)
        (Nat.lt_of_lt_of_le hd (Nat.pow_le_pow_right (by omega) (by omega)))
      rw [h] at this; cases this
    cases hb : d.testBit i
    · simp
    · have := h64 hb
      have h5 : ¬ i < b := by omega
      simp [this, h5, h1]
  · simp [h1]; omega

theorem clear_one {hi b : Nat} (hb1 : 1 ≤ b) (hb : b + 1 ≤ 64) (hd : hi * 2 ^ b < 2 ^ 64) :
    hi * 2 ^ b &&& notW 64 ((2 ^ b - 1) <<< 1) = hi / 2 * 2 * 2 ^ b := by
  have e : hi / 2 * 2 * 2 ^ b = (hi >>> 1) <<< (b + 1) := by
    rw [Nat.shiftRight_eq_div_pow, Nat.shiftLeft_eq, Nat.pow_succ]; ring
  apply Nat.eq_of_testBit_eq
  intro i
  rw [e, Nat.testBit_and, testBit_notW (mask_lt (by omega)), testBit_mask, Nat.testBit_shiftLeft, Nat.testBit_shiftRight]
  have h64 : (hi * 2 ^ b).testBit i = true → i < 64 := by
    intro h
    by_contra hc
    have := Nat.testBit_lt_two_pow (x := hi * 2 ^ b) (i := i)
      (Nat.lt_of_lt_of_le hd (Nat.pow_le_pow_right (by omega) (by omega)))
    rw [h] at this; cases this
  have e2 : (hi * 2 ^ b).testBit i = (decide (b ≤ i) && hi.testBit (i - b)) := by
    rw [← Nat.shiftLeft_eq, Nat.testBit_shiftLeft]
  by_cases h1 : b + 1 ≤ i
  · have : 1 + (i - (b + 1)) = i - b := by omega
    rw [this]
    cases hb : (hi * 2 ^ b).testBit i
    · rw [hb] at e2
      have h3 : b ≤ i := by omega
      simp [h3] at e2
      simp [e2]
    · have := h64 hb
      rw [hb] at e2
      simp at e2
      rw [e2.2]
      have h5 : ¬ i < 1 + b := by omega
      simp [this, h5, h1]
  · by_cases h2 : b ≤ i
    · simp [h1]; omega
    · rw [e2]; simp [h1, h2]

/-- `set_letter` at position 0 does what it should. -/
theorem setLetter_zero (p : Profile) (N : Nat) (h1 : 1 ≤ N) (hN : N < 2 ^ 32) (s hi lo v : Nat) (hs : 1 ≤ s)
    (hlo : lo < 2 ^ bitsPerLetter N) (hv1 : 1 ≤ v) (hv : v ≤ 2 ^ bitsPerLetter N)
    (hd : hi * 2 ^ bitsPerLetter N + lo < 2 ^ 64) :
    setLetter p N ⟨s, hi * 2 ^ bitsPerLetter N + lo⟩ 0 v = .ok ⟨s, hi * 2 ^ bitsPerLetter N + (v - 1)⟩ := by
  have hb := bpl_le N h1 hN
  have hbp := bpl_pos N
  have hpow := Nat.two_pow_pos (bitsPerLetter N)
  unfold setLetter
  rw [if_neg (by simp; omega), makeMask_ok p _ 0 (by omega) (by omega) (by omega)]
  simp only [Res.bind_ok]
  rw [clear_low (by omega) hd, subW_ok hv1]
  simp only [Res.bind_ok]
  rw [mulW_ok (by simp)]
  simp only [Res.bind_ok, Nat.mul_zero]
  have hle : 2 ^ bitsPerLetter N ≤ 2 ^ 32 := Nat.pow_le_pow_right (by omega) hb
  rw [shlW_ok' (by omega) (by simp; omega)]
  simp only [Res.bind_ok, Nat.pow_zero, Nat.mul_one]
  have ediv : (hi * 2 ^ bitsPerLetter N + lo) / 2 ^ bitsPerLetter N = hi := by
    rw [Nat.mul_comm, Nat.mul_add_div hpow, Nat.div_eq_of_lt hlo]; simp
  rw [ediv]
  have hmul : (hi + 1) * 2 ^ bitsPerLetter N ≤ 2 ^ 64 := by
    have h3 : hi * 2 ^ bitsPerLetter N < 2 ^ 64 := by omega
    have h4 : (2:Nat) ^ 64 = 2 ^ (64 - bitsPerLetter N) * 2 ^ bitsPerLetter N := by
      rw [← Nat.pow_add]; congr 1; omega
    rw [h4] at h3 ⊢
    have := Nat.lt_of_mul_lt_mul_right h3
    exact Nat.mul_le_mul_right _ this
  rw [Nat.add_mul] at hmul
  rw [addW_ok (by omega)]
  rfl

/-- `set_letter` at position 1, when position 0 holds a zero field, clears only the lowest bit of the field. -/
theorem setLetter_one (p : Profile) (N : Nat) (h1 : 1 ≤ N) (hN : N < 2 ^ 32) (s hi v : Nat) (hs : 2 ≤ s)
    (hv1 : 1 ≤ v) (hd : hi * 2 ^ bitsPerLetter N < 2 ^ 64)
    (hd2 : (hi / 2 * 2 + (v - 1)) * 2 ^ bitsPerLetter N < 2 ^ 64) :
    setLetter p N ⟨s, hi * 2 ^ bitsPerLetter N⟩ 1 v = .ok ⟨s, (hi / 2 * 2 + (v - 1)) * 2 ^ bitsPerLetter N⟩ := by
  have hb := bpl_le N h1 hN
  have hbp := bpl_pos N
  have hpow := Nat.two_pow_pos (bitsPerLetter N)
  unfold setLetter
  rw [if_neg (by simp; omega), makeMask_ok p _ 1 (by omega) (by omega) (by omega)]
  simp only [Res.bind_ok]
  rw [clear_one (by omega) (by omega) hd, subW_ok hv1]
  simp only [Res.bind_ok]
  rw [mulW_ok (by omega)]
  simp only [Res.bind_ok, Nat.mul_one]
  rw [Nat.add_mul] at hd2
  rw [shlW_ok' (by omega) (by omega)]
  simp only [Res.bind_ok]
  rw [addW_ok hd2]
  simp only [Res.bind_ok, Nat.add_mul]
  rfl

/-! ## One step of the iteration -/

/-- The new value of the `current` field after one call of `next`. -/
def advance (p : Profile) (N : Nat) (k : TensorKey) : Res (Option TensorKey) :=
  advanceLoop p N (maxDepth N) (k.size + 1) k 0

theorem next_some (p : Profile) (N : Nat) (k : TensorKey) :
    BasisIter.next p N (.startingFrom N k) = (do
      let c ← advance p N k
      return (some k, ⟨c, maxDepth N⟩)) := rfl

theorem keyOf_snoc_data (N l : Nat) (u : List Nat) :
    keyOf N (u ++ [l]) = ⟨u.length + 1, wordData (bitsPerLetter N) u * 2 ^ bitsPerLetter N + (l - 1)⟩ := by
  simp [keyOf, wordData_snoc]

theorem getLetter_last (p : Profile) (N : Nat) (h1 : 1 ≤ N) (hN : N < 2 ^ 32) (u : List Nat) (l : Nat)
    (hw : ValidWord N (u ++ [l])) (hl : (u ++ [l]).length ≤ maxDepth N) :
    getLetter p N (keyOf N (u ++ [l])) 0 = .ok l := by
  rw [getLetter_keyOf p N h1 hN _ hw hl 0 (by simp)]
  simp

theorem getLetter_second (p : Profile) (N : Nat) (h1 : 1 ≤ N) (hN : N < 2 ^ 32) (u : List Nat) (l m : Nat)
    (hw : ValidWord N (u ++ [l, m])) (hl : (u ++ [l, m]).length ≤ maxDepth N) :
    getLetter p N (keyOf N (u ++ [l, m])) 1 = .ok l := by
  rw [getLetter_keyOf p N h1 hN _ hw hl 1 (by simp)]
  simp

theorem advance_empty (p : Profile) (N : Nat) (h1 : 1 ≤ N) (hN : N < 2 ^ 32) :
    advance p N (keyOf N []) = .ok (some (keyOf N [1])) := by
  have h2 := two_le_maxDepth N h1 hN
  unfold advance advanceLoop
  rw [if_pos (by simp [keyOf]), if_neg (by omega),
    pushFront_keyOf p N h1 hN [] 1 (by simp [ValidWord]) (by simp; omega) (by omega)]
  rfl

theorem advance_last (p : Profile) (N : Nat) (h1 : 1 ≤ N) (hN : N < 2 ^ 32) (u : List Nat) (l : Nat)
    (hw : ValidWord N (u ++ [l])) (hl : (u ++ [l]).length ≤ maxDepth N) (hlN : l < N) :
    advance p N (keyOf N (u ++ [l])) = .ok (some (keyOf N (u ++ [l + 1]))) := by
  have hbl := lt_two_pow_bpl N h1
  have hl1 : 1 ≤ l := ((ValidWord.append.1 hw).2 l (by simp)).1
  have hd := wordData_lt64 h1 hw hl
  rw [wordData_snoc] at hd
  unfold advance advanceLoop
  rw [if_neg (by simp [keyOf]), getLetter_last p N h1 hN u l hw hl]
  simp only [Res.bind_ok]
  rw [if_neg (by omega), addW_ok (by omega)]
  simp only [Res.bind_ok]
  rw [keyOf_snoc_data, setLetter_zero p N h1 hN _ _ _ _ (by omega) (by omega) (by omega) (by omega) hd, keyOf_snoc_data]
  rfl

/-- First turn of the loop when the last letter is `N`. -/
theorem setLetter_last_N (p : Profile) (N : Nat) (h1 : 1 ≤ N) (hN : N < 2 ^ 32) (u : List Nat)
    (hw : ValidWord N (u ++ [N])) (hl : (u ++ [N]).length ≤ maxDepth N) :
    setLetter p N (keyOf N (u ++ [N])) 0 1 = .ok (keyOf N (u ++ [1])) := by
  have hbl := lt_two_pow_bpl N h1
  have hd := wordData_lt64 h1 hw hl
  rw [wordData_snoc] at hd
  rw [keyOf_snoc_data, setLetter_zero p N h1 hN _ _ _ _ (by omega) (by omega) (by omega) (by omega) hd, keyOf_snoc_data]

theorem advance_single_N (p : Profile) (N : Nat) (h1 : 1 ≤ N) (hN : N < 2 ^ 32) :
    advance p N (keyOf N [N]) = .ok (some (keyOf N [1, 1])) := by
  have h2 := two_le_maxDepth N h1 hN
  have hw : ValidWord N ([] ++ [N]) := by intro l hl; simp at hl; omega
  have hw1 : ValidWord N [1] := by intro l hl; simp at hl; omega
  unfold advance advanceLoop
  have := getLetter_last p N h1 hN [] N hw (by simp; omega)
  simp only [List.nil_append] at this
  rw [if_neg (by simp [keyOf]), this]
  simp only [Res.bind_ok, if_true]
  have := setLetter_last_N p N h1 hN [] hw (by simp; omega)
  simp only [List.nil_append] at this
  rw [this]
  simp only [Res.bind_ok]
  rw [addW_ok (by omega)]
  simp only [Res.bind_ok]
  have e : (keyOf N [N]).size = 0 + 1 := rfl
  rw [e]
  unfold advanceLoop
  rw [if_pos (by simp [keyOf]), if_neg (by omega),
    pushFront_keyOf p N h1 hN [1] 1 hw1 (by simp; omega) (by omega)]
  rfl

/-- Last letter `N`, second to last below `N`: the exact outcome. -/
theorem advance_second (p : Profile) (N : Nat) (h1 : 1 ≤ N) (hN : N < 2 ^ 32) (u : List Nat) (l : Nat)
    (hw : ValidWord N (u ++ [l, N])) (hl : (u ++ [l, N]).length ≤ maxDepth N) (hlN : l < N)
    (hd2 : (wordData (bitsPerLetter N) (u ++ [l]) / 2 * 2 + l) * 2 ^ bitsPerLetter N < 2 ^ 64) :
    advance p N (keyOf N (u ++ [l, N])) =
      .ok (some ⟨u.length + 2, (wordData (bitsPerLetter N) (u ++ [l]) / 2 * 2 + l) * 2 ^ bitsPerLetter N⟩) := by
  have hbl := lt_two_pow_bpl N h1
  have e : u ++ [l, N] = (u ++ [l]) ++ [N] := by simp
  have hl1 : 1 ≤ l := ((ValidWord.append.1 hw).2 l (by simp)).1
  have hw1 : ValidWord N (u ++ [l, 1]) := by
    have := ValidWord.append.1 hw
    refine ValidWord.append.2 ⟨this.1, ?_⟩
    intro x hx; simp at hx; omega
  have hl' : (u ++ [l, 1]).length ≤ maxDepth N := by simpa using hl
  have hd := wordData_lt64 h1 hw1 hl'
  have e1 : u ++ [l, 1] = (u ++ [l]) ++ [1] := by simp
  unfold advance advanceLoop
  rw [if_neg (by simp [keyOf]), e, getLetter_last p N h1 hN (u ++ [l]) N (e ▸ hw) (e ▸ hl)]
  simp only [Res.bind_ok, if_true]
  rw [setLetter_last_N p N h1 hN (u ++ [l]) (e ▸ hw) (e ▸ hl)]
  simp only [Res.bind_ok]
  rw [addW_ok (by omega)]
  simp only [Res.bind_ok]
  have es : (keyOf N (u ++ [l] ++ [N])).size = (u.length + 1) + 1 := by simp [keyOf]
  rw [es]
  unfold advanceLoop
  rw [if_neg (by simp [keyOf]), ← e1, getLetter_second p N h1 hN u l 1 hw1 hl']
  simp only [Res.bind_ok, Nat.zero_add]
  rw [if_neg (by omega), addW_ok (by omega)]
  simp only [Res.bind_ok]
  rw [e1] at hd ⊢
  rw [wordData_snoc] at hd
  rw [keyOf_snoc_data]
  simp only [Nat.sub_self, Nat.add_zero] at hd ⊢
  rw [setLetter_one p N h1 hN _ _ _ (by simp) (by omega) hd (by simpa using hd2)]
  simp

theorem advance_second_ok (p : Profile) (N : Nat) (h1 : 1 ≤ N) (hN : N < 2 ^ 32) (u : List Nat) (l : Nat)
    (hw : ValidWord N (u ++ [l, N])) (hl : (u ++ [l, N]).length ≤ maxDepth N) (hlN : l < N) (hl2 : l ≤ 2) :
    advance p N (keyOf N (u ++ [l, N])) = .ok (some (keyOf N (u ++ [l + 1, 1]))) := by
  have hl1 : 1 ≤ l := ((ValidWord.append.1 hw).2 l (by simp)).1
  have hw1 : ValidWord N (u ++ [l + 1, 1]) := by
    have := ValidWord.append.1 hw
    refine ValidWord.append.2 ⟨this.1, ?_⟩
    intro x hx; simp at hx; omega
  have hd := wordData_lt64 h1 hw1 (by simpa using hl)
  have hbp := bpl_pos N
  have e : u ++ [l + 1, 1] = (u ++ [l + 1]) ++ [1] := by simp
  have hdata : wordData (bitsPerLetter N) (u ++ [l]) / 2 * 2 + l = wordData (bitsPerLetter N) (u ++ [l + 1]) := by
    rw [wordData_snoc, wordData_snoc]
    have hev : 2 ∣ wordData (bitsPerLetter N) u * 2 ^ bitsPerLetter N := by
      obtain ⟨c, hc⟩ : ∃ c, bitsPerLetter N = c + 1 := ⟨bitsPerLetter N - 1, by omega⟩
      rw [hc, Nat.pow_succ]
      exact Dvd.intro_left (wordData (c + 1) u * 2 ^ c) (by ring)
    omega
  rw [e, wordData_snoc] at hd
  rw [advance_second p N h1 hN u l hw hl hlN (by rw [hdata]; omega), hdata]
  congr 2
  rw [e, keyOf_snoc_data]
  simp

/-- Words from which one call of `next` moves to the right successor: the last letter is not `N`, or it is `N` and the letter
before it is 1 or 2 (and not `N`), or the word is empty or the single letter `N`. -/
def GoodStep (N : Nat) (w : List Nat) : Prop :=
  w = [] ∨ w = [N] ∨ (∃ u l, w = u ++ [l] ∧ l < N) ∨ (∃ u l, w = u ++ [l, N] ∧ l < N ∧ l ≤ 2)

theorem advance_good (p : Profile) (N : Nat) (h1 : 1 ≤ N) (hN : N < 2 ^ 32) (w : List Nat)
    (hw : ValidWord N w) (hl : w.length ≤ maxDepth N) (hg : GoodStep N w) :
    advance p N (keyOf N w) = .ok (some (keyOf N (indexWord N (wordIndex N w + 1)))) := by
  have fin : ∀ w', ValidWord N w' → wordIndex N w' = wordIndex N w + 1 → indexWord N (wordIndex N w + 1) = w' := by
    intro w' hw' he
    rw [← he, indexWord_wordIndex h1 hw']
  rcases hg with rfl | rfl | ⟨u, l, rfl, hlN⟩ | ⟨u, l, rfl, hlN, hl2⟩
  · rw [advance_empty p N h1 hN, fin [1]]
    · intro x hx; simp at hx; omega
    · simp [wordIndex_cons]
  · rw [advance_single_N p N h1 hN, fin [1, 1]]
    · intro x hx; simp at hx; omega
    · simp [wordIndex_cons]
  · rw [advance_last p N h1 hN u l hw hl hlN, fin (u ++ [l + 1])]
    · have := ValidWord.append.1 hw
      refine ValidWord.append.2 ⟨this.1, ?_⟩
      intro x hx; simp at hx; omega
    · rw [wordIndex_snoc, wordIndex_snoc]; omega
  · rw [advance_second_ok p N h1 hN u l hw hl hlN hl2, fin (u ++ [l + 1, 1])]
    · have := ValidWord.append.1 hw
      refine ValidWord.append.2 ⟨this.1, ?_⟩
      intro x hx; simp at hx; omega
    · simp [wordIndex_append, wordIndex_cons]; ring

/-! ## Iterating -/

theorem nth_succ_of_advance (p : Profile) (N n : Nat) (k : TensorKey) (c : Option TensorKey)
    (h : advance p N k = .ok c) :
    BasisIter.nth p N (n + 1) (.startingFrom N k) = BasisIter.nth p N n ⟨c, maxDepth N⟩ := by
  rw [BasisIter.nth, next_some, h]; rfl

theorem nth_zero_of_advance (p : Profile) (N : Nat) (k : TensorKey) (c : Option TensorKey)
    (h : advance p N k = .ok c) :
    BasisIter.nth p N 0 (.startingFrom N k) = .ok (some k) := by
  rw [BasisIter.nth, next_some, h]; rfl

/-- Whatever the next state is, item 0 can only be the current key. -/
theorem nth_zero_ne (p : Profile) (N : Nat) (k k' : TensorKey) (h : k ≠ k') :
    BasisIter.nth p N 0 (.startingFrom N k) ≠ .ok (some k') := by
  rw [BasisIter.nth, next_some]
  cases advance p N k <;> simp [h]

theorem nth_chain (p : Profile) (N : Nat) (f : Nat → TensorKey) (m : Nat) :
    ∀ (n s : Nat), (∀ i, s ≤ i → i < s + n → advance p N (f i) = .ok (some (f (i + 1)))) →
      BasisIter.nth p N (n + m) (.startingFrom N (f s)) = BasisIter.nth p N m (.startingFrom N (f (s + n))) := by
  intro n
  induction n with
  | zero => intro s _; simp
  | succ n ih =>
    intro s h
    have e : n + 1 + m = (n + m) + 1 := by omega
    rw [e, nth_succ_of_advance p N (n + m) (f s) _ (h s (by omega) (by omega))]
    have := ih (s + 1) (fun i h1 h2 => h i (by omega) (by omega))
    have e2 : s + 1 + n = s + (n + 1) := by omega
    rw [e2] at this
    exact this

/-- For `N ≥ 3` all indices below `4 N` are good. -/
theorem good_lt_four {N : Nat} (h3 : 3 ≤ N) {n : Nat} (hn : n < 4 * N) : GoodStep N (indexWord N n) := by
  have hidx := wordIndex_indexWord N n
  have hval := validWord_indexWord (N := N) (by omega) n
  have hlen : (indexWord N n).length ≤ 2 := by
    rw [indexWord_length_le n 2 (by omega)]
    simp only [geomSum]
    nlinarith
  generalize indexWord N n = w at hidx hval hlen
  match w, hlen with
  | [], _ => exact .inl rfl
  | [a], _ =>
    have := (ValidWord.cons.1 hval).1
    by_cases ha : a = N
    · subst ha; exact .inr (.inl rfl)
    · exact .inr (.inr (.inl ⟨[], a, rfl, by omega⟩))
  | [a, c], _ =>
    have ha := (ValidWord.cons.1 hval).1
    have hc := (ValidWord.cons.1 (ValidWord.cons.1 hval).2).1
    by_cases hcN : c = N
    · subst hcN
      refine .inr (.inr (.inr ⟨[], a, rfl, ?_⟩))
      simp [wordIndex_cons] at hidx
      have : a ≤ 2 := by
        by_contra hc
        have : 3 * c ≤ a * c := Nat.mul_le_mul_right _ (by omega)
        omega
      omega
    · exact .inr (.inr (.inl ⟨[a], c, rfl, by omega⟩))

theorem indexWord_four {N : Nat} (h3 : 3 ≤ N) : indexWord N (4 * N) = [3, N] := by
  have : wordIndex N [3, N] = 4 * N := by simp [wordIndex_cons]; ring
  rw [← this, indexWord_wordIndex (by omega)]
  intro x hx; simp at hx; omega

/-- What `next` leaves behind after the word `[3, N]`. -/
theorem advance_three (p : Profile) (N : Nat) (h3 : 3 ≤ N) (hN : N < 2 ^ 32) :
    ∃ k, advance p N (keyOf N [3, N]) = .ok (some k) ∧ k ≠ keyOf N (indexWord N (4 * N + 1)) := by
  rcases Nat.lt_or_eq_of_le h3 with h4 | rfl
  · have hw : ValidWord N ([] ++ [3, N]) := by intro x hx; simp at hx; omega
    have h2 := two_le_maxDepth N (by omega) hN
    have hb := bpl_le N (by omega) hN
    have hblow : 3 ≤ bitsPerLetter N := by
      have := constLogn_mono (show 4 ≤ N by omega)
      have h4 : constLogn 4 = 2 := by decide +kernel
      unfold bitsPerLetter; omega
    have hdig : wordData (bitsPerLetter N) ([] ++ [3]) / 2 * 2 + 3 = 5 := by simp [wordData]
    have hlt : 5 * 2 ^ bitsPerLetter N < 2 ^ 64 := by
      have : 2 ^ bitsPerLetter N ≤ 2 ^ 32 := Nat.pow_le_pow_right (by omega) hb
      omega
    have := advance_second p N (by omega) hN [] 3 hw (by simp; omega) h4 (by rw [hdig]; exact hlt)
    rw [hdig] at this
    refine ⟨_, this, ?_⟩
    have e : indexWord N (4 * N + 1) = [4, 1] := by
      have : wordIndex N [4, 1] = 4 * N + 1 := by simp [wordIndex_cons]
      rw [← this, indexWord_wordIndex (by omega)]
      intro x hx; simp at hx; omega
    rw [e]
    simp [keyOf, wordData]
  · refine ⟨⟨3, 8⟩, ?_, ?_⟩
    · cases p <;> decide +kernel
    · have e : indexWord 3 (4 * 3 + 1) = [1, 1, 1] := by
        rw [← show wordIndex 3 [1, 1, 1] = 4 * 3 + 1 from rfl, indexWord_wordIndex (by omega)]
        decide
      rw [e]
      decide +kernel

/-! ## One letter -/

theorem setLetter_unary (p : Profile) (s i : Nat) (hi : i < s) (hs : s ≤ 59) :
    setLetter p 1 ⟨s, 0⟩ i 1 = .ok ⟨s, 0⟩ := by
  have hb : bitsPerLetter 1 = 1 := by decide +kernel
  unfold setLetter
  rw [if_neg (by simp; omega), hb, makeMask_ok p 1 i (by omega) (by omega) (by omega)]
  simp only [Res.bind_ok]
  rw [subW_ok (by omega)]
  simp only [Res.bind_ok]
  rw [mulW_ok (by omega)]
  simp only [Res.bind_ok]
  rw [shlW_ok' (by omega) (by simp)]
  simp only [Res.bind_ok, Nat.sub_self, Nat.zero_mul, Nat.zero_and]
  rw [addW_ok (by omega)]
  rfl

theorem keyOf_unary (s : Nat) : keyOf 1 (List.replicate s 1) = ⟨s, 0⟩ := by
  have : ∀ b, wordData b (List.replicate s 1) = 0 := by
    intro b
    induction s with
    | zero => rfl
    | succ s ih => rw [List.replicate_succ, wordData_cons, ih]; simp
  simp [keyOf, this]

theorem validWord_unary (s : Nat) : ValidWord 1 (List.replicate s 1) := by
  intro x hx; simp at hx; omega

theorem maxDepth_one : maxDepth 1 = 59 := by decide +kernel

theorem advanceLoop_unary (p : Profile) (s : Nat) (hs : s ≤ 59) (fuel i : Nat) (hi : i ≤ s) (hf : s < i + fuel) :
    advanceLoop p 1 59 fuel ⟨s, 0⟩ i = .ok (if s = 59 then none else some ⟨s + 1, 0⟩) := by
  induction fuel generalizing i with
  | zero => omega
  | succ fuel ih =>
    unfold advanceLoop
    by_cases his : i = s
    · subst his
      simp only [if_true]
      by_cases h59 : i = 59
      · simp [h59]
      · rw [if_neg h59, if_neg h59, ← keyOf_unary,
          pushFront_keyOf p 1 (by omega) (by omega) _ 1 (validWord_unary i) (by rw [maxDepth_one]; simp; omega)
            (by omega), ← List.replicate_succ, keyOf_unary]
        rfl
    · rw [if_neg his]
      have hg : getLetter p 1 ⟨s, 0⟩ i = .ok 1 := by
        rw [← keyOf_unary, getLetter_keyOf p 1 (by omega) (by omega) _ (validWord_unary s) (by rw [maxDepth_one]; simpa using hs) i
          (by simp; omega)]
        simp
      rw [hg]
      simp only [Res.bind_ok, if_true]
      rw [setLetter_unary p s i (by omega) hs]
      simp only [Res.bind_ok]
      rw [addW_ok (by omega)]
      simp only [Res.bind_ok]
      exact ih (i + 1) (by omega) (by omega)

theorem advance_unary (p : Profile) (s : Nat) (hs : s ≤ 59) :
    advance p 1 ⟨s, 0⟩ = .ok (if s = 59 then none else some ⟨s + 1, 0⟩) := by
  unfold advance
  rw [maxDepth_one]
  exact advanceLoop_unary p s hs _ 0 (by omega) (by simp)

theorem nth_none (p : Profile) (N n d : Nat) : BasisIter.nth p N n ⟨none, d⟩ = .ok none := by
  induction n with
  | zero => rfl
  | succ n ih => exact ih

theorem geomSum_one (d : Nat) : geomSum 1 d = d := by
  induction d with
  | zero => rfl
  | succ d ih => rw [geomSum, ih]; simp

theorem indexWord_unary (n : Nat) : indexWord 1 n = List.replicate n 1 := by
  have : wordIndex 1 (List.replicate n 1) = n := by
    induction n with
    | zero => rfl
    | succ n ih => rw [List.replicate_succ, wordIndex_cons, ih]; simp; omega
  conv_lhs => rw [← this]
  exact indexWord_wordIndex (by omega) (validWord_unary n)

end RA.TensorBasis
