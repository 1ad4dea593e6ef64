import Verif.Proofs.TensorKey

/-!
# Properties of tensor keys (C01-C06, C15)

A *valid word* is a list of letters in `1..N` (`Spec.ValidWord`).  Keys are obtained through the public constructor
`from_letters`.  `N` ranges over all `u32` alphabets with at least one letter.
-/

namespace RA
open Spec TensorKey

/-- C01.  `from_letters` accepts every valid word up to `max_depth`; the size, `to_letters` (last letter first) and iteration (first
letter first) give the word back.  Iteration is driven until `None`; any fuel above the length is enough. -/
theorem C01_round_trip (p : Profile) (N : Nat) (h1 : 1 ≤ N) (hN : N < 2 ^ 32) (w : List Nat)
    (hw : ValidWord N w) (hl : w.length ≤ maxDepth N) :
    ∃ k, fromLetters p N w = .ok k ∧ k.size = w.length ∧ toLetters p N k = .ok w.reverse ∧
      ∀ fuel, w.length < fuel → lettersCollect p N k fuel 0 = .ok w := by
  refine ⟨keyOf N w, fromLetters_ok p N h1 hN w hw hl, rfl, toLetters_keyOf p N h1 hN w hw hl, ?_⟩
  intro fuel hf
  have := lettersCollect_keyOf p N h1 hN w hw hl fuel 0 (by omega) (by omega)
  simpa using this

example : ∃ k, fromLetters .release 5 [3, 5, 1, 4] = .ok k ∧ k.size = 4 ∧ toLetters .release 5 k = .ok [4, 1, 5, 3] ∧
    ∀ fuel, 4 < fuel → lettersCollect .release 5 k fuel 0 = .ok [3, 5, 1, 4] :=
  C01_round_trip .release 5 (by omega) (by omega) [3, 5, 1, 4] (by decide) (by decide +kernel)

example : ValidWord 5 [3, 5, 1, 4] ∧ [3, 5, 1, 4].length ≤ maxDepth 5 := by decide +kernel

/-- C01, converse for debug builds: nothing but a valid word of length at most `max_depth` is accepted. -/
theorem C01_accepted_iff (N : Nat) (h1 : 1 ≤ N) (hN : N < 2 ^ 32) (w : List Nat) :
    (∃ k, fromLetters .debug N w = .ok k) ↔ ValidWord N w ∧ w.length ≤ maxDepth N := by
  constructor
  · rintro ⟨k, hk⟩
    have := (fromLetters_debug_iff N h1 hN w k).1 hk
    exact ⟨this.1, this.2.1⟩
  · rintro ⟨hw, hl⟩
    exact ⟨_, fromLetters_ok .debug N h1 hN w hw hl⟩

example : ¬ ∃ k, fromLetters .debug 3 [1, 4] = .ok k := fun h =>
  absurd ((C01_accepted_iff 3 (by omega) (by omega) [1, 4]).1 h).1 (by decide)

/-- C02.  Keys are equal exactly when the words are equal. -/
theorem C02_key_eq_iff (p : Profile) (N : Nat) (h1 : 1 ≤ N) (hN : N < 2 ^ 32) (u v : List Nat)
    (hu : ValidWord N u) (hv : ValidWord N v) (hlu : u.length ≤ maxDepth N) (hlv : v.length ≤ maxDepth N)
    (ku kv : TensorKey) (hku : fromLetters p N u = .ok ku) (hkv : fromLetters p N v = .ok kv) :
    ku = kv ↔ u = v := by
  rw [fromLetters_ok p N h1 hN u hu hlu] at hku
  rw [fromLetters_ok p N h1 hN v hv hlv] at hkv
  cases hku; cases hkv
  constructor
  · intro h
    simp only [keyOf, TensorKey.mk.injEq] at h
    exact wordData_inj (Nat.le_of_lt (lt_two_pow_bpl N h1)) hu hv h.1 h.2
  · rintro rfl; rfl

example : (⟨3, 1⟩ : TensorKey) = ⟨2, 1⟩ ↔ [1, 1, 2] = [1, 2] :=
  C02_key_eq_iff .release 3 (by omega) (by omega) [1, 1, 2] [1, 2] (by decide) (by decide) (by decide +kernel) (by decide +kernel) _ _
    (by decide +kernel) (by decide +kernel)

example : ∃ ku kv, fromLetters .release 3 [1, 1, 2] = .ok ku ∧ fromLetters .release 3 [1, 2] = .ok kv ∧ ku ≠ kv :=
  ⟨⟨3, 1⟩, ⟨2, 1⟩, by decide +kernel, by decide +kernel, by decide⟩

/-- C03.  `max_depth` letters of the alphabet fit in 64 bits (a letter needs `b` bits with `N < 2^b ≤ 2N`), there is always room for
two letters, and every longer slice is rejected with a panic, whatever its letters are. -/
theorem C03_max_depth (N : Nat) (h1 : 1 ≤ N) (hN : N < 2 ^ 32) :
    (∃ b, N < 2 ^ b ∧ 2 ^ b ≤ 2 * N ∧ maxDepth N * b ≤ 64) ∧ 2 ≤ maxDepth N ∧
      ∀ (p : Profile) (w : List Nat), maxDepth N < w.length → fromLetters p N w = .panic := by
  refine ⟨⟨bitsPerLetter N, lt_two_pow_bpl N h1, two_pow_bpl_le N h1, maxDepth_mul_le N⟩, two_le_maxDepth N h1 hN, ?_⟩
  intro p w hw
  unfold fromLetters
  rw [if_pos hw]

example : 2 ≤ maxDepth 1000 := (C03_max_depth 1000 (by omega) (by omega)).2.1

example : maxDepth 3 = 30 ∧ fromLetters .release 3 (List.replicate 31 1) = .panic := by decide +kernel

/-- C04.  `get_letter(i)` is the `i`-th letter from the right, a letter of the alphabet, and does not panic. -/
theorem C04_get_letter (p : Profile) (N : Nat) (h1 : 1 ≤ N) (hN : N < 2 ^ 32) (w : List Nat)
    (hw : ValidWord N w) (hl : w.length ≤ maxDepth N) (k : TensorKey) (hk : fromLetters p N w = .ok k)
    (i : Nat) (hi : i < k.size) :
    ∃ l, getLetter p N k i = .ok l ∧ w[w.length - 1 - i]? = some l ∧ 1 ≤ l ∧ l ≤ N := by
  rw [fromLetters_ok p N h1 hN w hw hl] at hk
  cases hk
  have hi' : i < w.length := hi
  refine ⟨_, getLetter_keyOf p N h1 hN w hw hl i hi', ?_, ?_⟩
  · rw [List.getElem_reverse, List.getElem?_eq_getElem]
  · exact hw _ (List.mem_reverse.1 (List.getElem_mem _))

example : ∃ l, getLetter .debug 4 ⟨3, 90⟩ 1 = .ok l ∧ [2, 4, 3][3 - 1 - 1]? = some l ∧ 1 ≤ l ∧ l ≤ 4 :=
  C04_get_letter .debug 4 (by omega) (by omega) [2, 4, 3] (by decide) (by decide +kernel) ⟨3, 90⟩ (by decide +kernel) 1 (by decide)

example : ∃ k, fromLetters .debug 4 [2, 4, 3] = .ok k ∧ getLetter .debug 4 k 0 = .ok 3 ∧ getLetter .debug 4 k 2 = .ok 2 :=
  ⟨⟨3, 90⟩, by decide +kernel⟩

/-- C05.  For words whose total length is at most `max_depth`, `concatenate` gives the key of the concatenated word.  The only
exception is an alphabet with at least `2^31` letters (where `max_depth` is 2) when the right factor is already full. -/
theorem C05_concatenate (p : Profile) (N : Nat) (h1 : 1 ≤ N) (hN : N < 2 ^ 32) (u v : List Nat)
    (hu : ValidWord N u) (hv : ValidWord N v) (hl : (u ++ v).length ≤ maxDepth N)
    (hfull : N < 2 ^ 31 ∨ v.length ≤ 1)
    (ku kv : TensorKey) (hku : fromLetters p N u = .ok ku) (hkv : fromLetters p N v = .ok kv) :
    ∃ k, concatenate p N ku kv = .ok k ∧ fromLetters p N (u ++ v) = .ok k ∧ k.size = ku.size + kv.size := by
  have hlu : u.length ≤ maxDepth N := by simp at hl; omega
  have hlv : v.length ≤ maxDepth N := by simp at hl; omega
  rw [fromLetters_ok p N h1 hN u hu hlu] at hku
  rw [fromLetters_ok p N h1 hN v hv hlv] at hkv
  cases hku; cases hkv
  refine ⟨_, concatenate_keyOf p N h1 u v hu hv hl ?_,
    fromLetters_ok p N h1 hN _ (ValidWord.append.2 ⟨hu, hv⟩) hl, by simp [keyOf]⟩
  rcases hfull with h31 | hv1
  · have hb : bitsPerLetter N ≤ 31 := by
      unfold bitsPerLetter
      exact constLogn_lt_of_lt h1 h31
    rcases sizeBits_bpl N h1 hN with h | h
    · exact Nat.lt_of_le_of_lt (Nat.mul_le_mul_right _ hlv) h
    · omega
  · have hb := bpl_le N h1 hN
    have : v.length * bitsPerLetter N ≤ 1 * bitsPerLetter N := Nat.mul_le_mul_right _ hv1
    omega

example : ∃ k, concatenate .debug 3 ⟨2, 8⟩ ⟨1, 1⟩ = .ok k ∧ fromLetters .debug 3 ([3, 1] ++ [2]) = .ok k ∧ k.size = 2 + 1 :=
  C05_concatenate .debug 3 (by omega) (by omega) [3, 1] [2] (by decide) (by decide) (by decide +kernel) (.inl (by omega)) ⟨2, 8⟩ ⟨1, 1⟩
    (by decide +kernel) (by decide +kernel)

example : ∃ ku kv k, fromLetters .debug 3 [3, 1] = .ok ku ∧ fromLetters .debug 3 [2] = .ok kv ∧
    concatenate .debug 3 ku kv = .ok k ∧ toLetters .debug 3 k = .ok [2, 1, 3] :=
  ⟨⟨2, 8⟩, ⟨1, 1⟩, ⟨3, 33⟩, by decide +kernel⟩

/-- C05.  The exception is real: with `2^31` or more letters, appending a full key to the empty key panics in debug builds (the shift
amount is 64); in release builds the result is still right. -/
theorem C05_concatenate_wide (N : Nat) (h31 : 2 ^ 31 ≤ N) (hN : N < 2 ^ 32) (a b : Nat)
    (ha : 1 ≤ a ∧ a ≤ N) (hb : 1 ≤ b ∧ b ≤ N) (k : TensorKey) (hk : fromLetters .debug N [a, b] = .ok k) :
    concatenate .debug N new k = .panic ∧ concatenate .release N new k = .ok k := by
  have h1 : 1 ≤ N := by omega
  have hw : ValidWord N [a, b] := by intro x hx; simp at hx; omega
  have h2 := two_le_maxDepth N h1 hN
  rw [fromLetters_ok .debug N h1 hN _ hw (by simpa using h2)] at hk
  cases hk
  have hbp : bitsPerLetter N = 32 := by
    have h3 := bpl_le N h1 hN
    have h4 := lt_two_pow_bpl N h1
    rcases Nat.lt_or_eq_of_le h3 with hc | hc
    · have : 2 ^ bitsPerLetter N ≤ 2 ^ 31 := Nat.pow_le_pow_right (by omega) (by omega)
      omega
    · exact hc
  have hlt := wordData_lt64 h1 hw (by simpa using h2)
  have hsz : ∀ p, addW p 32 (new : TensorKey).size (keyOf N [a, b]).size = .ok 2 := by
    intro p; exact addW_ok (by simp [new, keyOf])
  have hsh : ∀ p, mulW p 32 (keyOf N [a, b]).size (bitsPerLetter N) = .ok 64 := by
    intro p; rw [hbp]; exact mulW_ok (by simp [keyOf])
  have hrel : shlW .release 64 (new : TensorKey).data 64 = .ok 0 := by decide
  unfold concatenate
  rw [hsz, hsz, Res.bind_ok, Res.bind_ok, hsh, hsh, Res.bind_ok, Res.bind_ok, hrel]
  constructor
  · rfl
  · rw [Res.bind_ok, addW_ok (by simpa [keyOf] using hlt)]
    simp [keyOf]

example : concatenate .debug (2 ^ 31) new ⟨2, 25769803784⟩ = .panic ∧ concatenate .release (2 ^ 31) new ⟨2, 25769803784⟩ = .ok ⟨2, 25769803784⟩ :=
  C05_concatenate_wide (2 ^ 31) (by omega) (by omega) 7 9 (by omega) (by omega) _ (by decide +kernel)

example : (2 : Nat) ^ 31 ≤ 2 ^ 31 ∧ ∃ k, fromLetters .debug (2 ^ 31) [7, 9] = .ok k := ⟨by decide, ⟨2, 25769803784⟩, by decide +kernel⟩

/-- C05.  The empty key is a two-sided unit (alphabets below `2^31` letters). -/
theorem C05_unit (p : Profile) (N : Nat) (h1 : 1 ≤ N) (hN : N < 2 ^ 31) (w : List Nat) (hw : ValidWord N w)
    (hl : w.length ≤ maxDepth N) (k : TensorKey) (hk : fromLetters p N w = .ok k) :
    concatenate p N new k = .ok k ∧ concatenate p N k new = .ok k := by
  have e : fromLetters p N [] = .ok new := fromLetters_ok p N h1 (by omega) [] (by simp [ValidWord]) (by simp)
  have h0 : ValidWord N [] := by simp [ValidWord]
  constructor
  · obtain ⟨c, hc, hc', _⟩ := C05_concatenate p N h1 (by omega) [] w h0 hw (by simpa using hl) (.inl hN) _ _ e hk
    rw [List.nil_append, hk] at hc'
    cases hc'; exact hc
  · obtain ⟨c, hc, hc', _⟩ := C05_concatenate p N h1 (by omega) w [] hw h0 (by simpa using hl) (.inl hN) _ _ hk e
    rw [List.append_nil, hk] at hc'
    cases hc'; exact hc

example : concatenate .debug 3 new ⟨2, 8⟩ = .ok ⟨2, 8⟩ ∧ concatenate .debug 3 ⟨2, 8⟩ new = .ok ⟨2, 8⟩ :=
  C05_unit .debug 3 (by omega) (by omega) [3, 1] (by decide) (by decide +kernel) _ (by decide +kernel)

/-- C05.  Concatenation is associative on words whose total length fits. -/
theorem C05_assoc (p : Profile) (N : Nat) (h1 : 1 ≤ N) (hN : N < 2 ^ 31) (u v w : List Nat)
    (hu : ValidWord N u) (hv : ValidWord N v) (hw : ValidWord N w) (hl : (u ++ v ++ w).length ≤ maxDepth N)
    (ku kv kw : TensorKey) (hku : fromLetters p N u = .ok ku) (hkv : fromLetters p N v = .ok kv)
    (hkw : fromLetters p N w = .ok kw) :
    (do let k ← concatenate p N ku kv; concatenate p N k kw) =
      (do let k ← concatenate p N kv kw; concatenate p N ku k) ∧
    ∃ k, (do let k ← concatenate p N ku kv; concatenate p N k kw) = .ok k ∧ fromLetters p N (u ++ v ++ w) = .ok k := by
  have hl' := hl
  simp only [List.length_append] at hl'
  obtain ⟨a, ha, ha', _⟩ := C05_concatenate p N h1 (by omega) u v hu hv (by simp; omega) (.inl hN) _ _ hku hkv
  obtain ⟨b, hb, hb', _⟩ := C05_concatenate p N h1 (by omega) v w hv hw (by simp; omega) (.inl hN) _ _ hkv hkw
  obtain ⟨c, hc, hc', _⟩ := C05_concatenate p N h1 (by omega) (u ++ v) w (ValidWord.append.2 ⟨hu, hv⟩) hw hl (.inl hN) _ _ ha' hkw
  obtain ⟨d, hd, hd', _⟩ := C05_concatenate p N h1 (by omega) u (v ++ w) hu (ValidWord.append.2 ⟨hv, hw⟩)
    (by simp; omega) (.inl hN) _ _ hku hb'
  rw [← List.append_assoc, hc'] at hd'
  cases hd'
  refine ⟨?_, c, ?_, hc'⟩
  · rw [ha, hb, Res.bind_ok, Res.bind_ok, hc, hd]
  · rw [ha, Res.bind_ok, hc]

example : ∃ k, (do let k ← concatenate .debug 3 ⟨2, 1⟩ ⟨1, 2⟩; concatenate .debug 3 k ⟨2, 10⟩) = .ok k ∧
    fromLetters .debug 3 ([1, 2] ++ [3] ++ [3, 3]) = .ok k :=
  (C05_assoc .debug 3 (by omega) (by omega) [1, 2] [3] [3, 3] (by decide) (by decide) (by decide) (by decide +kernel) _ _ _
    (by decide +kernel) (by decide +kernel) (by decide +kernel)).2

example : ([1, 2] ++ [3] ++ [3, 3] : List Nat).length ≤ maxDepth 3 ∧ ValidWord 3 ([1, 2] ++ [3] ++ [3, 3]) := by decide +kernel

/-- C06.  `push_front` prepends one letter. -/
theorem C06_push_front (p : Profile) (N : Nat) (h1 : 1 ≤ N) (hN : N < 2 ^ 32) (w : List Nat) (l : Nat)
    (hw : ValidWord N w) (hl : w.length < maxDepth N) (hll : 1 ≤ l ∧ l ≤ N)
    (k : TensorKey) (hk : fromLetters p N w = .ok k) :
    ∃ k', pushFront p N k l = .ok k' ∧ fromLetters p N (l :: w) = .ok k' := by
  rw [fromLetters_ok p N h1 hN w hw (by omega)] at hk
  cases hk
  exact ⟨_, pushFront_keyOf p N h1 hN w l hw hl hll,
    fromLetters_ok p N h1 hN _ (ValidWord.cons.2 ⟨hll, hw⟩) hl⟩

example : ∃ k', pushFront .release 3 ⟨2, 2⟩ 2 = .ok k' ∧ fromLetters .release 3 [2, 1, 3] = .ok k' :=
  C06_push_front .release 3 (by omega) (by omega) [1, 3] 2 (by decide) (by decide +kernel) (by omega) _ (by decide +kernel)

/-- C06.  In debug builds a full key, or a letter outside the alphabet, makes `push_front` panic. -/
theorem C06_push_front_debug_panics (N : Nat) (k : TensorKey) (l : Nat)
    (h : maxDepth N ≤ k.size ∨ l = 0 ∨ N < l) : pushFront .debug N k l = .panic := by
  unfold pushFront
  by_cases hs : k.size < maxDepth N
  · have : ¬ (1 ≤ l ∧ l ≤ N) := by omega
    simp [debugAssert, hs, this]
  · simp [debugAssert, hs]

example : pushFront .debug 3 ⟨30, 5⟩ 2 = .panic := C06_push_front_debug_panics 3 _ 2 (.inl (by decide +kernel))

example : ∃ k k', fromLetters .release 3 [1, 3] = .ok k ∧ pushFront .release 3 k 2 = .ok k' ∧
    toLetters .release 3 k' = .ok [3, 1, 2] := ⟨⟨2, 2⟩, ⟨3, 18⟩, by decide +kernel⟩
example : pushFront .debug 3 ⟨1, 0⟩ 4 = .panic := by decide +kernel

/-! ## Formatting -/

/-- Decimal numbers separated by `", "`. -/
def Spec.commaSep : List Nat → String
  | [] => ""
  | [a] => toString a
  | a :: b :: l => toString a ++ ", " ++ commaSep (b :: l)

/-- The text `Debug` should print: the letters in decimal, last letter first, in parentheses. -/
def Spec.keyText (w : List Nat) : String := "(" ++ commaSep w.reverse ++ ")"

/-- C15.  Full statement: `Display` terminates and prints what `Debug` prints. -/
def C15_display_full : Prop :=
  ∀ (p : Profile) (N : Nat) (k : TensorKey) (s : String), debugFmt p N k = .ok s →
    ∃ fuel, displayFmt k fuel = .ok s

/-- C15 is false: `Display::fmt` never returns, for any key. -/
theorem C15_display_diverges (k : TensorKey) (fuel : Nat) : displayFmt k fuel = .diverge := by
  induction fuel with
  | zero => rfl
  | succ fuel ih => exact ih

example : displayFmt ⟨2, 6⟩ 1000 = .diverge := C15_display_diverges _ _

theorem C15_display_refuted : ¬ C15_display_full := by
  intro h
  obtain ⟨fuel, hf⟩ := h .debug 3 new "()" (by decide +kernel)
  rw [C15_display_diverges] at hf
  cases hf

theorem commaSep_snoc (l : List Nat) (a : Nat) (h : l ≠ []) :
    commaSep (l ++ [a]) = commaSep l ++ ", " ++ toString a := by
  induction l with
  | nil => exact absurd rfl h
  | cons b l ih =>
    cases l with
    | nil => simp [commaSep]
    | cons c l =>
      have := ih (by simp)
      simp only [List.cons_append] at this ⊢
      rw [commaSep, this]
      simp [commaSep, String.append_assoc]

/-- C15, the part that holds: `Debug` prints the letters of a valid word. -/
theorem C15_debug_text_partial (p : Profile) (N : Nat) (h1 : 1 ≤ N) (hN : N < 2 ^ 32) (w : List Nat)
    (hw : ValidWord N w) (hl : w.length ≤ maxDepth N) (k : TensorKey) (hk : fromLetters p N w = .ok k) :
    debugFmt p N k = .ok (Spec.keyText w) := by
  rw [fromLetters_ok p N h1 hN w hw hl] at hk
  cases hk
  have key : ∀ n, n ≤ w.length → (List.range n).foldlM (fun acc i => do
      let l ← getLetter p N (keyOf N w) i
      if i > 0 then return acc ++ ", " ++ toString l
      else return acc ++ toString l) "(" = (.ok ("(" ++ commaSep (w.reverse.take n)) : Res String) := by
    intro n
    induction n with
    | zero => intro _; simp [commaSep]
    | succ n ih =>
      intro hn
      rw [List.range_succ, List.foldlM_append, ih (by omega)]
      simp only [Res.bind_ok, List.foldlM_cons, List.foldlM_nil]
      rw [getLetter_keyOf p N h1 hN w hw hl n (by omega)]
      simp only [Res.bind_ok]
      have e : w.reverse.take (n + 1) = w.reverse.take n ++ [w.reverse[n]'(by simp; omega)] := by
        rw [List.take_succ_eq_append_getElem]
      rw [e]
      by_cases h0 : n > 0
      · rw [if_pos h0, commaSep_snoc _ _ (by
          intro hc
          have := congrArg List.length hc
          rw [List.length_take, List.length_reverse, List.length_nil] at this
          omega)]
        simp [String.append_assoc]
      · have : n = 0 := by omega
        subst this
        simp [commaSep]
  unfold debugFmt
  have hs : (keyOf N w).size = w.length := rfl
  rw [hs, key w.length (Nat.le_refl _)]
  have : w.reverse.take w.length = w.reverse := by
    apply List.take_of_length_le; simp
  rw [this]
  rfl

example : debugFmt .debug 12 ⟨3, 688⟩ = .ok "(1, 12, 3)" :=
  C15_debug_text_partial .debug 12 (by omega) (by omega) [3, 12, 1] (by decide) (by decide +kernel) _ (by decide +kernel)

example : ∃ k, fromLetters .debug 12 [3, 12, 1] = .ok k ∧ Spec.keyText [3, 12, 1] = "(1, 12, 3)" :=
  ⟨⟨3, 688⟩, by decide +kernel, by decide +kernel⟩

end RA
