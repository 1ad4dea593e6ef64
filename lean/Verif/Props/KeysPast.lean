import Verif.Props.KeysMore
import Verif.Props.ReleaseKeys

/-!
# Exactly what becomes of letters past the capacity (C51, C81)
-/

namespace RA
open Spec TensorKey

theorem mask_extract_mod (d b t : Nat) (hd : d < 2 ^ 64) : (d &&& (((2 ^ b - 1) <<< t) % 2 ^ 64)) >>> t = d / 2 ^ t % 2 ^ b := by
  have h : d &&& (((2 ^ b - 1) <<< t) % 2 ^ 64) = d &&& ((2 ^ b - 1) <<< t) := by
    have h1 := Nat.and_mod_two_pow (a := d) (b := (2 ^ b - 1) <<< t) (n := 64)
    rw [Nat.mod_eq_of_lt hd, Nat.mod_eq_of_lt (Nat.lt_of_le_of_lt Nat.and_le_left hd)] at h1
    exact h1.symm
  rw [h, mask_extract]

theorem makeMask_lt (p : Profile) (b s : Nat) (hb : b < 64) (hs : s < 64) : makeMask p b s = .ok (((2 ^ b - 1) <<< s) % 2 ^ 64) := by
  have h1 : 1 ≤ 2 ^ b := Nat.one_le_two_pow
  have h2 : 1 * 2 ^ b < 2 ^ 64 := by rw [Nat.one_mul]; exact Nat.pow_lt_pow_right (by omega) hb
  unfold makeMask
  rw [shlW_ok' hb h2, Res.bind_ok, Nat.one_mul, subW_ok h1, Res.bind_ok, shlW_ok hs]

/-- Reading a letter whose place begins inside the 64 bits, in debug builds. -/
theorem getLetter_debug {N b : Nat} (hbb : bitsPerLetter N = b) (hb : b ≤ 31) (k : TensorKey) (hd : k.data < 2 ^ 64) (i : Nat) (hi : i * b < 64) :
    getLetter .debug N k i = .ok (k.data / 2 ^ (i * b) % 2 ^ b + 1) := by
  unfold getLetter getLetterUnadjusted
  rw [hbb, mulW_ok (by omega), Res.bind_ok, makeMask_lt _ _ _ (by omega) hi, Res.bind_ok, Res.bind_ok, shrW_ok hi, Res.bind_ok, Res.pure_eq, Res.bind_ok,
    mask_extract_mod _ _ _ hd]
  have h1 : k.data / 2 ^ (i * b) % 2 ^ b < 2 ^ b := Nat.mod_lt _ (Nat.two_pow_pos _)
  have h2 : 2 ^ b ≤ 2 ^ 31 := Nat.pow_le_pow_right (by omega) hb
  rw [Nat.mod_eq_of_lt (by omega), addW_ok (by omega)]

/-- One that begins past them. -/
theorem getLetter_debug_panic {N b : Nat} (hbb : bitsPerLetter N = b) (hb : b ≤ 31) (k : TensorKey) (i : Nat) (hi : 64 ≤ i * b) (hi' : i * b < 2 ^ 32) :
    getLetter .debug N k i = .panic := by
  have h1 : 1 ≤ 2 ^ b := Nat.one_le_two_pow
  have h2 : 1 * 2 ^ b < 2 ^ 64 := by rw [Nat.one_mul]; exact Nat.pow_lt_pow_right (by omega) (by omega)
  unfold getLetter getLetterUnadjusted makeMask
  rw [hbb, mulW_ok hi', Res.bind_ok, shlW_ok' (by omega) h2, Res.bind_ok, Nat.one_mul, subW_ok h1, Res.bind_ok]
  unfold shlW
  rw [if_neg (by omega)]
  rfl

theorem mapM_panic {f : Nat → Res Nat} (l : List Nat) (h : ∀ i ∈ l, (∃ x, f i = .ok x) ∨ f i = .panic) (hp : ∃ i ∈ l, f i = .panic) : l.mapM f = .panic := by
  induction l with
  | nil => simp at hp
  | cons a l ih =>
    rw [List.mapM_cons]
    rcases h a (by simp) with ⟨x, hx⟩ | hx
    · have : ∃ i ∈ l, f i = .panic := by
        obtain ⟨i, hi, hf⟩ := hp
        rcases List.mem_cons.1 hi with rfl | hi
        · rw [hx] at hf; cases hf
        · exact ⟨i, hi, hf⟩
      rw [hx, Res.bind_ok, ih (fun i hi => h i (by simp [hi])) this]
      rfl
    · rw [hx]
      rfl

theorem toLetters_debug {N b : Nat} (hbb : bitsPerLetter N = b) (hb : b ≤ 31) (k : TensorKey) (hd : k.data < 2 ^ 64) (hk : (k.size - 1) * b < 64) :
    toLetters .debug N k = .ok ((List.range k.size).map fun i => k.data / 2 ^ (i * b) % 2 ^ b + 1) := by
  have := mapM_range_ok (f := getLetter .debug N k) (l := (List.range k.size).map fun i => k.data / 2 ^ (i * b) % 2 ^ b + 1)
    (fun i hi => by
      rw [List.length_map, List.length_range] at hi
      rw [List.getElem_map, List.getElem_range]
      exact getLetter_debug hbb hb k hd i (Nat.lt_of_le_of_lt (Nat.mul_le_mul_right _ (by omega)) hk))
  rwa [List.length_map, List.length_range] at this

theorem toLetters_debug_panic {N b : Nat} (hbb : bitsPerLetter N = b) (hb : b ≤ 31) (k : TensorKey) (hd : k.data < 2 ^ 64) (hk : 64 ≤ (k.size - 1) * b)
    (hk' : k.size * b < 2 ^ 32) : toLetters .debug N k = .panic := by
  refine mapM_panic _ (fun i hi => ?_) ⟨k.size - 1, ?_, ?_⟩
  · have hi' : i * b ≤ k.size * b := Nat.mul_le_mul_right _ (List.mem_range.1 hi).le
    rcases Nat.lt_or_ge (i * b) 64 with h | h
    · exact .inl ⟨_, getLetter_debug hbb hb k hd i h⟩
    · exact .inr (getLetter_debug_panic hbb hb k i h (by omega))
  · rw [List.mem_range]
    rcases Nat.eq_zero_or_pos k.size with h | h
    · rw [h] at hk; omega
    · omega
  · have : (k.size - 1) * b ≤ k.size * b := Nat.mul_le_mul_right _ (by omega)
    exact getLetter_debug_panic hbb hb k _ hk (by omega)

/-- The data of a concatenation. -/
theorem concatenate_data (p : Profile) {N b : Nat} (hbb : bitsPerLetter N = b) (h1 : 1 ≤ N) (u v : List Nat) (hv : ValidWord N v)
    (hlu : u.length ≤ maxDepth N) (hlv : v.length ≤ maxDepth N) (hs : v.length * b < 64) :
    concatenate p N (keyOf N u) (keyOf N v) = .ok ⟨(u ++ v).length, wordData b (u ++ v) % 2 ^ 64⟩ := by
  subst hbb
  rw [concatenate_any p N h1 u v hv hlu hlv hs, wordData_append, List.length_append]
  have hdv := wordData_lt (Nat.le_of_lt (lt_two_pow_bpl N h1)) hv
  have e : (2 : Nat) ^ 64 = 2 ^ (v.length * bitsPerLetter N) * 2 ^ (64 - v.length * bitsPerLetter N) := by
    rw [← Nat.pow_add]; congr 1; omega
  refine congrArg (fun d => Res.ok (TensorKey.mk (u.length + v.length) d)) ?_
  rw [e]
  generalize v.length * bitsPerLetter N = s at *
  generalize wordData (bitsPerLetter N) v = y at *
  rw [Nat.mul_comm (wordData _ u), Nat.mul_mod_mul_left, Nat.mod_mul, Nat.mul_add_mod, Nat.mod_eq_of_lt hdv, Nat.mul_add_div (Nat.two_pow_pos _),
    Nat.div_eq_of_lt hdv, Nat.add_zero, Nat.add_comm]

/-- The digits that survive the truncation to 64 bits. -/
theorem digit_mod (D b s : Nat) (hs : s < 64) : D % 2 ^ 64 / 2 ^ s % 2 ^ b = D / 2 ^ s % 2 ^ (64 - s) % 2 ^ b := by
  have e : (2 : Nat) ^ 64 = 2 ^ s * 2 ^ (64 - s) := by rw [← Nat.pow_add]; congr 1; omega
  rw [e, Nat.mod_mul_right_div_self]

theorem word_digits {N b : Nat} (hb : N ≤ 2 ^ b) {w : List Nat} (hw : ValidWord N w) :
    w.reverse = (List.range w.length).map fun i => wordData b w / 2 ^ (i * b) % 2 ^ b + 1 := by
  apply List.ext_getElem
  · simp
  · intro i h1 h2
    rw [List.getElem_map, List.getElem_range, wordData_digit hb hw i (by simpa using h1)]

/-- C51, debug builds, fewer than `2 ^ 31` letters: what becomes of a concatenation of any two words that fit.  Its letters can be read back, in the order of
`to_letters` (C04), exactly if they fit in 64 bits, or all but the first begin inside the 64 bits and the first is small enough for the bits that are left.
Reading panics exactly if the first begins past them. -/
theorem C51_debug_right_iff (N b : Nat) (hb0 : 1 ≤ b) (hb : 2 ^ (b - 1) ≤ N) (hb' : N < 2 ^ b) (hN : N < 2 ^ 31) (u v : List Nat) (ku kv : TensorKey)
    (hu : ValidWord N u) (hv : ValidWord N v) (hlu : u.length ≤ maxDepth N) (hlv : v.length ≤ maxDepth N) (hku : fromLetters .debug N u = .ok ku)
    (hkv : fromLetters .debug N v = .ok kv) :
    ∃ k, concatenate .debug N ku kv = .ok k ∧
      (toLetters .debug N k = .ok (u ++ v).reverse ↔
        (u ++ v).length * b ≤ 64 ∨ (((u ++ v).length - 1) * b < 64 ∧ ∀ l ∈ (u ++ v).head?, l ≤ 2 ^ (64 - ((u ++ v).length - 1) * b))) ∧
      (toLetters .debug N k = .panic ↔ 64 ≤ ((u ++ v).length - 1) * b) := by
  have h1 : 1 ≤ N := Nat.le_trans (Nat.two_pow_pos _) hb
  have hbb := bpl_eq hb0 hb hb'
  have hb31 : b ≤ 31 := by
    have : b - 1 < 31 := (Nat.pow_lt_pow_iff_right (by omega : 1 < 2)).1 (Nat.lt_of_le_of_lt hb hN)
    omega
  have hm := maxDepth_le N
  have hs : v.length * b < 64 := by
    have h := sizeBits_bpl N h1 (by omega)
    rw [hbb] at h
    rcases h with h | h
    · exact Nat.lt_of_le_of_lt (Nat.mul_le_mul_right _ hlv) h
    · omega
  rw [fromLetters_ok .debug N h1 (by omega) u hu hlu] at hku
  rw [fromLetters_ok .debug N h1 (by omega) v hv hlv] at hkv
  cases hku; cases hkv
  refine ⟨_, concatenate_data .debug hbb h1 u v hv hlu hlv hs, ?_⟩
  have hw : ValidWord N (u ++ v) := ValidWord.append.2 ⟨hu, hv⟩
  have hlen : (u ++ v).length ≤ 128 := by rw [List.length_append]; omega
  generalize u ++ v = w at *
  have hbig : w.length * b < 2 ^ 32 := by
    have := Nat.mul_le_mul hlen hb31
    omega
  have hD : wordData b w % 2 ^ 64 < 2 ^ 64 := Nat.mod_lt _ (by omega)
  rcases Nat.lt_or_ge ((w.length - 1) * b) 64 with hlt | hge
  · rw [toLetters_debug hbb hb31 ⟨w.length, wordData b w % 2 ^ 64⟩ hD hlt]
    refine ⟨?_, nofun, fun h => absurd hlt (by omega)⟩
    rw [Res.ok.injEq, word_digits hb'.le hw, List.map_inj_left]
    have hin : ∀ i, (i + 1) * b ≤ 64 → wordData b w % 2 ^ 64 / 2 ^ (i * b) % 2 ^ b + 1 = wordData b w / 2 ^ (i * b) % 2 ^ b + 1 := by
      intro i hi
      rw [Nat.add_mul, Nat.one_mul] at hi
      rw [digit_mod _ _ _ (by omega), Nat.mod_mod_of_dvd _ (Nat.pow_dvd_pow 2 (by omega))]
    match w, hw, hlt with
    | [], _, _ => simp
    | l :: w, hw, hlt =>
      simp only [List.length_cons, Nat.add_sub_cancel, List.head?_cons, Option.mem_def, Option.some.injEq, forall_eq'] at hlt ⊢
      have hl := ValidWord.cons.1 hw
      have hq : wordData b (l :: w) / 2 ^ (w.length * b) = l - 1 := by
        rw [wordData_cons, Nat.mul_comm, Nat.mul_add_div (Nat.two_pow_pos _), Nat.div_eq_of_lt (wordData_lt hb'.le hl.2), Nat.add_zero]
      by_cases hfit : (w.length + 1) * b ≤ 64
      · refine ⟨fun _ => .inl hfit, fun _ i hi => hin i ?_⟩
        have := List.mem_range.1 hi
        exact Nat.le_trans (Nat.mul_le_mul_right _ (by omega)) hfit
      · have htop : wordData b (l :: w) % 2 ^ 64 / 2 ^ (w.length * b) % 2 ^ b + 1 = wordData b (l :: w) / 2 ^ (w.length * b) % 2 ^ b + 1 ↔
            l ≤ 2 ^ (64 - w.length * b) := by
          have hsmall : 2 ^ (64 - w.length * b) ≤ 2 ^ b := Nat.pow_le_pow_right (by omega) (by rw [Nat.add_mul, Nat.one_mul] at hfit; omega)
          have hpos : 0 < 2 ^ (64 - w.length * b) := Nat.two_pow_pos _
          rw [digit_mod _ _ _ hlt, hq, Nat.mod_eq_of_lt (a := l - 1) (b := 2 ^ b) (by omega),
            Nat.mod_eq_of_lt (Nat.lt_of_lt_of_le (Nat.mod_lt _ hpos) hsmall)]
          constructor
          · intro h
            have := Nat.mod_lt (l - 1) hpos
            omega
          · intro h
            rw [Nat.mod_eq_of_lt (by omega)]
        constructor
        · intro h
          exact .inr ⟨hlt, htop.1 (h w.length (by simp))⟩
        · rintro (h | ⟨_, h⟩)
          · exact absurd h hfit
          · intro i hi
            rcases Nat.lt_succ_iff_lt_or_eq.1 (List.mem_range.1 hi) with hi | rfl
            · refine hin i (Nat.le_trans (Nat.mul_le_mul_right _ (by omega : i + 1 ≤ w.length)) (by omega))
            · exact htop.2 h
  · rw [toLetters_debug_panic hbb hb31 ⟨w.length, wordData b w % 2 ^ 64⟩ hD hge hbig]
    refine ⟨⟨nofun, ?_⟩, fun _ => hge, fun _ => rfl⟩
    rintro (h | h)
    · have : w.length ≠ 0 := by
        intro h0
        rw [h0] at hge
        omega
      have e : w.length * b = (w.length - 1) * b + b := by
        conv_lhs => rw [show w.length = w.length - 1 + 1 by omega, Nat.add_mul, Nat.one_mul]
      omega
    · omega

/-- With letters of five bits the first of 13 letters is kept if it is at most 16. -/
example : (∃ k, concatenate .debug 31 ⟨12, 0⟩ ⟨1, 30⟩ = .ok k ∧ toLetters .debug 31 k = .ok (List.replicate 12 1 ++ [31]).reverse) ∧
    (∃ k, concatenate .debug 31 ⟨12, 16 * 2 ^ 55⟩ ⟨1, 30⟩ = .ok k ∧ toLetters .debug 31 k ≠ .ok (17 :: List.replicate 11 1 ++ [31]).reverse) := by
  constructor
  · obtain ⟨k, h1, h2, _⟩ := C51_debug_right_iff 31 5 (by omega) (by norm_num) (by norm_num) (by norm_num) (List.replicate 12 1) [31] ⟨12, 0⟩ ⟨1, 30⟩
      (by decide) (by decide) (by decide +kernel) (by decide +kernel) (by decide +kernel) (by decide +kernel)
    exact ⟨k, h1, h2.2 (.inr ⟨by decide, by decide⟩)⟩
  · obtain ⟨k, h1, h2, _⟩ := C51_debug_right_iff 31 5 (by omega) (by norm_num) (by norm_num) (by norm_num) (17 :: List.replicate 11 1) [31]
      ⟨12, 16 * 2 ^ 55⟩ ⟨1, 30⟩ (by decide) (by decide) (by decide +kernel) (by decide +kernel) (by decide +kernel) (by decide +kernel)
    exact ⟨k, h1, fun h => by rcases h2.1 h with h | ⟨_, h⟩ <;> revert h <;> decide⟩

/-! ## Release builds -/

theorem getLetter_release_any {N b : Nat} (hbb : bitsPerLetter N = b) (hb : b ≤ 32) (k : TensorKey) (hd : k.data < 2 ^ 64) (i : Nat)
    (hi : i * b < 2 ^ 32) : getLetter .release N k i = .ok ((k.data / 2 ^ (i * b % 64) % 2 ^ b + 1) % 2 ^ 32) := by
  have h1 : 1 ≤ 2 ^ b := Nat.one_le_two_pow
  have h2 : 1 * 2 ^ b < 2 ^ 64 := by rw [Nat.one_mul]; exact Nat.pow_lt_pow_right (by omega) (by omega)
  have hmask : makeMask .release b (i * b) = .ok (((2 ^ b - 1) <<< (i * b % 64)) % 2 ^ 64) := by
    unfold makeMask
    rw [shlW_ok' (by omega) h2, Res.bind_ok, Nat.one_mul, subW_ok h1, Res.bind_ok, shlW_release, Nat.shiftLeft_eq]
  have hshr : ∀ x, shrW .release 64 x (i * b) = .ok (x >>> (i * b % 64)) := by
    intro x
    unfold shrW
    split_ifs with h
    · rw [Nat.mod_eq_of_lt h]
    · rfl
  unfold getLetter getLetterUnadjusted
  rw [hbb, mulW_ok hi, Res.bind_ok, hmask, Res.bind_ok, Res.bind_ok, hshr, Res.bind_ok, Res.pure_eq, Res.bind_ok, mask_extract_mod _ _ _ hd, addW_release]
  have h3 : k.data / 2 ^ (i * b % 64) % 2 ^ b < 2 ^ b := Nat.mod_lt _ (Nat.two_pow_pos _)
  have h4 : 2 ^ b ≤ 2 ^ 32 := Nat.pow_le_pow_right (by omega) hb
  rw [Nat.mod_eq_of_lt (a := k.data / 2 ^ (i * b % 64) % 2 ^ b) (by omega)]

/-- C81, `to_letters` in release builds of any key at all: letter `i` is read from bit `i * b` modulo 64; bits past the 64th count as zeros. -/
theorem C81_to_letters_any (N b : Nat) (hb0 : 1 ≤ b) (hb : 2 ^ (b - 1) ≤ N) (hb' : N < 2 ^ b) (hN : N < 2 ^ 32) (k : TensorKey) (hd : k.data < 2 ^ 64)
    (hs : k.size * b < 2 ^ 32) :
    toLetters .release N k = .ok ((List.range k.size).map fun i => (k.data / 2 ^ (i * b % 64) % 2 ^ b + 1) % 2 ^ 32) := by
  have := mapM_range_ok (f := getLetter .release N k) (l := (List.range k.size).map fun i => (k.data / 2 ^ (i * b % 64) % 2 ^ b + 1) % 2 ^ 32)
    (fun i hi => by
      rw [List.length_map, List.length_range] at hi
      rw [List.getElem_map, List.getElem_range]
      exact getLetter_release_any (bpl_eq hb0 hb hb') (b_le hb hN) k hd i
        (Nat.lt_of_le_of_lt (Nat.mul_le_mul_right b (Nat.le_of_lt hi)) hs))
  rwa [List.length_map, List.length_range] at this

example : toLetters .release 7 ⟨23, 5⟩ = .ok ([6, 1, 1, 1, 1, 1, 1, 1, 1, 1, 1, 1, 1, 1, 1, 1, 1, 1, 1, 1, 1, 1, 2]) := by
  rw [C81_to_letters_any 7 3 (by omega) (by norm_num) (by norm_num) (by norm_num) ⟨23, 5⟩ (by norm_num) (by norm_num)]
  decide +kernel

/-- C51, release builds: what is read back from a concatenation of any two words that fit.  Where the bits of a letter divide 64, the last `64 / b` letters
are repeated; the letters before them are lost. -/
theorem C51_release_repeats (N b m : Nat) (hb0 : 1 ≤ b) (hb : 2 ^ (b - 1) ≤ N) (hb' : N < 2 ^ b) (hN : N < 2 ^ 31) (hm : b * m = 64) (u v : List Nat)
    (ku kv : TensorKey) (hu : ValidWord N u) (hv : ValidWord N v) (hlu : u.length ≤ maxDepth N) (hlv : v.length ≤ maxDepth N)
    (hku : fromLetters .release N u = .ok ku) (hkv : fromLetters .release N v = .ok kv) :
    ∃ k l, concatenate .release N ku kv = .ok k ∧ toLetters .release N k = .ok l ∧ l.length = (u ++ v).length ∧
      ∀ i, i < (u ++ v).length → l[i]? = (u ++ v).reverse[i % m]? := by
  have h1 : 1 ≤ N := Nat.le_trans (Nat.two_pow_pos _) hb
  have hbb := bpl_eq hb0 hb hb'
  have hb31 : b ≤ 31 := by
    have : b - 1 < 31 := (Nat.pow_lt_pow_iff_right (by omega : 1 < 2)).1 (Nat.lt_of_le_of_lt hb hN)
    omega
  have hmd := maxDepth_le N
  have hs : v.length * b < 64 := by
    have h := sizeBits_bpl N h1 (by omega)
    rw [hbb] at h
    rcases h with h | h
    · exact Nat.lt_of_le_of_lt (Nat.mul_le_mul_right _ hlv) h
    · omega
  rw [fromLetters_ok .release N h1 (by omega) u hu hlu] at hku
  rw [fromLetters_ok .release N h1 (by omega) v hv hlv] at hkv
  cases hku; cases hkv
  have hlen : (u ++ v).length ≤ 128 := by rw [List.length_append]; omega
  have hbig : (u ++ v).length * b < 2 ^ 32 := by
    have := Nat.mul_le_mul hlen hb31
    omega
  refine ⟨_, _, concatenate_data .release hbb h1 u v hv hlu hlv hs,
    C81_to_letters_any N b hb0 hb hb' (by omega) ⟨(u ++ v).length, _⟩ (Nat.mod_lt _ (by omega)) hbig, by simp, ?_⟩
  have hw : ValidWord N (u ++ v) := ValidWord.append.2 ⟨hu, hv⟩
  generalize u ++ v = w at *
  intro i hi
  have hm0 : 0 < m := Nat.pos_of_ne_zero (by rintro rfl; omega)
  have hr : i % m < m := Nat.mod_lt _ hm0
  have hle : i % m ≤ i := Nat.mod_le _ _
  have hib : i * b % 64 = i % m * b := by rw [← hm, Nat.mul_comm, Nat.mul_mod_mul_left, Nat.mul_comm]
  have hfit : (i % m + 1) * b ≤ 64 := by
    rw [← hm, Nat.mul_comm]
    exact Nat.mul_le_mul_left _ hr
  rw [Nat.add_mul, Nat.one_mul] at hfit
  rw [List.getElem?_map, List.getElem?_range hi, List.getElem?_eq_getElem (by simp; omega), ← wordData_digit hb'.le hw (i % m) (by omega)]
  refine congrArg some ?_
  show (wordData b w % 2 ^ 64 / 2 ^ (i * b % 64) % 2 ^ b + 1) % 2 ^ 32 = _
  rw [hib, digit_mod _ _ _ (by omega), Nat.mod_mod_of_dvd _ (Nat.pow_dvd_pow 2 (by omega))]
  have h3 : wordData b w / 2 ^ (i % m * b) % 2 ^ b < 2 ^ b := Nat.mod_lt _ (Nat.two_pow_pos _)
  have h4 : 2 ^ b ≤ 2 ^ 31 := Nat.pow_le_pow_right (by omega) hb31
  exact Nat.mod_eq_of_lt (by omega)

/-- 17 letters of four bits: the first letter read back is the last one again. -/
example : ∃ k l, concatenate .release 15 ⟨14, 0⟩ ⟨3, 4 * 2 ^ 8 + 5 * 2 ^ 4 + 6⟩ = .ok k ∧ toLetters .release 15 k = .ok l ∧ l[16]? = some 7 := by
  obtain ⟨k, l, h1, h2, _, h3⟩ := C51_release_repeats 15 4 16 (by omega) (by norm_num) (by norm_num) (by norm_num) rfl (List.replicate 14 1) [5, 6, 7]
    ⟨14, 0⟩ ⟨3, 4 * 2 ^ 8 + 5 * 2 ^ 4 + 6⟩ (by decide) (by decide) (by decide +kernel) (by decide +kernel) (by decide +kernel) (by decide +kernel)
  exact ⟨k, l, h1, h2, (h3 16 (by decide)).trans (by decide)⟩

end RA
