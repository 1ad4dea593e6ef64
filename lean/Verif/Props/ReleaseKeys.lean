import Verif.Props.Keys
import Mathlib.Tactic.NormNum

/-!
# Keys in release builds: letters outside the alphabet and keys past `max_depth` (C81)

Debug builds stop at the first wrong letter (C01, C06).  Release builds check nothing but the length of the list given to `from_letters`; the theorems say
what keys they make.  `b` is the number of bits of a letter, the least with `N < 2 ^ b`.
-/

namespace RA
open Spec TensorKey

theorem bpl_eq {N b : Nat} (hb0 : 1 ≤ b) (hb : 2 ^ (b - 1) ≤ N) (hb' : N < 2 ^ b) : bitsPerLetter N = b := by
  have h1 : 1 ≤ N := Nat.le_trans (Nat.two_pow_pos _) hb
  have h := constLogn_spec N h1
  have e1 : constLogn N < b := (Nat.pow_lt_pow_iff_right (by omega : 1 < 2)).1 (Nat.lt_of_le_of_lt h.1 hb')
  have e2 : b - 1 < constLogn N + 1 := (Nat.pow_lt_pow_iff_right (by omega : 1 < 2)).1 (Nat.lt_of_le_of_lt hb h.2)
  unfold bitsPerLetter
  omega

theorem b_le {N b : Nat} (hb : 2 ^ (b - 1) ≤ N) (hN : N < 2 ^ 32) : b ≤ 32 := by
  have : b - 1 < 32 := (Nat.pow_lt_pow_iff_right (by omega : 1 < 2)).1 (Nat.lt_of_le_of_lt hb hN)
  omega

/-- The letter less one, as a `u32` that wraps. -/
def slot (l : Nat) : Nat := (l + (2 ^ 32 - 1)) % 2 ^ 32

theorem slot_lt (l : Nat) : slot l < 2 ^ 32 := Nat.mod_lt _ (by omega)

theorem slot_succ (l : Nat) (h : l < 2 ^ 32) : (slot l + 1) % 2 ^ 32 = l := by
  unfold slot
  omega

theorem slot_inj {l s : Nat} (hs : s < 2 ^ 32) (h : (s + 1) % 2 ^ 32 = l) : slot l = s := by
  unfold slot
  omega

theorem slot_lt_iff {l b : Nat} (hb : b ≤ 32) (hl : l < 2 ^ 32) : slot l < 2 ^ b ↔ (1 ≤ l ∧ l ≤ 2 ^ b) ∨ b = 32 := by
  rcases Nat.lt_or_ge b 32 with h | h
  · have : 2 ^ b ≤ 2 ^ 31 := Nat.pow_le_pow_right (by omega) (by omega)
    unfold slot
    omega
  · obtain rfl : b = 32 := by omega
    exact ⟨fun _ => .inr rfl, fun _ => slot_lt l⟩

theorem subW_slot (l : Nat) (hl : l < 2 ^ 32) : subW .release 32 l 1 = .ok (slot l) := by
  unfold subW slot
  split
  · exact congrArg Res.ok (by omega)
  · exact congrArg Res.ok (by omega)

theorem addW_release (w a b : Nat) : addW .release w a b = .ok ((a + b) % 2 ^ w) := by
  unfold addW fitW
  split
  · rw [Nat.mod_eq_of_lt ‹_›]
  · rfl

theorem mulW_release (w a b : Nat) : mulW .release w a b = .ok ((a * b) % 2 ^ w) := by
  unfold mulW fitW
  split
  · rw [Nat.mod_eq_of_lt ‹_›]
  · rfl

theorem shlW_release (w a s : Nat) : shlW .release w a s = .ok ((a * 2 ^ (s % w)) % 2 ^ w) := by
  unfold shlW
  rw [← Nat.shiftLeft_eq]
  split
  · rw [Nat.mod_eq_of_lt (b := w) ‹_›]
  · rfl

theorem fromLetters_release_fold {N b : Nat} (hbb : bitsPerLetter N = b) (hb : b ≤ 32) (w : List Nat) (hw : ∀ l ∈ w, l < 2 ^ 32) (x : Nat) :
    w.foldlM (fromLettersStep .release N) (x % 2 ^ 64) = .ok ((w.foldl (fun acc l => acc * 2 ^ b + slot l) x) % 2 ^ 64) := by
  induction w generalizing x with
  | nil => rfl
  | cons l w ih =>
    have hstep : fromLettersStep .release N (x % 2 ^ 64) l = .ok ((x * 2 ^ b + slot l) % 2 ^ 64) := by
      unfold fromLettersStep
      rw [show debugAssert .release (decide (1 ≤ l ∧ l ≤ N)) = .ok () from rfl, Res.bind_ok, hbb, shlW_release, Res.bind_ok, subW_slot l (hw l List.mem_cons_self),
        Res.bind_ok, addW_release, Nat.mod_eq_of_lt (by omega : b < 64)]
      refine congrArg Res.ok ?_
      rw [Nat.mod_add_mod, Nat.add_mod, Nat.mod_mul_mod, ← Nat.add_mod]
    rw [List.foldlM_cons, hstep, Res.bind_ok, List.foldl_cons]
    exact ih (fun a ha => hw a (List.mem_cons_of_mem _ ha)) _

/-- C81, `from_letters` in release builds: any list of `u32`s that is not too long is accepted.  Each letter less one, wrapping, is added to the data shifted
by the number of bits of a letter; what passes 64 bits is lost. -/
theorem C81_from_letters (N b : Nat) (hb0 : 1 ≤ b) (hb : 2 ^ (b - 1) ≤ N) (hb' : N < 2 ^ b) (hN : N < 2 ^ 32) (w : List Nat) (hw : ∀ l ∈ w, l < 2 ^ 32)
    (hl : w.length ≤ maxDepth N) :
    fromLetters .release N w = .ok ⟨w.length, (w.foldl (fun acc l => acc * 2 ^ b + (l + (2 ^ 32 - 1)) % 2 ^ 32) 0) % 2 ^ 64⟩ := by
  have hm := maxDepth_le N
  have h := fromLetters_release_fold (bpl_eq hb0 hb hb') (b_le hb hN) w hw 0
  unfold fromLetters
  rw [if_neg (by omega), show (0 : Nat) = 0 % 2 ^ 64 from rfl, h, Res.bind_ok, Nat.mod_eq_of_lt (by omega : w.length < 2 ^ 32)]
  rfl

/-- Letter 4 over three letters takes the spare slot; 5 carries into the letter before; 0 fills 32 bits. -/
example : fromLetters .release 3 [4] = .ok ⟨1, 3⟩ ∧ fromLetters .release 3 [1, 5] = fromLetters .release 3 [2, 1] ∧
    fromLetters .release 3 [0] = .ok ⟨1, 4294967295⟩ := by
  have h := fun w hw hl => C81_from_letters 3 2 (by omega) (by norm_num) (by norm_num) (by norm_num) w hw hl
  refine ⟨?_, ?_, ?_⟩
  · rw [h [4] (by simp) (by decide +kernel)]; rfl
  · rw [h [1, 5] (by simp) (by decide +kernel), h [2, 1] (by simp) (by decide +kernel)]; rfl
  · rw [h [0] (by simp) (by decide +kernel)]; rfl

theorem getLetter_release {N b : Nat} (hbb : bitsPerLetter N = b) (hb : b ≤ 32) (hb0 : 1 ≤ b) (k : TensorKey) (i : Nat) (hi : (i + 1) * b ≤ 64) :
    getLetter .release N k i = .ok ((k.data / 2 ^ (i * b) % 2 ^ b + 1) % 2 ^ 32) := by
  rw [Nat.add_mul, Nat.one_mul] at hi
  unfold getLetter getLetterUnadjusted
  rw [hbb, mulW_ok (by omega), Res.bind_ok, makeMask_ok _ _ _ (by omega) (by omega) (by omega), Res.bind_ok, Res.bind_ok, shrW_ok (by omega), Res.bind_ok,
    Res.pure_eq, Res.bind_ok, mask_extract]
  have h1 : k.data / 2 ^ (i * b) % 2 ^ b < 2 ^ b := Nat.mod_lt _ (Nat.two_pow_pos _)
  have h2 : 2 ^ b ≤ 2 ^ 32 := Nat.pow_le_pow_right (by omega) hb
  rw [Nat.mod_eq_of_lt (by omega), addW_release]

theorem toLetters_release {N b : Nat} (hbb : bitsPerLetter N = b) (hb : b ≤ 32) (hb0 : 1 ≤ b) (k : TensorKey) (hs : k.size * b ≤ 64) :
    toLetters .release N k = .ok ((List.range k.size).map fun i => (k.data / 2 ^ (i * b) % 2 ^ b + 1) % 2 ^ 32) := by
  have := mapM_range_ok (f := getLetter .release N k) (l := (List.range k.size).map fun i => (k.data / 2 ^ (i * b) % 2 ^ b + 1) % 2 ^ 32)
    (fun i hi => by
      rw [List.length_map, List.length_range] at hi
      rw [List.getElem_map, List.getElem_range]
      exact getLetter_release hbb hb hb0 k i (Nat.le_trans (Nat.mul_le_mul_right _ (by omega)) hs))
  rwa [List.length_map, List.length_range] at this

/-- C81, `to_letters` in release builds of any key that fits in 64 bits, made from letters or not: the digits of the data in base `2 ^ b`, lowest first, each
plus one. -/
theorem C81_to_letters (N b : Nat) (hb0 : 1 ≤ b) (hb : 2 ^ (b - 1) ≤ N) (hb' : N < 2 ^ b) (hN : N < 2 ^ 32) (k : TensorKey) (hs : k.size * b ≤ 64) :
    toLetters .release N k = .ok ((List.range k.size).map fun i => (k.data / 2 ^ (i * b) % 2 ^ b + 1) % 2 ^ 32) :=
  toLetters_release (bpl_eq hb0 hb hb') (b_le hb hN) hb0 k hs

example : toLetters .release 3 ⟨2, 4294967295⟩ = .ok [4, 4] := by
  rw [C81_to_letters 3 2 (by omega) (by norm_num) (by norm_num) (by norm_num) ⟨2, 4294967295⟩ (by norm_num)]; rfl

theorem slots_foldl (b : Nat) (w : List Nat) : w.foldl (fun acc l => acc * 2 ^ b + slot l) 0 = wordData b (w.map fun l => slot l + 1) := by
  unfold wordData
  rw [List.foldl_map]
  simp only [Nat.add_sub_cancel]

/-- C81, exactly which words survive a release build: `to_letters` gives back the list (reversed, C04) if and only if every letter is between 1 and `2 ^ b`,
or letters have 32 bits. -/
theorem C81_round_trip_iff (N b : Nat) (hb0 : 1 ≤ b) (hb : 2 ^ (b - 1) ≤ N) (hb' : N < 2 ^ b) (hN : N < 2 ^ 32) (w : List Nat) (hw : ∀ l ∈ w, l < 2 ^ 32)
    (hl : w.length ≤ maxDepth N) :
    (do let k ← fromLetters .release N w; toLetters .release N k) = .ok w.reverse ↔ ∀ l ∈ w, (1 ≤ l ∧ l ≤ 2 ^ b) ∨ b = 32 := by
  have hbb := bpl_eq hb0 hb hb'
  have hb32 := b_le hb hN
  have hmul : w.length * b ≤ 64 := by have := len_mul_le hl; rwa [hbb] at this
  have h2 : 2 ^ b ≤ 2 ^ 32 := Nat.pow_le_pow_right (by omega) hb32
  have hf := C81_from_letters N b hb0 hb hb' hN w hw hl
  rw [hf, Res.bind_ok, toLetters_release hbb hb32 hb0 _ hmul]
  constructor
  · intro h l hlm
    rw [← slot_lt_iff hb32 (hw l hlm)]
    have hm : l ∈ w.reverse := List.mem_reverse.2 hlm
    rw [← Res.ok.inj h, List.mem_map] at hm
    obtain ⟨i, _, hi⟩ := hm
    have hlt : ∀ d : Nat, d / 2 ^ (i * b) % 2 ^ b < 2 ^ b := fun d => Nat.mod_lt _ (Nat.two_pow_pos _)
    rw [slot_inj (Nat.lt_of_lt_of_le (hlt _) h2) hi]
    exact hlt _
  · intro h
    have hv : ValidWord (2 ^ b) (w.map fun l => slot l + 1) := by
      intro l hlm
      rw [List.mem_map] at hlm
      obtain ⟨a, ha, rfl⟩ := hlm
      have := (slot_lt_iff hb32 (hw a ha)).2 (h a ha)
      omega
    have hlt : wordData b (w.map fun l => slot l + 1) < 2 ^ 64 := by
      have h1 := wordData_lt (Nat.le_refl (2 ^ b)) hv
      rw [List.length_map] at h1
      exact Nat.lt_of_lt_of_le h1 (Nat.pow_le_pow_right (by omega) hmul)
    congr 1
    apply List.ext_getElem (by simp)
    intro i h1 h2'
    rw [List.getElem_map, List.getElem_range]
    show (w.foldl (fun acc l => acc * 2 ^ b + slot l) 0 % 2 ^ 64 / 2 ^ (i * b) % 2 ^ b + 1) % 2 ^ 32 = _
    have hi : i < w.length := by simpa using h1
    rw [slots_foldl, Nat.mod_eq_of_lt hlt, wordData_digit (Nat.le_refl (2 ^ b)) hv i (by simpa using hi)]
    rw [List.getElem_reverse, List.getElem_map, slot_succ _ (hw _ (List.getElem_mem _)), List.getElem_reverse]
    simp

/-- Over three letters, 4 comes back as 4, and 5 does not come back. -/
example : (do let k ← fromLetters .release 3 [1, 4]; toLetters .release 3 k) = .ok [4, 1] ∧ (do let k ← fromLetters .release 3 [1, 5]; toLetters .release 3 k) ≠ .ok [5, 1] := by
  have h := fun w hw hl => C81_round_trip_iff 3 2 (by omega) (by norm_num) (by norm_num) (by norm_num) w hw hl
  refine ⟨(h [1, 4] (by simp) (by decide +kernel)).2 (by simp), fun h' => ?_⟩
  have := (h [1, 5] (by simp) (by decide +kernel)).1 h' 5 (by simp)
  omega

/-- C81, `push_front` in release builds: any letter and any key are accepted; the low `b` bits of the letter less one, wrapping, are added at the bit
`size * b`, itself reduced modulo 64. -/
theorem C81_push_front (N b : Nat) (hb0 : 1 ≤ b) (hb : 2 ^ (b - 1) ≤ N) (hb' : N < 2 ^ b) (hN : N < 2 ^ 32) (k : TensorKey) (l : Nat) (hl : l < 2 ^ 32) :
    pushFront .release N k l =
      .ok ⟨(k.size + 1) % 2 ^ 32, (k.data + (l + (2 ^ 32 - 1)) % 2 ^ 32 % 2 ^ b * 2 ^ (k.size * b % 2 ^ 32 % 64)) % 2 ^ 64⟩ := by
  have hb32 := b_le hb hN
  unfold pushFront pushFrontRaw letterMask
  rw [show debugAssert .release (decide (k.size < maxDepth N)) = .ok () from rfl, Res.bind_ok,
    show debugAssert .release (decide (1 ≤ l ∧ l ≤ N)) = .ok () from rfl, Res.bind_ok, subW_slot l hl, Res.bind_ok, bpl_eq hb0 hb hb',
    makeMask_ok _ _ _ (by omega) (by omega) (by omega), Res.bind_ok, mulW_release, Res.bind_ok, shlW_release, Res.bind_ok, addW_release, Res.bind_ok,
    addW_release, Res.bind_ok, Res.pure_eq, Nat.shiftLeft_zero, Nat.and_two_pow_sub_one_eq_mod, Nat.add_mod_mod]
  rfl

/-- Four letters of 16 bits fill a key; the fifth is added to the letter at the other end. -/
example : pushFront .release 40000 ⟨4, 7⟩ 12 = .ok ⟨5, 18⟩ := by
  rw [C81_push_front 40000 16 (by omega) (by norm_num) (by norm_num) (by norm_num) ⟨4, 7⟩ 12 (by norm_num)]; rfl

/-- C81, `push_front` in release builds while the letters fit in 64 bits, which is up to two letters past `max_depth` and more: the letters of the result are those of
the key and the new one, if and only if the new one is between 1 and `2 ^ b`, or letters have 32 bits. -/
theorem C81_push_front_iff (N b : Nat) (hb0 : 1 ≤ b) (hb : 2 ^ (b - 1) ≤ N) (hb' : N < 2 ^ b) (hN : N < 2 ^ 32) (k : TensorKey) (hk : k.data < 2 ^ (k.size * b))
    (hs : (k.size + 1) * b ≤ 64) (l : Nat) (hl : l < 2 ^ 32) :
    (do let k' ← pushFront .release N k l; toLetters .release N k') = (do let u ← toLetters .release N k; .ok (u ++ [l])) ↔ (1 ≤ l ∧ l ≤ 2 ^ b) ∨ b = 32 := by
  have hbb := bpl_eq hb0 hb hb'
  have hb32 := b_le hb hN
  have hs' : k.size * b + b ≤ 64 := by rwa [Nat.add_mul, Nat.one_mul] at hs
  have hsz : k.size ≤ k.size * b := Nat.le_mul_of_pos_right _ hb0
  have h2 : 2 ^ b ≤ 2 ^ 32 := Nat.pow_le_pow_right (by omega) hb32
  have hc : slot l % 2 ^ b < 2 ^ b := Nat.mod_lt _ (Nat.two_pow_pos _)
  have hlt : k.data + slot l % 2 ^ b * 2 ^ (k.size * b) < 2 ^ 64 := by
    have h3 : (slot l % 2 ^ b + 1) * 2 ^ (k.size * b) ≤ 2 ^ b * 2 ^ (k.size * b) := Nat.mul_le_mul_right _ hc
    rw [← Nat.pow_add] at h3
    have h4 : 2 ^ (b + k.size * b) ≤ 2 ^ 64 := Nat.pow_le_pow_right (by omega) (by omega)
    rw [Nat.add_mul, Nat.one_mul] at h3
    omega
  have hp := C81_push_front N b hb0 hb hb' hN k l hl
  rw [Nat.mod_eq_of_lt (by omega : k.size + 1 < 2 ^ 32), Nat.mod_eq_of_lt (by omega : k.size * b < 2 ^ 32), Nat.mod_eq_of_lt (by omega : k.size * b < 64)] at hp
  change pushFront .release N k l = .ok ⟨k.size + 1, (k.data + slot l % 2 ^ b * 2 ^ (k.size * b)) % 2 ^ 64⟩ at hp
  rw [Nat.mod_eq_of_lt hlt] at hp
  rw [hp, Res.bind_ok, toLetters_release hbb hb32 hb0 _ hs, toLetters_release hbb hb32 hb0 k (by omega), Res.bind_ok, List.range_succ, List.map_append,
    ← slot_lt_iff hb32 hl]
  have hlow : (List.range k.size).map (fun i => ((k.data + slot l % 2 ^ b * 2 ^ (k.size * b)) / 2 ^ (i * b) % 2 ^ b + 1) % 2 ^ 32) =
      (List.range k.size).map fun i => (k.data / 2 ^ (i * b) % 2 ^ b + 1) % 2 ^ 32 := by
    apply List.map_congr_left
    intro i hi
    rw [List.mem_range] at hi
    obtain ⟨c, hcc⟩ : ∃ c, k.size = i + 1 + c := ⟨k.size - (i + 1), by omega⟩
    have e : slot l % 2 ^ b * 2 ^ (k.size * b) = 2 ^ (i * b) * (2 ^ b * (slot l % 2 ^ b * 2 ^ (c * b))) := by
      rw [hcc, Nat.add_mul, Nat.add_mul, Nat.one_mul, Nat.pow_add, Nat.pow_add]
      generalize slot l % 2 ^ b = x
      ac_rfl
    rw [e, Nat.add_mul_div_left _ _ (Nat.two_pow_pos _), Nat.add_mul_mod_self_left]
  have htop : (k.data + slot l % 2 ^ b * 2 ^ (k.size * b)) / 2 ^ (k.size * b) % 2 ^ b = slot l % 2 ^ b := by
    rw [Nat.add_mul_div_right _ _ (Nat.two_pow_pos _), Nat.div_eq_of_lt hk, Nat.zero_add, Nat.mod_mod]
  show Res.ok _ = Res.ok _ ↔ _
  rw [hlow, List.map_singleton, htop, Res.ok.injEq, List.append_cancel_left_eq]
  constructor
  · intro h
    have h5 : (slot l % 2 ^ b + 1) % 2 ^ 32 = l := by simpa using h
    rw [slot_inj (Nat.lt_of_lt_of_le hc h2) h5]
    exact hc
  · intro h
    rw [Nat.mod_eq_of_lt h, slot_succ l hl]

/-- `max_depth` is 30 over three letters; a 31st letter is still kept. -/
example : maxDepth 3 = 30 ∧ (do let k' ← pushFront .release 3 ⟨30, 0⟩ 2; toLetters .release 3 k') = (do let u ← toLetters .release 3 ⟨30, 0⟩; .ok (u ++ [2])) :=
  ⟨by decide +kernel, (C81_push_front_iff 3 2 (by omega) (by norm_num) (by norm_num) (by norm_num) ⟨30, 0⟩ (by norm_num) (by norm_num) 2 (by norm_num)).2 (by omega)⟩

end RA
