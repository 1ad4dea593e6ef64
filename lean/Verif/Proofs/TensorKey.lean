import Verif.Model.TensorKey
import Verif.Spec

namespace RA
open Spec

/-! ## `const_logn` -/

theorem constLogn_lt (n : Nat) (h : n < 2) : constLogn n = 0 := by
  rw [constLogn]; simp [h]

theorem constLogn_ge (n : Nat) (h : 2 ≤ n) : constLogn n = constLogn (n / 2) + 1 := by
  rw [constLogn]; simp; omega

theorem constLogn_spec (n : Nat) (h : 1 ≤ n) : 2 ^ constLogn n ≤ n ∧ n < 2 ^ (constLogn n + 1) := by
  induction n using Nat.strongRecOn with
  | ind n ih =>
    by_cases h2 : n < 2
    · have : n = 1 := by omega
      subst this
      simp [constLogn_lt]
    · have := ih (n / 2) (by omega) (by omega)
      rw [constLogn_ge n (by omega)]
      have e1 : 2 ^ (constLogn (n / 2) + 1) = 2 * 2 ^ constLogn (n / 2) := by rw [Nat.pow_succ]; omega
      have e2 : 2 ^ (constLogn (n / 2) + 1 + 1) = 2 * 2 ^ (constLogn (n / 2) + 1) := by
        rw [Nat.pow_succ]; omega
      omega

theorem constLogn_mono {m n : Nat} (h : m ≤ n) : constLogn m ≤ constLogn n := by
  by_cases hm : m = 0
  · subst hm; simp [constLogn_lt]
  · have h1 := constLogn_spec m (by omega)
    have h2 := constLogn_spec n (by omega)
    have : 2 ^ constLogn m < 2 ^ (constLogn n + 1) := by omega
    have := (Nat.pow_lt_pow_iff_right (a := 2) (by omega)).1 this
    omega

theorem constLogn_lt_of_lt {n k : Nat} (h1 : 1 ≤ n) (h : n < 2 ^ k) : constLogn n < k := by
  have h2 := constLogn_spec n h1
  have : 2 ^ constLogn n < 2 ^ k := by omega
  exact (Nat.pow_lt_pow_iff_right (a := 2) (by omega)).1 this

namespace TensorKey

/-! ## Packing parameters -/

theorem bpl_pos (N : Nat) : 1 ≤ bitsPerLetter N := by simp [bitsPerLetter]

theorem bpl_le (N : Nat) (h1 : 1 ≤ N) (hN : N < 2 ^ 32) : bitsPerLetter N ≤ 32 := by
  have := constLogn_lt_of_lt h1 hN
  simp [bitsPerLetter]; omega

theorem lt_two_pow_bpl (N : Nat) (h1 : 1 ≤ N) : N < 2 ^ bitsPerLetter N := (constLogn_spec N h1).2

theorem two_pow_bpl_le (N : Nat) (h1 : 1 ≤ N) : 2 ^ bitsPerLetter N ≤ 2 * N := by
  have := (constLogn_spec N h1).1
  simp [bitsPerLetter, Nat.pow_succ]; omega

theorem maxDepth_mul_le (N : Nat) : maxDepth N * bitsPerLetter N ≤ 64 := by
  have := Nat.div_mul_le_self (64 - sizeBits N) (bitsPerLetter N)
  unfold maxDepth; omega

theorem maxDepth_le (N : Nat) : maxDepth N ≤ 64 := by
  have := maxDepth_mul_le N
  have h := bpl_pos N
  calc maxDepth N ≤ maxDepth N * bitsPerLetter N := Nat.le_mul_of_pos_right _ h
    _ ≤ 64 := this

/-- `b` bits at offset `s` of `d`, extracted the way `get_letter_unadjusted` does. -/
theorem mask_extract (d b s : Nat) : (d &&& ((2 ^ b - 1) <<< s)) >>> s = (d / 2 ^ s) % 2 ^ b := by
  rw [Nat.shiftRight_and_distrib, Nat.shiftLeft_shiftRight, Nat.and_two_pow_sub_one_eq_mod,
    Nat.shiftRight_eq_div_pow]

theorem makeMask_ok (p : Profile) (b s : Nat) (hb : b < 64) (hs : s < 64) (h : b + s ≤ 64) :
    makeMask p b s = .ok ((2 ^ b - 1) <<< s) := by
  have h1 : 1 ≤ 2 ^ b := Nat.one_le_two_pow
  have h2 : 1 * 2 ^ b < 2 ^ 64 := by rw [Nat.one_mul]; exact Nat.pow_lt_pow_right (by omega) hb
  unfold makeMask
  rw [shlW_ok' hb h2]
  simp only [Res.bind_ok, Nat.one_mul]
  rw [subW_ok h1]
  simp only [Res.bind_ok]
  rw [shlW_ok hs]
  congr 1
  apply Nat.mod_eq_of_lt
  rw [Nat.shiftLeft_eq]
  calc (2 ^ b - 1) * 2 ^ s < 2 ^ b * 2 ^ s := Nat.mul_lt_mul_of_pos_right (by omega) (Nat.two_pow_pos s)
    _ = 2 ^ (b + s) := (Nat.pow_add ..).symm
    _ ≤ 2 ^ 64 := Nat.pow_le_pow_right (by omega) h

/-! ## The representation -/

/-- Base-`2^b` numeral of a word (letters shifted down by one), first letter most significant. -/
def wordData (b : Nat) (w : List Nat) : Nat := w.foldl (fun acc l => acc * 2 ^ b + (l - 1)) 0

theorem wordData_foldl (b : Nat) (w : List Nat) (a : Nat) :
    w.foldl (fun acc l => acc * 2 ^ b + (l - 1)) a = a * 2 ^ (w.length * b) + wordData b w := by
  induction w generalizing a with
  | nil => simp [wordData]
  | cons l w ih =>
    simp only [wordData, List.foldl_cons, List.length_cons, Nat.zero_mul, Nat.zero_add]
    rw [ih, ih (l - 1), Nat.add_mul, Nat.add_mul, Nat.one_mul, Nat.add_comm (w.length * b) b, Nat.pow_add,
      Nat.mul_assoc]
    omega

@[simp] theorem wordData_nil (b : Nat) : wordData b [] = 0 := rfl

theorem wordData_cons (b l : Nat) (w : List Nat) :
    wordData b (l :: w) = (l - 1) * 2 ^ (w.length * b) + wordData b w := by
  have := wordData_foldl b w (l - 1)
  simpa [wordData] using this

theorem wordData_append (b : Nat) (u v : List Nat) :
    wordData b (u ++ v) = wordData b u * 2 ^ (v.length * b) + wordData b v := by
  have := wordData_foldl b v (wordData b u)
  simpa [wordData, List.foldl_append] using this

theorem wordData_snoc (b l : Nat) (w : List Nat) :
    wordData b (w ++ [l]) = wordData b w * 2 ^ b + (l - 1) := by
  simp [wordData_append, wordData_cons]

theorem ValidWord.cons {N l : Nat} {w : List Nat} :
    ValidWord N (l :: w) ↔ (1 ≤ l ∧ l ≤ N) ∧ ValidWord N w := by
  simp [ValidWord]

theorem ValidWord.append {N : Nat} {u v : List Nat} :
    ValidWord N (u ++ v) ↔ ValidWord N u ∧ ValidWord N v := by
  simp only [ValidWord, List.mem_append]
  constructor
  · intro h; exact ⟨fun l hl => h l (.inl hl), fun l hl => h l (.inr hl)⟩
  · rintro ⟨h1, h2⟩ l (hl | hl)
    · exact h1 l hl
    · exact h2 l hl

theorem wordData_lt {N b : Nat} (hb : N ≤ 2 ^ b) {w : List Nat} (hw : ValidWord N w) :
    wordData b w < 2 ^ (w.length * b) := by
  induction w with
  | nil => simp
  | cons l w ih =>
    rw [ValidWord.cons] at hw
    have := ih hw.2
    rw [wordData_cons, List.length_cons, Nat.add_mul, Nat.one_mul, Nat.add_comm (w.length * b) b, Nat.pow_add]
    have h3 : (l - 1 + 1) * 2 ^ (w.length * b) ≤ 2 ^ b * 2 ^ (w.length * b) :=
      Nat.mul_le_mul_right _ (by omega)
    rw [Nat.add_mul, Nat.one_mul] at h3
    omega

/-- The key of a word. -/
def keyOf (N : Nat) (w : List Nat) : TensorKey := ⟨w.length, wordData (bitsPerLetter N) w⟩

theorem len_mul_le {N : Nat} {w : List Nat} (hl : w.length ≤ maxDepth N) : w.length * bitsPerLetter N ≤ 64 :=
  Nat.le_trans (Nat.mul_le_mul_right _ hl) (maxDepth_mul_le N)

theorem wordData_lt64 {N : Nat} (h1 : 1 ≤ N) {w : List Nat} (hw : ValidWord N w) (hl : w.length ≤ maxDepth N) :
    wordData (bitsPerLetter N) w < 2 ^ 64 :=
  Nat.lt_of_lt_of_le (wordData_lt (Nat.le_of_lt (lt_two_pow_bpl N h1)) hw)
    (Nat.pow_le_pow_right (by omega) (len_mul_le hl))

theorem fromLetters_fold (p : Profile) (N : Nat) (h1 : 1 ≤ N) (hN : N < 2 ^ 32) (w v : List Nat)
    (hw : ValidWord N (v ++ w)) (hl : (v ++ w).length ≤ maxDepth N) :
    w.foldlM (fromLettersStep p N) (wordData (bitsPerLetter N) v)
      = .ok (wordData (bitsPerLetter N) (v ++ w)) := by
  induction w generalizing v with
  | nil => simp [pure, List.foldlM]
  | cons l w ih =>
    have hb := bpl_le N h1 hN
    have hw' : ValidWord N ((v ++ [l]) ++ w) := by simpa using hw
    have hl' : ((v ++ [l]) ++ w).length ≤ maxDepth N := by simpa using hl
    have hv1 : ValidWord N (v ++ [l]) := (ValidWord.append.1 hw').1
    have hvl : (v ++ [l]).length ≤ maxDepth N := by simp at hl' ⊢; omega
    have hlt := wordData_lt64 h1 hv1 hvl
    rw [wordData_snoc] at hlt
    have hll : 1 ≤ l ∧ l ≤ N := (ValidWord.cons.1 (ValidWord.append.1 hv1).2).1
    rw [List.foldlM_cons]
    have hstep : fromLettersStep p N (wordData (bitsPerLetter N) v) l
        = .ok (wordData (bitsPerLetter N) (v ++ [l])) := by
      unfold fromLettersStep
      rw [decide_eq_true hll, debugAssert_true]
      simp only [Res.bind_ok]
      rw [shlW_ok' (by omega) (by omega)]
      simp only [Res.bind_ok]
      rw [subW_ok hll.1]
      simp only [Res.bind_ok]
      rw [addW_ok hlt, wordData_snoc]
    rw [hstep, Res.bind_ok, ih _ hw' hl']
    simp

theorem fromLetters_ok (p : Profile) (N : Nat) (h1 : 1 ≤ N) (hN : N < 2 ^ 32) (w : List Nat)
    (hw : ValidWord N w) (hl : w.length ≤ maxDepth N) : fromLetters p N w = .ok (keyOf N w) := by
  have := fromLetters_fold p N h1 hN w [] (by simpa using hw) (by simpa using hl)
  simp only [wordData_nil, List.nil_append] at this
  unfold fromLetters
  have hm := maxDepth_le N
  rw [if_neg (by omega), this]
  simp only [Res.bind_ok, Res.pure_eq, keyOf]
  rw [Nat.mod_eq_of_lt (by omega)]

theorem wordData_digit {N b : Nat} (hb : N ≤ 2 ^ b) {w : List Nat} (hw : ValidWord N w) (i : Nat)
    (hi : i < w.length) : wordData b w / 2 ^ (i * b) % 2 ^ b + 1 = w.reverse[i]'(by simpa) := by
  induction w with
  | nil => simp at hi
  | cons l w ih =>
    rw [ValidWord.cons] at hw
    rw [wordData_cons]
    by_cases hlt : i < w.length
    · rw [List.getElem_of_eq (List.reverse_cons) (by simpa), List.getElem_append_left (by simpa), ← ih hw.2 hlt]
      congr 1
      obtain ⟨c, hc⟩ : ∃ c, w.length = i + 1 + c := ⟨w.length - (i + 1), by omega⟩
      have e : (l - 1) * 2 ^ (w.length * b) = 2 ^ (i * b) * (2 ^ b * ((l - 1) * 2 ^ (c * b))) := by
        rw [hc, Nat.add_mul, Nat.add_mul, Nat.one_mul, Nat.pow_add, Nat.pow_add]
        ac_rfl
      rw [e, Nat.mul_add_div (Nat.two_pow_pos _), Nat.mul_add_mod]
    · have hi' : i = w.length := by simp at hi; omega
      subst hi'
      rw [List.getElem_of_eq (List.reverse_cons) (by simp), List.getElem_append_right (by simp)]
      have hwd := wordData_lt hb hw.2
      rw [Nat.mul_comm, Nat.mul_add_div (Nat.two_pow_pos _), Nat.div_eq_of_lt hwd, Nat.add_zero]
      rw [Nat.mod_eq_of_lt (by omega)]
      simp; omega

theorem getLetter_keyOf (p : Profile) (N : Nat) (h1 : 1 ≤ N) (hN : N < 2 ^ 32) (w : List Nat)
    (hw : ValidWord N w) (hl : w.length ≤ maxDepth N) (i : Nat) (hi : i < w.length) :
    getLetter p N (keyOf N w) i = .ok (w.reverse[i]'(by simpa)) := by
  have hb := bpl_le N h1 hN
  have hb1 := bpl_pos N
  have hNb := lt_two_pow_bpl N h1
  have hil : (i + 1) * bitsPerLetter N ≤ 64 :=
    Nat.le_trans (Nat.mul_le_mul_right _ (by omega)) (maxDepth_mul_le N)
  rw [Nat.add_mul, Nat.one_mul] at hil
  have hdig := wordData_digit (Nat.le_of_lt hNb) hw i hi
  have hval : w.reverse[i]'(by simpa) ≤ N := (hw _ (List.mem_reverse.1 (List.getElem_mem _))).2
  unfold getLetter getLetterUnadjusted
  rw [mulW_ok (by omega)]
  simp only [Res.bind_ok]
  rw [makeMask_ok _ _ _ (by omega) (by omega) (by omega)]
  simp only [Res.bind_ok]
  rw [shrW_ok (by omega)]
  simp only [Res.bind_ok, Res.pure_eq, keyOf, mask_extract]
  have hlt : wordData (bitsPerLetter N) w / 2 ^ (i * bitsPerLetter N) % 2 ^ bitsPerLetter N < 2 ^ 32 := by omega
  rw [Nat.mod_eq_of_lt hlt, addW_ok (by omega), hdig]

theorem mapM_range_ok {f : Nat → Res Nat} {l : List Nat} (h : ∀ i (hi : i < l.length), f i = .ok l[i]) :
    (List.range l.length).mapM f = .ok l := by
  induction l generalizing f with
  | nil => simp
  | cons a l ih =>
    have h0 := h 0 (by simp)
    have hr := ih (f := fun i => f (i + 1)) (fun i hi => by have := h (i + 1) (by simpa using hi); rwa [List.getElem_cons_succ] at this)
    rw [List.length_cons, List.range_succ_eq_map, List.mapM_cons, h0]
    have : (List.map Nat.succ (List.range l.length)).mapM f = (List.range l.length).mapM (fun i => f (i + 1)) := by
      rw [List.mapM_map]; rfl
    rw [this, hr]
    simp

theorem toLetters_keyOf (p : Profile) (N : Nat) (h1 : 1 ≤ N) (hN : N < 2 ^ 32) (w : List Nat)
    (hw : ValidWord N w) (hl : w.length ≤ maxDepth N) : toLetters p N (keyOf N w) = .ok w.reverse := by
  unfold toLetters
  have : (keyOf N w).size = w.reverse.length := by simp [keyOf]
  rw [this]
  apply mapM_range_ok
  intro i hi
  exact getLetter_keyOf p N h1 hN w hw hl i (by simpa using hi)

theorem lettersCollect_keyOf (p : Profile) (N : Nat) (h1 : 1 ≤ N) (hN : N < 2 ^ 32) (w : List Nat)
    (hw : ValidWord N w) (hl : w.length ≤ maxDepth N) (fuel i : Nat) (hi : i ≤ w.length)
    (hf : w.length - i < fuel) : lettersCollect p N (keyOf N w) fuel i = .ok (w.drop i) := by
  induction fuel generalizing i with
  | zero => omega
  | succ fuel ih =>
    have hm := maxDepth_le N
    unfold lettersCollect lettersNext
    by_cases h : i = w.length
    · subst h; simp [keyOf]
    · rw [if_neg (by simpa [keyOf] using h)]
      rw [addW_ok (by omega)]
      simp only [Res.bind_ok]
      rw [subW_ok (show i + 1 ≤ (keyOf N w).size by simp only [keyOf]; omega)]
      simp only [Res.bind_ok]
      rw [getLetter_keyOf p N h1 hN w hw hl _ (by simp only [keyOf]; omega)]
      simp only [Res.bind_ok, Res.pure_eq]
      rw [ih (i + 1) (by omega) (by omega)]
      simp only [Res.bind_ok]
      have hlt : i < w.length := by omega
      rw [List.drop_eq_getElem_cons hlt, List.getElem_reverse]
      have e : w.length - 1 - ((keyOf N w).size - (i + 1)) = i := by simp only [keyOf]; omega
      simp only [e]

theorem wordData_inj {N b : Nat} (hb : N ≤ 2 ^ b) {u v : List Nat} (hu : ValidWord N u) (hv : ValidWord N v)
    (hl : u.length = v.length) (h : wordData b u = wordData b v) : u = v := by
  have : u.reverse = v.reverse := by
    apply List.ext_getElem (by simpa)
    intro i hi hi'
    rw [← wordData_digit hb hu i (by simpa using hi), ← wordData_digit hb hv i (by simpa using hi'), h]
  simpa using this

/-- In the debug profile `from_letters` accepts exactly the valid words of length at most `max_depth`. -/
theorem fromLetters_debug_iff (N : Nat) (h1 : 1 ≤ N) (hN : N < 2 ^ 32) (w : List Nat) (k : TensorKey) :
    fromLetters .debug N w = .ok k ↔ ValidWord N w ∧ w.length ≤ maxDepth N ∧ k = keyOf N w := by
  constructor
  · intro h
    have hl : w.length ≤ maxDepth N := by
      by_cases hc : w.length > maxDepth N
      · simp [fromLetters, hc] at h
      · omega
    have hw : ValidWord N w := by
      have : ∀ (w : List Nat) (a d : Nat), w.foldlM (fromLettersStep .debug N) a = .ok d → ValidWord N w := by
        intro w
        induction w with
        | nil => intros; simp [ValidWord]
        | cons l w ih =>
          intro a d h
          rw [List.foldlM_cons] at h
          by_cases hll : 1 ≤ l ∧ l ≤ N
          · cases hs : fromLettersStep .debug N a l with
            | ok x => rw [hs, Res.bind_ok] at h; exact ValidWord.cons.2 ⟨hll, ih _ _ h⟩
            | _ => rw [hs] at h; simp at h
          · simp [fromLettersStep, debugAssert, hll] at h
      unfold fromLetters at h
      rw [if_neg (by omega)] at h
      cases hf : w.foldlM (fromLettersStep .debug N) 0 with
      | ok d => exact this _ _ _ hf
      | _ => rw [hf] at h; simp at h
    rw [fromLetters_ok _ N h1 hN w hw hl] at h
    injection h with h
    exact ⟨hw, hl, h.symm⟩
  · rintro ⟨hw, hl, rfl⟩
    exact fromLetters_ok _ N h1 hN w hw hl

theorem concatenate_keyOf (p : Profile) (N : Nat) (h1 : 1 ≤ N) (u v : List Nat)
    (hu : ValidWord N u) (hv : ValidWord N v) (hl : (u ++ v).length ≤ maxDepth N)
    (hs : v.length * bitsPerLetter N < 64) :
    concatenate p N (keyOf N u) (keyOf N v) = .ok (keyOf N (u ++ v)) := by
  have hm := maxDepth_le N
  have hlt := wordData_lt64 h1 (ValidWord.append.2 ⟨hu, hv⟩) hl
  rw [wordData_append] at hlt
  simp at hl
  unfold concatenate
  simp only [keyOf]
  rw [addW_ok (by omega)]
  simp only [Res.bind_ok]
  rw [mulW_ok (by omega)]
  simp only [Res.bind_ok]
  rw [shlW_ok' hs (by omega)]
  simp only [Res.bind_ok]
  rw [addW_ok hlt]
  simp [wordData_append]

theorem pushFrontRaw_keyOf (p : Profile) (N : Nat) (h1 : 1 ≤ N) (hN : N < 2 ^ 32) (w : List Nat) (l : Nat)
    (hw : ValidWord N w) (hl : w.length < maxDepth N) (hll : l < N) :
    pushFrontRaw p N (keyOf N w) l = .ok (keyOf N ((l + 1) :: w)) := by
  have hb := bpl_le N h1 hN
  have hb1 := bpl_pos N
  have hNb := lt_two_pow_bpl N h1
  have hm := maxDepth_le N
  have hil : (w.length + 1) * bitsPerLetter N ≤ 64 :=
    Nat.le_trans (Nat.mul_le_mul_right _ (by omega)) (maxDepth_mul_le N)
  rw [Nat.add_mul, Nat.one_mul] at hil
  have hlt := wordData_lt64 (w := (l + 1) :: w) h1 (ValidWord.cons.2 ⟨by omega, hw⟩) (by simp; omega)
  rw [wordData_cons, Nat.add_sub_cancel] at hlt
  unfold pushFrontRaw letterMask
  rw [makeMask_ok _ _ _ (by omega) (by omega) (by omega)]
  simp only [Res.bind_ok, keyOf, Nat.shiftLeft_zero]
  rw [mulW_ok (by omega)]
  simp only [Res.bind_ok]
  rw [Nat.and_two_pow_sub_one_eq_mod, Nat.mod_eq_of_lt (by omega), shlW_ok' (by omega) (by omega)]
  simp only [Res.bind_ok]
  rw [addW_ok (by omega)]
  simp only [Res.bind_ok]
  rw [addW_ok (by omega)]
  simp [wordData_cons, Nat.add_comm]

theorem pushFront_keyOf (p : Profile) (N : Nat) (h1 : 1 ≤ N) (hN : N < 2 ^ 32) (w : List Nat) (l : Nat)
    (hw : ValidWord N w) (hl : w.length < maxDepth N) (hll : 1 ≤ l ∧ l ≤ N) :
    pushFront p N (keyOf N w) l = .ok (keyOf N (l :: w)) := by
  unfold pushFront
  rw [decide_eq_true (show (keyOf N w).size < maxDepth N from hl), decide_eq_true hll, debugAssert_true]
  simp only [Res.bind_ok]
  rw [subW_ok hll.1]
  simp only [Res.bind_ok]
  rw [pushFrontRaw_keyOf p N h1 hN w (l - 1) hw hl (by omega)]
  congr 2
  congr 1
  omega

theorem fromLetter_keyOf (p : Profile) (N l : Nat) (hl : 1 ≤ l) : fromLetter p l = .ok (keyOf N [l]) := by
  unfold fromLetter
  rw [subW_ok hl]
  simp [keyOf, wordData_cons]

theorem keyOf_nil (N : Nat) : keyOf N [] = new := rfl

/-- `max_depth` is at least 2. -/
theorem two_le_maxDepth (N : Nat) (h1 : 1 ≤ N) (hN : N < 2 ^ 32) : 2 ≤ maxDepth N := by
  have hb := bpl_le N h1 hN
  have hb1 := bpl_pos N
  have hcl : ∀ m, 1 ≤ m → m ≤ 32 → 2 ≤ (64 - constLogn (63 / m)) / m := by
    intro m hm1 hm
    have h1 : 1 ≤ 63 / m := by rw [Nat.le_div_iff_mul_le (by omega)]; omega
    rw [Nat.le_div_iff_mul_le (by omega)]
    by_cases h32 : m = 32
    · subst h32; rw [constLogn_lt _ (by decide)]; omega
    · by_cases h29 : m ≤ 29
      · have h6 : constLogn (63 / m) < 6 := constLogn_lt_of_lt h1
          (Nat.lt_of_le_of_lt (Nat.div_le_self 63 m) (by decide))
        omega
      · have h3 : 63 / m ≤ 63 / 30 := Nat.div_le_div_left (by omega) (by omega)
        have := constLogn_lt_of_lt (n := 63 / m) (k := 2) h1 (by omega)
        omega
  exact hcl _ hb1 hb

theorem sizeBits_bpl (N : Nat) (h1 : 1 ≤ N) (hN : N < 2 ^ 32) :
    maxDepth N * bitsPerLetter N < 64 ∨ bitsPerLetter N = 32 := by
  by_cases h : bitsPerLetter N = 32
  · exact .inr h
  · left
    have hb := bpl_le N h1 hN
    have hb1 := bpl_pos N
    have h2 : 2 ≤ 63 / bitsPerLetter N := by rw [Nat.le_div_iff_mul_le (by omega)]; omega
    have hs : 1 ≤ sizeBits N := by
      unfold sizeBits
      have : constLogn 2 ≤ constLogn ((64 - 1) / bitsPerLetter N) := constLogn_mono h2
      have e : constLogn 2 = 1 := by rw [constLogn_ge 2 (by omega), constLogn_lt _ (by decide)]
      omega
    have := Nat.div_mul_le_self (64 - sizeBits N) (bitsPerLetter N)
    unfold maxDepth; omega

end TensorKey
end RA
