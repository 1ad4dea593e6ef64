import Mathlib.Data.List.Induction
import Mathlib.Data.Nat.ModEq
import Verif.Props.Basis
import Verif.Props.Exact

/-!
# Iterating over the tensor basis, exactly (C07)

`Verif.Props.Basis` shows that `iter_keys()` is wrong for every alphabet with two or more letters.  Here one step of the iterator is described
completely: from which words it moves to the right successor, and from which it does not.  For most alphabets the iteration moreover never
reaches a word of length three, and never ends.
-/

namespace RA
open Spec TensorKey TensorBasis

/-! ## `get_letter` and `set_letter` on arbitrary data -/

theorem getLetter_raw (p : Profile) (N s d i : Nat) (h1 : 1 ≤ N) (hN : N < 2 ^ 32) (hi : i * bitsPerLetter N + bitsPerLetter N ≤ 64)
    (hv : d / 2 ^ (i * bitsPerLetter N) % 2 ^ bitsPerLetter N + 1 < 2 ^ 32) :
    getLetter p N ⟨s, d⟩ i = .ok (d / 2 ^ (i * bitsPerLetter N) % 2 ^ bitsPerLetter N + 1) := by
  have hb := bpl_le N h1 hN
  have hb1 := bpl_pos N
  unfold getLetter getLetterUnadjusted
  rw [mulW_ok (by omega)]
  simp only [Res.bind_ok]
  rw [makeMask_ok _ _ _ (by omega) (by omega) (by omega)]
  simp only [Res.bind_ok]
  rw [shrW_ok (by omega)]
  simp only [Res.bind_ok, Res.pure_eq, mask_extract]
  rw [Nat.mod_eq_of_lt (show d / 2 ^ (i * bitsPerLetter N) % 2 ^ bitsPerLetter N < 2 ^ 32 by omega), addW_ok hv]

/-- `set_letter` clears the `b` bits from bit `i` on and adds the new letter at bit `b * i`. -/
theorem setLetter_raw (p : Profile) (N s d i v : Nat) (h1 : 1 ≤ N) (hN : N < 2 ^ 32) (hi : i * bitsPerLetter N + bitsPerLetter N ≤ 64)
    (his : i < s) (hd : d < 2 ^ 64) (hv1 : 1 ≤ v) (hv : (v - 1) * 2 ^ (i * bitsPerLetter N) < 2 ^ 64) :
    setLetter p N ⟨s, d⟩ i v =
      (addW p 64 (d / 2 ^ (bitsPerLetter N + i) * 2 ^ (bitsPerLetter N + i) + d % 2 ^ i) ((v - 1) * 2 ^ (i * bitsPerLetter N))).bind
        fun d' => .ok ⟨s, d'⟩ := by
  have hb := bpl_le N h1 hN
  have hbp := bpl_pos N
  have h4 : i ≤ i * bitsPerLetter N := Nat.le_mul_of_pos_right _ (by omega)
  have e1 := clear_bits hd (show bitsPerLetter N + i ≤ 64 by omega)
  have e2 := split_bits d i (bitsPerLetter N)
  have e : d &&& notW 64 ((2 ^ bitsPerLetter N - 1) <<< i) = d / 2 ^ (bitsPerLetter N + i) * 2 ^ (bitsPerLetter N + i) + d % 2 ^ i := by
    rw [Nat.mul_comm, Nat.add_comm i] at e2
    omega
  unfold setLetter
  rw [if_neg (by simp; omega)]
  simp only
  rw [makeMask_ok p _ _ (by omega) (by omega) (by omega), Res.bind_ok, subW_ok hv1, Res.bind_ok,
    mulW_ok (by rw [Nat.mul_comm]; omega), Res.bind_ok, Nat.mul_comm (bitsPerLetter N) i, shlW_ok' (by omega) hv, Res.bind_ok, e]
  rfl

/-! ## One step of the iterator -/

/-- The data after `i` turns of the loop of `next`, all of which found the largest letter: everything below bit `b + i - 1` is cleared. -/
def cleared (b d i : Nat) : Nat := if i = 0 then d else d / 2 ^ (b + i - 1) * 2 ^ (b + i - 1)

theorem floor_div (d m c : Nat) : d / 2 ^ m * 2 ^ m / 2 ^ (m + c) = d / 2 ^ (m + c) := by
  rw [Nat.pow_add, ← Nat.div_div_eq_div_mul, Nat.mul_div_cancel _ (Nat.two_pow_pos m), Nat.div_div_eq_div_mul]

theorem cleared_le (b d i : Nat) : cleared b d i ≤ d := by
  unfold cleared
  split
  · exact Nat.le_refl _
  · exact Nat.div_mul_le_self _ _

theorem cleared_digit {b : Nat} (hb : 1 ≤ b) (d i : Nat) : cleared b d i / 2 ^ (i * b) = d / 2 ^ (i * b) := by
  unfold cleared
  split
  · rfl
  · obtain ⟨i, rfl⟩ : ∃ j, i = j + 1 := ⟨i - 1, by omega⟩
    have h : i ≤ i * b := Nat.le_mul_of_pos_right _ hb
    obtain ⟨c, hc⟩ : ∃ c, (i + 1) * b = (b + (i + 1) - 1) + c := ⟨(i + 1) * b - (b + i), by rw [Nat.add_mul]; omega⟩
    rw [hc]
    exact floor_div _ _ _

theorem cleared_step {b : Nat} (hb : 1 ≤ b) (d i : Nat) :
    cleared b d i / 2 ^ (b + i) * 2 ^ (b + i) + cleared b d i % 2 ^ i = d / 2 ^ (b + i) * 2 ^ (b + i) := by
  unfold cleared
  split
  · next h => subst h; simp [Nat.mod_one]
  · obtain ⟨i, rfl⟩ : ∃ j, i = j + 1 := ⟨i - 1, by omega⟩
    have e : b + (i + 1) = (b + (i + 1) - 1) + 1 := by omega
    have h1 : d / 2 ^ (b + (i + 1) - 1) * 2 ^ (b + (i + 1) - 1) / 2 ^ (b + (i + 1)) = d / 2 ^ (b + (i + 1)) := by
      conv_lhs => rw [show 2 ^ (b + (i + 1)) = 2 ^ ((b + (i + 1) - 1) + 1) by rw [← e]]
      rw [floor_div, ← e]
    have h2 : d / 2 ^ (b + (i + 1) - 1) * 2 ^ (b + (i + 1) - 1) % 2 ^ (i + 1) = 0 := by
      apply Nat.mod_eq_zero_of_dvd
      exact Nat.dvd_trans (Nat.pow_dvd_pow 2 (by omega)) (Nat.dvd_mul_left _ _)
    rw [h1, h2, Nat.add_zero]

/-- The first `j` turns of the loop, when the last `j` letters are all the largest one. -/
theorem advance_run (p : Profile) (N : Nat) (h1 : 1 ≤ N) (hN : N < 2 ^ 32) (u : List Nat) (j : Nat)
    (hw : ValidWord N (u ++ List.replicate j N)) (hl : (u ++ List.replicate j N).length ≤ maxDepth N) (i : Nat) (hij : i ≤ j) :
    advance p N (keyOf N (u ++ List.replicate j N)) =
      advanceLoop p N (maxDepth N) (u.length + j + 1 - i)
        ⟨u.length + j, cleared (bitsPerLetter N) (wordData (bitsPerLetter N) (u ++ List.replicate j N)) i⟩ i := by
  have hbp := bpl_pos N
  have hNb := lt_two_pow_bpl N h1
  have hm := maxDepth_le N
  have hd := wordData_lt64 h1 hw hl
  have hlen : (u ++ List.replicate j N).length = u.length + j := by simp
  induction i with
  | zero =>
    unfold advance keyOf
    simp only [hlen]
    rfl
  | succ i ih =>
    rw [ih (by omega)]
    have hdig := wordData_digit (Nat.le_of_lt hNb) hw i (by omega)
    have hrev : (u ++ List.replicate j N).reverse[i]'(by simp; omega) = N := by
      rw [List.getElem_reverse, List.getElem_append_right (by simp; omega), List.getElem_replicate]
    rw [hrev] at hdig
    have hi64 : (i + 1) * bitsPerLetter N ≤ 64 := Nat.le_trans (Nat.mul_le_mul_right _ (by omega)) (maxDepth_mul_le N)
    rw [Nat.add_mul, Nat.one_mul] at hi64
    generalize wordData (bitsPerLetter N) (u ++ List.replicate j N) = d at *
    have hcd : cleared (bitsPerLetter N) d i / 2 ^ (i * bitsPerLetter N) % 2 ^ bitsPerLetter N + 1 = N := by
      rw [cleared_digit hbp, hdig]
    rw [show u.length + j + 1 - i = (u.length + j + 1 - (i + 1)) + 1 by omega, advanceLoop, if_neg (by show ¬ i = u.length + j; omega),
      getLetter_raw p N _ _ _ h1 hN hi64 (by omega), Res.bind_ok, hcd, if_pos rfl,
      setLetter_raw p N _ _ _ _ h1 hN hi64 (by omega) (Nat.lt_of_le_of_lt (cleared_le _ _ _) hd) (by omega) (by simp),
      cleared_step hbp]
    have hle : d / 2 ^ (bitsPerLetter N + i) * 2 ^ (bitsPerLetter N + i) ≤ d := Nat.div_mul_le_self _ _
    rw [Nat.sub_self, Nat.zero_mul, addW_ok (by omega)]
    simp only [Nat.add_zero]
    rw [show (Res.ok (d / 2 ^ (bitsPerLetter N + i) * 2 ^ (bitsPerLetter N + i))).bind (fun d' => Res.ok (TensorKey.mk (u.length + j) d'))
      = .ok ⟨u.length + j, d / 2 ^ (bitsPerLetter N + i) * 2 ^ (bitsPerLetter N + i)⟩ from rfl, Res.bind_ok, addW_ok (by omega), Res.bind_ok]
    rfl

/-- The step from `u l N…N` with `l` below `N`. -/
theorem advance_carry (p : Profile) (N : Nat) (h1 : 1 ≤ N) (hN : N < 2 ^ 32) (u : List Nat) (l j : Nat)
    (hw : ValidWord N (u ++ l :: List.replicate j N)) (hl : (u ++ l :: List.replicate j N).length ≤ maxDepth N) (hlN : l < N) :
    advance p N (keyOf N (u ++ l :: List.replicate j N)) =
      (addW p 64 (wordData (bitsPerLetter N) (u ++ l :: List.replicate j N) / 2 ^ (bitsPerLetter N + j) * 2 ^ (bitsPerLetter N + j))
        (l * 2 ^ (j * bitsPerLetter N))).bind fun d' => .ok (some ⟨u.length + 1 + j, d'⟩) := by
  have hbp := bpl_pos N
  have hNb := lt_two_pow_bpl N h1
  have hm := maxDepth_le N
  have hd := wordData_lt64 h1 hw hl
  have e : u ++ l :: List.replicate j N = (u ++ [l]) ++ List.replicate j N := by simp
  have hlen : (u ++ l :: List.replicate j N).length = u.length + 1 + j := by simp; omega
  have hrun := advance_run p N h1 hN (u ++ [l]) j (e ▸ hw) (e ▸ hl) j (Nat.le_refl _)
  rw [← e] at hrun
  rw [hrun]
  have hdig := wordData_digit (Nat.le_of_lt hNb) hw j (by omega)
  have hrev : (u ++ l :: List.replicate j N).reverse[j]'(by simp) = l := by
    rw [List.getElem_reverse]
    simp
  rw [hrev] at hdig
  have hi64 : (j + 1) * bitsPerLetter N ≤ 64 := Nat.le_trans (Nat.mul_le_mul_right _ (by omega)) (maxDepth_mul_le N)
  rw [Nat.add_mul, Nat.one_mul] at hi64
  have hl64 : l * 2 ^ (j * bitsPerLetter N) < 2 ^ 64 := by
    calc l * 2 ^ (j * bitsPerLetter N) < 2 ^ bitsPerLetter N * 2 ^ (j * bitsPerLetter N) :=
          Nat.mul_lt_mul_of_pos_right (by omega) (Nat.two_pow_pos _)
      _ = 2 ^ (bitsPerLetter N + j * bitsPerLetter N) := by rw [Nat.pow_add]
      _ ≤ 2 ^ 64 := Nat.pow_le_pow_right (by omega) (by omega)
  generalize wordData (bitsPerLetter N) (u ++ l :: List.replicate j N) = d at *
  have hcd : cleared (bitsPerLetter N) d j / 2 ^ (j * bitsPerLetter N) % 2 ^ bitsPerLetter N + 1 = l := by
    rw [cleared_digit hbp, hdig]
  have hlu : (u ++ [l]).length = u.length + 1 := by simp
  rw [hlu, show u.length + 1 + j + 1 - j = (u.length + 1) + 1 by omega, advanceLoop,
    if_neg (by show ¬ j = u.length + 1 + j; omega),
    getLetter_raw p N _ _ _ h1 hN hi64 (by omega), Res.bind_ok, hcd, if_neg (by omega), addW_ok (by omega), Res.bind_ok,
    setLetter_raw p N _ _ _ _ h1 hN hi64 (by omega) (Nat.lt_of_le_of_lt (cleared_le _ _ _) hd) (by omega) (by simpa using hl64),
    cleared_step hbp, Nat.add_sub_cancel]
  cases addW p 64 (d / 2 ^ (bitsPerLetter N + j) * 2 ^ (bitsPerLetter N + j)) (l * 2 ^ (j * bitsPerLetter N)) <;> rfl

/-- The step from `N…N`. -/
theorem advance_full (p : Profile) (N : Nat) (h1 : 1 ≤ N) (hN : N < 2 ^ 32) (j : Nat) (hj : j ≤ maxDepth N) :
    advance p N (keyOf N (List.replicate j N)) =
      if j = maxDepth N then .ok none
      else .ok (some ⟨j + 1, cleared (bitsPerLetter N) (wordData (bitsPerLetter N) (List.replicate j N)) j⟩) := by
  have hbp := bpl_pos N
  have hb := bpl_le N h1 hN
  have hm := maxDepth_le N
  have hw : ValidWord N (List.replicate j N) := by
    intro x hx
    rw [List.mem_replicate] at hx
    omega
  have hd := wordData_lt64 h1 hw (by simpa using hj)
  have hrun := advance_run p N h1 hN [] j (by simpa using hw) (by simpa using hj) j (Nat.le_refl _)
  simp only [List.nil_append, List.length_nil, Nat.zero_add] at hrun
  rw [hrun, show j + 1 - j = 0 + 1 by omega, advanceLoop, if_pos rfl]
  by_cases hjm : j = maxDepth N
  · rw [if_pos hjm, if_pos hjm]
  · rw [if_neg hjm, if_neg hjm]
    have hil : (j + 1) * bitsPerLetter N ≤ 64 := Nat.le_trans (Nat.mul_le_mul_right _ (by omega)) (maxDepth_mul_le N)
    rw [Nat.add_mul, Nat.one_mul] at hil
    have hc := cleared_le (bitsPerLetter N) (wordData (bitsPerLetter N) (List.replicate j N)) j
    unfold pushFront
    rw [decide_eq_true (show j < maxDepth N by omega), decide_eq_true (show 1 ≤ 1 ∧ 1 ≤ N by omega), debugAssert_true, Res.bind_ok,
      Res.bind_ok, subW_ok (by omega), Res.bind_ok]
    unfold pushFrontRaw letterMask
    rw [makeMask_ok _ _ _ (by omega) (by omega) (by omega)]
    simp only [Res.bind_ok, Nat.sub_self, Nat.zero_and]
    rw [mulW_ok (by omega), Res.bind_ok, shlW_ok' (by omega) (by simp), Res.bind_ok, addW_ok (by omega), Res.bind_ok, addW_ok (by omega),
      Res.bind_ok, Nat.zero_mul, Nat.add_zero]
    rfl

/-! ## Successors -/

theorem validWord_replicate {N x : Nat} (h1 : 1 ≤ x) (h2 : x ≤ N) (j : Nat) : ValidWord N (List.replicate j x) := by
  intro y hy
  rw [List.mem_replicate] at hy
  omega

theorem wordIndex_carry {N : Nat} {v v' : List Nat} (h : wordIndex N v + 1 = wordIndex N v') (j : Nat) :
    wordIndex N (v ++ List.replicate j N) + 1 = wordIndex N (v' ++ List.replicate j 1) := by
  induction j with
  | zero => simpa using h
  | succ j ih =>
    rw [List.replicate_succ', List.replicate_succ', ← List.append_assoc, ← List.append_assoc, wordIndex_snoc, wordIndex_snoc, ← ih, Nat.add_mul]
    omega

theorem wordData_ones (b : Nat) (j : Nat) : wordData b (List.replicate j 1) = 0 := by
  induction j with
  | zero => rfl
  | succ j ih => rw [List.replicate_succ, wordData_cons, ih]; simp

/-- Every word ends in a run of the largest letter. -/
theorem split_run (N : Nat) (w : List Nat) :
    (∃ j, w = List.replicate j N) ∨ ∃ u l j, w = u ++ l :: List.replicate j N ∧ l ≠ N := by
  induction w using List.reverseRecOn with
  | nil => exact .inl ⟨0, rfl⟩
  | append_singleton w x ih =>
    by_cases hx : x = N
    · subst hx
      rcases ih with ⟨j, rfl⟩ | ⟨u, l, j, rfl, hl⟩
      · exact .inl ⟨j + 1, List.replicate_succ'.symm⟩
      · refine .inr ⟨u, l, j + 1, ?_, hl⟩
        rw [List.replicate_succ', List.append_assoc, List.cons_append]
    · exact .inr ⟨w, x, 0, rfl, hx⟩

/-- After the key with index `i`, the iterator holds the key with index `i + 1`, or nothing if `i` was the last index. -/
def NextRight (p : Profile) (N : Nat) (k : TensorKey) (i : Nat) : Prop :=
  ∃ it, BasisIter.next p N (.startingFrom N k) = .ok (some k, it) ∧
    (i + 1 < geomSum N (maxDepth N + 1) → ∃ k', indexToKey p N (i + 1) = .ok k' ∧ it.current = some k') ∧
    (geomSum N (maxDepth N + 1) ≤ i + 1 → it.current = none)

theorem floor_add (U R m c : Nat) : (U * 2 ^ (m + c) + R) / 2 ^ m * 2 ^ m = U * 2 ^ (m + c) + R / 2 ^ m * 2 ^ m := by
  have e : U * 2 ^ (m + c) = 2 ^ m * (U * 2 ^ c) := by rw [Nat.pow_add]; ac_rfl
  rw [e, Nat.mul_add_div (Nat.two_pow_pos m), Nat.add_mul]
  congr 1
  ac_rfl

theorem floor_eq_zero {R m : Nat} : R / 2 ^ m * 2 ^ m = 0 ↔ R < 2 ^ m := by
  have := Nat.two_pow_pos m
  rw [Nat.mul_eq_zero, Nat.div_eq_zero_iff]
  omega

/-- The carry is right exactly when everything from the letter to be increased on sits below the cleared bits. -/
theorem next_carry (p : Profile) (N : Nat) (h1 : 1 ≤ N) (hN : N < 2 ^ 32) (u : List Nat) (l j : Nat)
    (hw : ValidWord N (u ++ l :: List.replicate j N)) (hl : (u ++ l :: List.replicate j N).length ≤ maxDepth N) (hlN : l < N) :
    NextRight p N (keyOf N (u ++ l :: List.replicate j N)) (wordIndex N (u ++ l :: List.replicate j N)) ↔
      wordData (bitsPerLetter N) (l :: List.replicate j N) < 2 ^ (bitsPerLetter N + j) := by
  have hbp := bpl_pos N
  have hw1 : ValidWord N (u ++ (l + 1) :: List.replicate j 1) := by
    have := ValidWord.append.1 hw
    refine ValidWord.append.2 ⟨this.1, ValidWord.cons.2 ⟨by omega, validWord_replicate (by omega) h1 j⟩⟩
  have hl1 : 1 ≤ l := (hw l (by simp)).1
  have hlen : (u ++ (l + 1) :: List.replicate j 1).length = (u ++ l :: List.replicate j N).length := by simp
  have hd := wordData_lt64 h1 hw hl
  have hd1 := wordData_lt64 h1 hw1 (by rw [hlen]; exact hl)
  have hidx : wordIndex N (u ++ l :: List.replicate j N) + 1 = wordIndex N (u ++ (l + 1) :: List.replicate j 1) := by
    have := wordIndex_carry (N := N) (v := u ++ [l]) (v' := u ++ [l + 1]) (by rw [wordIndex_snoc, wordIndex_snoc]; omega) j
    simpa using this
  have hlt : wordIndex N (u ++ (l + 1) :: List.replicate j 1) < geomSum N (maxDepth N + 1) :=
    Nat.lt_of_lt_of_le (wordIndex_bounds hw1).2 (geomSum_mono (by omega))
  have hkey := indexToKey_ok p N h1 hN _ hlt
  rw [indexWord_wordIndex h1 hw1] at hkey
  have hsize : (u ++ (l + 1) :: List.replicate j 1).length = u.length + 1 + j := by simp; omega
  unfold NextRight
  rw [hidx, hkey, next_some, advance_carry p N h1 hN u l j hw hl hlN]
  have eR : wordData (bitsPerLetter N) (u ++ l :: List.replicate j N) =
      wordData (bitsPerLetter N) u * 2 ^ ((j + 1) * bitsPerLetter N) + wordData (bitsPerLetter N) (l :: List.replicate j N) := by
    rw [wordData_append]; simp
  have eT : wordData (bitsPerLetter N) (u ++ (l + 1) :: List.replicate j 1) =
      wordData (bitsPerLetter N) u * 2 ^ ((j + 1) * bitsPerLetter N) + l * 2 ^ (j * bitsPerLetter N) := by
    rw [wordData_append, wordData_cons, wordData_ones]; simp
  obtain ⟨c, hc⟩ : ∃ c, (j + 1) * bitsPerLetter N = (bitsPerLetter N + j) + c :=
    ⟨(j + 1) * bitsPerLetter N - (bitsPerLetter N + j), by
      have : j ≤ j * bitsPerLetter N := Nat.le_mul_of_pos_right _ hbp
      rw [Nat.add_mul]; omega⟩
  have eF : wordData (bitsPerLetter N) (u ++ l :: List.replicate j N) / 2 ^ (bitsPerLetter N + j) * 2 ^ (bitsPerLetter N + j) =
      wordData (bitsPerLetter N) u * 2 ^ ((j + 1) * bitsPerLetter N) +
        wordData (bitsPerLetter N) (l :: List.replicate j N) / 2 ^ (bitsPerLetter N + j) * 2 ^ (bitsPerLetter N + j) := by
    rw [eR, hc, floor_add]
  have hle : wordData (bitsPerLetter N) (u ++ l :: List.replicate j N) / 2 ^ (bitsPerLetter N + j) * 2 ^ (bitsPerLetter N + j) ≤
      wordData (bitsPerLetter N) (u ++ l :: List.replicate j N) := Nat.div_mul_le_self _ _
  rw [← floor_eq_zero]
  simp only [keyOf, hsize]
  generalize wordData (bitsPerLetter N) (u ++ l :: List.replicate j N) / 2 ^ (bitsPerLetter N + j) * 2 ^ (bitsPerLetter N + j) = F at *
  generalize wordData (bitsPerLetter N) (l :: List.replicate j N) / 2 ^ (bitsPerLetter N + j) * 2 ^ (bitsPerLetter N + j) = G at *
  generalize wordData (bitsPerLetter N) (u ++ l :: List.replicate j N) = d at *
  generalize wordData (bitsPerLetter N) (u ++ (l + 1) :: List.replicate j 1) = d1 at *
  generalize l * 2 ^ (j * bitsPerLetter N) = L at *
  generalize wordData (bitsPerLetter N) u * 2 ^ ((j + 1) * bitsPerLetter N) = U at *
  constructor
  · rintro ⟨it, hit, hcur, _⟩
    obtain ⟨k', hk', hc'⟩ := hcur hlt
    have e := Res.ok.inj hk'
    subst e
    unfold addW fitW at hit
    split at hit
    · have h := (Prod.mk.inj (Res.ok.inj hit)).2
      rw [← h] at hc'
      have := congrArg TensorKey.data (Option.some.inj hc')
      simp only at this
      omega
    · cases p
      · cases hit
      · have h := (Prod.mk.inj (Res.ok.inj hit)).2
        rw [← h] at hc'
        have := congrArg TensorKey.data (Option.some.inj hc')
        simp only at this
        omega
  · intro hG
    refine ⟨⟨some ⟨u.length + 1 + j, d1⟩, maxDepth N⟩, ?_, fun _ => ⟨_, rfl, rfl⟩, fun h => absurd hlt (by omega)⟩
    rw [addW_ok (by omega)]
    have : F + L = d1 := by omega
    rw [this]
    rfl

theorem next_full (p : Profile) (N : Nat) (h1 : 1 ≤ N) (hN : N < 2 ^ 32) (j : Nat) (hj : j ≤ maxDepth N) :
    NextRight p N (keyOf N (List.replicate j N)) (wordIndex N (List.replicate j N)) ↔
      j = maxDepth N ∨ cleared (bitsPerLetter N) (wordData (bitsPerLetter N) (List.replicate j N)) j = 0 := by
  have hidx : wordIndex N (List.replicate j N) + 1 = wordIndex N (List.replicate (j + 1) 1) := by
    have := wordIndex_carry (N := N) (v := []) (v' := [1]) (by simp [wordIndex_cons]) j
    simpa [List.replicate_succ] using this
  have hw1 := validWord_replicate (N := N) (x := 1) (by omega) h1 (j + 1)
  have hb := wordIndex_bounds hw1
  rw [List.length_replicate] at hb
  unfold NextRight
  rw [hidx, next_some, advance_full p N h1 hN j hj]
  by_cases hjm : j = maxDepth N
  · rw [if_pos hjm]
    simp only [hjm, true_or, iff_true]
    refine ⟨⟨none, maxDepth N⟩, rfl, fun h => ?_, fun _ => rfl⟩
    rw [hjm] at hb
    omega
  · rw [if_neg hjm]
    have hlt : wordIndex N (List.replicate (j + 1) 1) < geomSum N (maxDepth N + 1) :=
      Nat.lt_of_lt_of_le hb.2 (geomSum_mono (by omega))
    have hkey := indexToKey_ok p N h1 hN _ hlt
    rw [indexWord_wordIndex h1 hw1] at hkey
    rw [hkey]
    simp only [keyOf, wordData_ones, List.length_replicate, hjm, false_or]
    constructor
    · rintro ⟨it, hit, hcur, _⟩
      obtain ⟨k', hk', hc'⟩ := hcur hlt
      have e := Res.ok.inj hk'
      subst e
      have h := (Prod.mk.inj (Res.ok.inj hit)).2
      rw [← h] at hc'
      exact congrArg TensorKey.data (Option.some.inj hc')
    · intro h
      rw [h]
      exact ⟨_, rfl, fun _ => ⟨_, rfl, rfl⟩, fun h => absurd hlt (by omega)⟩

/-- Two letters or more need two bits or more. -/
theorem two_le_bpl {N : Nat} (h2 : 2 ≤ N) : 2 ≤ bitsPerLetter N := by
  have := constLogn_mono h2
  have h4 : constLogn 2 = 1 := by decide +kernel
  unfold bitsPerLetter
  omega

theorem le_wordData_run (b N j : Nat) : (N - 1) * 2 ^ (j * b) ≤ wordData b (List.replicate (j + 1) N) := by
  rw [List.replicate_succ, wordData_cons, List.length_replicate]
  omega

theorem wordData_run_two (b N : Nat) : wordData b (List.replicate 2 N) = (N - 1) * 2 ^ b + (N - 1) := by
  rw [List.replicate_succ, wordData_cons, List.replicate_succ, wordData_cons]; simp

theorem full_condition {N : Nat} (h2 : 2 ≤ N) (j : Nat)
    (h : cleared (bitsPerLetter N) (wordData (bitsPerLetter N) (List.replicate (j + 2) N)) (j + 2) = 0) : j = 0 ∧ N = 2 := by
  have hb2 := two_le_bpl h2
  rw [cleared, if_neg (by omega), floor_eq_zero] at h
  cases j with
  | zero =>
    rw [wordData_run_two, show bitsPerLetter N + (0 + 2) - 1 = bitsPerLetter N + 1 by omega, Nat.pow_succ] at h
    refine ⟨rfl, ?_⟩
    by_contra hc
    have : 2 * 2 ^ bitsPerLetter N ≤ (N - 1) * 2 ^ bitsPerLetter N := Nat.mul_le_mul_right _ (by omega)
    omega
  | succ j =>
    exfalso
    have h3 := le_wordData_run (bitsPerLetter N) N (j + 1 + 1)
    have h4 : 1 * 2 ^ ((j + 1 + 1) * bitsPerLetter N) ≤ (N - 1) * 2 ^ ((j + 1 + 1) * bitsPerLetter N) := Nat.mul_le_mul_right _ (by omega)
    have h5 : (j + 1) * 2 ≤ (j + 1) * bitsPerLetter N := Nat.mul_le_mul_left _ hb2
    have h6 : 2 ^ (bitsPerLetter N + (j + 1 + 2) - 1) ≤ 2 ^ ((j + 1 + 1) * bitsPerLetter N) :=
      Nat.pow_le_pow_right (by omega) (by rw [Nat.add_mul (j + 1)]; omega)
    rw [Nat.one_mul] at h4
    exact absurd h (Nat.not_lt.2 (Nat.le_trans h6 (Nat.le_trans h4 h3)))

theorem carry_condition {N : Nat} (h2 : 2 ≤ N) (l j : Nat) (hl : 1 ≤ l)
    (h : wordData (bitsPerLetter N) (l :: List.replicate j N) < 2 ^ (bitsPerLetter N + j)) :
    j = 0 ∨ (j = 1 ∧ l ≤ 2) ∨ (j = 2 ∧ l = 1 ∧ N ≤ 4) ∨ (j = 3 ∧ l = 1 ∧ N = 2) := by
  have hb2 := two_le_bpl h2
  rw [wordData_cons, List.length_replicate] at h
  match j, h with
  | 0, _ => exact .inl rfl
  | 1, h =>
    refine .inr (.inl ⟨rfl, ?_⟩)
    rw [Nat.pow_succ, Nat.one_mul] at h
    by_contra hc
    have : 2 * 2 ^ bitsPerLetter N ≤ (l - 1) * 2 ^ bitsPerLetter N := Nat.mul_le_mul_right _ (by omega)
    omega
  | j + 2, h =>
    have hl1 : l = 1 := by
      by_contra hc
      have h4 : 1 * 2 ^ ((j + 2) * bitsPerLetter N) ≤ (l - 1) * 2 ^ ((j + 2) * bitsPerLetter N) := Nat.mul_le_mul_right _ (by omega)
      have h5 : (j + 1) * 2 ≤ (j + 1) * bitsPerLetter N := Nat.mul_le_mul_left _ hb2
      have h6 : 2 ^ (bitsPerLetter N + (j + 2)) ≤ 2 ^ ((j + 2) * bitsPerLetter N) :=
        Nat.pow_le_pow_right (by omega) (by rw [show j + 2 = (j + 1) + 1 by omega, Nat.add_mul (j + 1)]; omega)
      omega
    subst hl1
    rw [Nat.sub_self, Nat.zero_mul, Nat.zero_add] at h
    match j, h with
    | 0, h =>
      refine .inr (.inr (.inl ⟨rfl, rfl, ?_⟩))
      rw [wordData_run_two, Nat.pow_add] at h
      by_contra hc
      have : 4 * 2 ^ bitsPerLetter N ≤ (N - 1) * 2 ^ bitsPerLetter N := Nat.mul_le_mul_right _ (by omega)
      omega
    | 1, h =>
      refine .inr (.inr (.inr ⟨rfl, rfl, ?_⟩))
      have h3 := le_wordData_run (bitsPerLetter N) N 2
      by_contra hc
      have h4 : 2 * 2 ^ (2 * bitsPerLetter N) ≤ (N - 1) * 2 ^ (2 * bitsPerLetter N) := Nat.mul_le_mul_right _ (by omega)
      have h6 : 2 ^ (bitsPerLetter N + (1 + 2)) ≤ 2 ^ (2 * bitsPerLetter N + 1) := Nat.pow_le_pow_right (by omega) (by omega)
      rw [Nat.pow_succ 2 (2 * bitsPerLetter N)] at h6
      rw [show 1 + 2 = 2 + 1 from rfl] at h h6
      omega
    | j + 2, h =>
      exfalso
      have h3 := le_wordData_run (bitsPerLetter N) N (j + 3)
      have h4 : 1 * 2 ^ ((j + 3) * bitsPerLetter N) ≤ (N - 1) * 2 ^ ((j + 3) * bitsPerLetter N) := Nat.mul_le_mul_right _ (by omega)
      have h5 : (j + 2) * 2 ≤ (j + 2) * bitsPerLetter N := Nat.mul_le_mul_left _ hb2
      have h6 : 2 ^ (bitsPerLetter N + (j + 2 + 2)) ≤ 2 ^ ((j + 3) * bitsPerLetter N) :=
        Nat.pow_le_pow_right (by omega) (by rw [show j + 3 = (j + 2) + 1 by omega, Nat.add_mul (j + 2)]; omega)
      rw [Nat.one_mul] at h4
      exact absurd h (Nat.not_lt.2 (Nat.le_trans h6 (Nat.le_trans h4 h3)))

/-- C07, one step from any key (`starting_from`), completely: for an alphabet of two or more letters and every word, the iterator moves on
to the right successor if and only if the word is empty or `[N]`, or the last word of all (`N` repeated `max_depth` times; then the iterator
ends), or its last letter is not `N`, or it ends in `l N` with `l` equal to 1 or 2 and below `N`, or it ends in `1 N N` and there are at most
four letters, or there are two letters and it is `[2, 2]` or ends in `1 2 2 2`. -/
theorem C07_successor_exact (p : Profile) (N : Nat) (h2 : 2 ≤ N) (hN : N < 2 ^ 32) (w : List Nat) (hw : ValidWord N w)
    (hl : w.length ≤ maxDepth N) (k : TensorKey) (hk : fromLetters p N w = .ok k) (i : Nat) (hi : keyToIndex p N k = .ok i) :
    (∃ it, BasisIter.next p N (.startingFrom N k) = .ok (some k, it) ∧
      (i + 1 < geomSum N (maxDepth N + 1) → ∃ k', indexToKey p N (i + 1) = .ok k' ∧ it.current = some k') ∧
      (geomSum N (maxDepth N + 1) ≤ i + 1 → it.current = none)) ↔
    (w = [] ∨ w = [N] ∨ w = List.replicate (maxDepth N) N ∨ (∃ u l, w = u ++ [l] ∧ l < N) ∨ (∃ u l, w = u ++ [l, N] ∧ l < N ∧ l ≤ 2) ∨
      (∃ u, w = u ++ [1, N, N] ∧ N ≤ 4) ∨ (N = 2 ∧ (w = [2, 2] ∨ ∃ u, w = u ++ [1, 2, 2, 2]))) := by
  have h1 : 1 ≤ N := by omega
  rw [fromLetters_ok p N h1 hN w hw hl] at hk
  cases hk
  rw [keyToIndex_keyOf p N h1 hN w hw hl] at hi
  cases hi
  show NextRight p N (keyOf N w) (wordIndex N w) ↔ _
  have hb2 := two_le_bpl h2
  have hNb := lt_two_pow_bpl N h1
  constructor
  · intro h
    rcases split_run N w with ⟨j, rfl⟩ | ⟨u, l, j, rfl, hlN⟩
    · rw [List.length_replicate] at hl
      rw [next_full p N h1 hN j hl] at h
      rcases h with rfl | h
      · exact .inr (.inr (.inl rfl))
      match j, h with
      | 0, _ => exact .inl rfl
      | 1, _ => exact .inr (.inl rfl)
      | j + 2, h =>
        obtain ⟨rfl, rfl⟩ := full_condition h2 j h
        exact .inr (.inr (.inr (.inr (.inr (.inr ⟨rfl, .inl rfl⟩)))))
    · have hll := hw l (by simp)
      rw [next_carry p N h1 hN u l j hw hl (by omega)] at h
      rcases carry_condition h2 l j hll.1 h with rfl | ⟨rfl, hl2⟩ | ⟨rfl, rfl, h4⟩ | ⟨rfl, rfl, rfl⟩
      · exact .inr (.inr (.inr (.inl ⟨u, l, rfl, by omega⟩)))
      · exact .inr (.inr (.inr (.inr (.inl ⟨u, l, rfl, by omega, hl2⟩))))
      · exact .inr (.inr (.inr (.inr (.inr (.inl ⟨u, rfl, h4⟩)))))
      · exact .inr (.inr (.inr (.inr (.inr (.inr ⟨rfl, .inr ⟨u, rfl⟩⟩)))))
  · rintro (rfl | rfl | rfl | ⟨u, l, rfl, hlN⟩ | ⟨u, l, rfl, hlN, hl2⟩ | ⟨u, rfl, h4⟩ | ⟨rfl, rfl | ⟨u, rfl⟩⟩)
    · exact (next_full p N h1 hN 0 (by omega)).2 (.inr rfl)
    · refine (next_full p N h1 hN 1 (by simpa using hl)).2 (.inr ?_)
      rw [cleared, if_neg (by omega), floor_eq_zero]
      simp [wordData_cons]
      omega
    · exact (next_full p N h1 hN _ (Nat.le_refl _)).2 (.inl rfl)
    · have := hw l (by simp)
      refine (next_carry p N h1 hN u l 0 hw hl hlN).2 ?_
      simp [wordData_cons]
      omega
    · have := hw l (by simp)
      refine (next_carry p N h1 hN u l 1 hw hl hlN).2 ?_
      have h3 : (l - 1) * 2 ^ bitsPerLetter N ≤ 1 * 2 ^ bitsPerLetter N := Nat.mul_le_mul_right _ (by omega)
      simp [wordData_cons, Nat.pow_succ]
      omega
    · refine (next_carry p N h1 hN u 1 2 hw hl (by omega)).2 ?_
      have h3 : (N - 1) * 2 ^ bitsPerLetter N ≤ 3 * 2 ^ bitsPerLetter N := Nat.mul_le_mul_right _ (by omega)
      rw [wordData_cons, wordData_run_two, Nat.pow_add]
      omega
    · exact (next_full p 2 h1 hN 2 (by decide +kernel)).2 (.inr (by decide +kernel))
    · exact (next_carry p 2 h1 hN u 1 3 hw hl (by omega)).2 (by decide +kernel)

example : ∃ k i, fromLetters .debug 4 [2, 1, 4, 4] = .ok k ∧ keyToIndex .debug 4 k = .ok i :=
  ⟨⟨4, 539⟩, 164, by decide +kernel, by decide +kernel⟩

example := C07_successor_exact .debug 4 (by omega) (by omega) [2, 1, 4, 4] (by decide) (by decide +kernel) ⟨4, 539⟩ (by decide +kernel) 164
  (by decide +kernel)

/-! ## The iteration does not get past words of length two -/

theorem two_pow_mod_three (m : Nat) : 2 ^ m % 3 ≠ 0 := by
  induction m with
  | zero => decide
  | succ m ih => rw [Nat.pow_succ]; omega

theorem third_step {m : Nat} (hm : 1 ≤ m) : 2 * (2 ^ m / 3) + 1 - 2 ^ m / 3 % 2 = 2 ^ (m + 1) / 3 := by
  have h := two_pow_mod_three m
  obtain ⟨c, rfl⟩ : ∃ c, m = c + 1 := ⟨m - 1, by omega⟩
  rw [Nat.pow_succ 2 (c + 1)]
  rw [Nat.pow_succ 2 c] at *
  have : 2 ^ c * 2 % 3 = 1 ∨ 2 ^ c * 2 % 3 = 2 := by omega
  generalize 2 ^ c = t at *
  rcases this with h | h <;> omega

theorem third_reduce (b : Nat) : ∀ m, 1 ≤ m → ∃ m', 1 ≤ m' ∧ m' ≤ b + 1 ∧ 2 ^ m / 3 % 2 ^ b = 2 ^ m' / 3 := by
  intro m
  induction m using Nat.strong_induction_on with
  | _ m ih =>
    intro hm
    by_cases hb : m ≤ b + 1
    · refine ⟨m, hm, hb, Nat.mod_eq_of_lt ?_⟩
      have h1 : 2 ^ m ≤ 2 ^ (b + 1) := Nat.pow_le_pow_right (by omega) hb
      have := Nat.two_pow_pos b
      rw [Nat.pow_succ] at h1
      omega
    · rcases Nat.eq_zero_or_pos b with rfl | hb0
      · exact ⟨1, by omega, by omega, by simp [Nat.mod_one]⟩
      obtain ⟨c, rfl⟩ : ∃ c, m = c + 2 := ⟨m - 2, by omega⟩
      obtain ⟨m', h1, h2, h3⟩ := ih c (by omega) (by omega)
      refine ⟨m', h1, h2, ?_⟩
      rw [← h3]
      have e : 2 ^ (c + 2) / 3 = 2 ^ c + 2 ^ c / 3 := by
        rw [Nat.pow_add]
        omega
      obtain ⟨t, rfl⟩ : ∃ t, c = b + t := ⟨c - b, by omega⟩
      rw [e, Nat.pow_add 2 b t, Nat.mul_add_mod]

/-- The states of the iteration once it has reached words of length two: the lower letter is a letter, the upper one holds `2^m / 3` cut to its
bits. -/
def Stuck (N : Nat) (k : TensorKey) : Prop :=
  k.size = 2 ∧ k.data < 2 ^ 64 ∧ k.data % 2 ^ bitsPerLetter N < N ∧
    ∃ m, 1 ≤ m ∧ k.data / 2 ^ bitsPerLetter N % 2 ^ bitsPerLetter N = 2 ^ m / 3 % 2 ^ bitsPerLetter N

theorem advance_stuck (p : Profile) (N : Nat) (h1 : 1 ≤ N) (hN : N < 2 ^ 32) (hthird : ∀ m, N ≠ 2 ^ m / 3 + 1) (k : TensorKey)
    (hk : Stuck N k) : (∃ k', advance p N k = .ok (some k') ∧ Stuck N k' ∧ (p = .debug → k.data < k'.data)) ∨ (p = .debug ∧ advance p N k = .panic) := by
  obtain ⟨s, d⟩ := k
  obtain ⟨hs, hd, hy, m, hm, hx⟩ := hk
  simp only at hs hd hy hx
  subst hs
  have h4 : 4 ≤ N := by
    have a1 := hthird 1
    have a2 := hthird 2
    have a3 := hthird 3
    simp at a1 a2 a3
    omega
  have hb2 := two_le_bpl (N := N) (by omega)
  have hb32 := bpl_le N h1 hN
  have hNb := lt_two_pow_bpl N h1
  have hb3 : 3 ≤ bitsPerLetter N := by
    by_contra hc
    have : 2 ^ bitsPerLetter N ≤ 2 ^ 2 := Nat.pow_le_pow_right (by omega) (by omega)
    omega
  have hB32 : 2 ^ bitsPerLetter N ≤ 2 ^ 32 := Nat.pow_le_pow_right (by omega) hb32
  have hB8 : 2 ^ 3 ≤ 2 ^ bitsPerLetter N := Nat.pow_le_pow_right (by omega) hb3
  obtain ⟨m', hm1, hmb, hmx⟩ := third_reduce (bitsPerLetter N) m hm
  have hx2 : d / 2 ^ bitsPerLetter N % 2 ^ bitsPerLetter N = 2 ^ m' / 3 := by rw [hx, hmx]
  have hxN := hthird m'
  have hxB : 3 * (2 ^ m' / 3) ≤ 2 * 2 ^ bitsPerLetter N := by
    have : 2 ^ m' ≤ 2 ^ (bitsPerLetter N + 1) := Nat.pow_le_pow_right (by omega) hmb
    rw [Nat.pow_succ] at this
    omega
  rw [← hx2] at hxN hxB
  have hdm := Nat.div_add_mod d (2 ^ bitsPerLetter N)
  have e64 : (2:Nat) ^ 64 = 2 ^ bitsPerLetter N * 2 ^ (64 - bitsPerLetter N) := by rw [← Nat.pow_add]; congr 1; omega
  have hq : d / 2 ^ bitsPerLetter N + 1 ≤ 2 ^ (64 - bitsPerLetter N) := by
    rw [Nat.add_one_le_iff, Nat.div_lt_iff_lt_mul (Nat.two_pow_pos _), Nat.mul_comm, ← e64]
    exact hd
  have hq' : 2 ^ bitsPerLetter N * (d / 2 ^ bitsPerLetter N) + 2 ^ bitsPerLetter N ≤ 2 ^ 64 := by
    rw [e64, ← Nat.mul_succ]
    exact Nat.mul_le_mul_left _ hq
  have g0 : getLetter p N ⟨2, d⟩ 0 = .ok (d % 2 ^ bitsPerLetter N + 1) := by
    have := getLetter_raw p N 2 d 0 h1 hN (by omega) (by simp; omega)
    simpa using this
  unfold advance
  show _ ∨ (_ ∧ advanceLoop p N (maxDepth N) (2 + 1) ⟨2, d⟩ 0 = _)
  show (∃ k', advanceLoop p N (maxDepth N) (2 + 1) ⟨2, d⟩ 0 = .ok (some k') ∧ _) ∨ _
  rw [advanceLoop, if_neg (by show ¬ 0 = 2; omega), g0, Res.bind_ok]
  by_cases hyN : d % 2 ^ bitsPerLetter N + 1 = N
  · -- carry
    rw [if_pos hyN, setLetter_raw p N 2 d 0 1 h1 hN (by omega) (by omega) hd (by omega) (by simp), Nat.sub_self, Nat.zero_mul, Nat.add_zero,
      Nat.pow_zero, Nat.mod_one, Nat.add_zero, addW_ok (by rw [Nat.mul_comm]; omega), Nat.add_zero]
    generalize hB : 2 ^ bitsPerLetter N = B at *
    generalize hqd : d / B = q at *
    generalize hxd : q % B = x at *
    show (∃ k', (Res.ok (TensorKey.mk 2 (q * B)) >>= _) = .ok (some k') ∧ _) ∨ (_ ∧ (Res.ok (TensorKey.mk 2 (q * B)) >>= _) = _)
    rw [Res.bind_ok, addW_ok (by omega), Res.bind_ok, Nat.zero_add, advanceLoop, if_neg (by show ¬ 1 = 2; omega)]
    have hBpos : 0 < B := by omega
    have hev : 2 ∣ B := by rw [← hB]; exact Dvd.intro_left _ (Nat.pow_pred_mul (by omega))
    have g1 : getLetter p N ⟨2, q * B⟩ 1 = .ok (x + 1) := by
      have := getLetter_raw p N 2 (q * B) 1 h1 hN (by omega)
      rw [Nat.one_mul, hB, Nat.mul_div_cancel _ hBpos, hxd] at this
      exact this (by omega)
    have hxB2 : (x + 1) * B < 2 ^ 64 := by
      have : (x + 1) * B < 2 ^ 32 * 2 ^ 32 := Nat.mul_lt_mul_of_lt_of_le (by omega) hB32 (by omega)
      simpa using this
    rw [g1, Res.bind_ok, if_neg (fun h => hxN h.symm), addW_ok (by omega), Res.bind_ok,
      setLetter_raw p N 2 (q * B) 1 (x + 1 + 1) h1 hN (by omega) (by omega) (by rw [Nat.mul_comm]; omega) (by omega)
        (by rw [Nat.one_mul, hB, Nat.add_sub_cancel]; exact hxB2), Nat.add_sub_cancel, Nat.one_mul, hB, Nat.pow_succ, hB]
    have eq2 : q * B / (B * 2) = q / 2 := by rw [Nat.mul_comm q, Nat.mul_div_mul_left _ _ hBpos]
    have eq3 : q * B % 2 ^ 1 = 0 := Nat.mod_eq_zero_of_dvd (Nat.dvd_trans (by simpa using hev) (Nat.dvd_mul_left B q))
    rw [eq2, eq3, Nat.add_zero]
    have esum : q / 2 * (B * 2) + (x + 1) * B = (q / 2 * 2 + (x + 1)) * B := by ring
    have hpar : q % 2 = x % 2 := by
      rw [← hxd, Nat.mod_mod_of_dvd _ hev]
    have hB2 : B * B ∣ 2 ^ 64 := by
      rw [← hB, ← Nat.pow_add]
      exact Nat.pow_dvd_pow 2 (by omega)
    have hstuck : ∀ D, D % (B * B) = (q / 2 * 2 + (x + 1)) * B % (B * B) → D < 2 ^ 64 → Stuck N ⟨2, D⟩ := by
      intro D hD hD64
      refine ⟨rfl, hD64, ?_, m + 1, by omega, ?_⟩
      · simp only [hB]
        have : D % B = 0 := by
          have e : D % (B * B) % B = _ % B := congrArg (· % B) hD
          rwa [Nat.mod_mod_of_dvd _ (Dvd.intro _ rfl), Nat.mod_mod_of_dvd _ (Dvd.intro _ rfl), Nat.mul_mod_left] at e
        omega
      · simp only [hB]
        have e1 : D / B % B = (q / 2 * 2 + (x + 1)) % B := by
          have e : D % (B * B) / B = _ / B := congrArg (· / B) hD
          rw [Nat.mod_mul_right_div_self, Nat.mod_mul_right_div_self, Nat.mul_div_cancel _ hBpos] at e
          exact e
        rw [e1, ← third_step hm]
        have hle : 2 ^ m / 3 % 2 ≤ 1 := by omega
        have hpar2 : x % 2 = 2 ^ m / 3 % 2 := by rw [hx, Nat.mod_mod_of_dvd _ hev]
        generalize 2 ^ m / 3 = t at *
        have hqx : q ≡ x [MOD B] := by show q % B = x % B; rw [hxd, ← hxd, Nat.mod_mod]
        have htx : t ≡ x [MOD B] := by show t % B = x % B; rw [hx, Nat.mod_mod]
        show (q / 2 * 2 + (x + 1)) ≡ 2 * t + 1 - t % 2 [MOD B]
        apply Nat.ModEq.add_right_cancel' (t % 2)
        rw [show 2 * t + 1 - t % 2 + t % 2 = t + (t + 1) by omega, show q / 2 * 2 + (x + 1) + t % 2 = q + (x + 1) by omega]
        exact (hqx.trans htx.symm).add (htx.symm.add_right 1)
    by_cases hov : (q / 2 * 2 + (x + 1)) * B < 2 ^ 64
    · left
      refine ⟨⟨2, (q / 2 * 2 + (x + 1)) * B⟩, ?_, hstuck _ rfl hov, fun _ => ?_⟩
      · unfold addW fitW
        rw [esum, if_pos hov]
        rfl
      · show d < (q / 2 * 2 + (x + 1)) * B
        have : (q + 1) * B ≤ (q / 2 * 2 + (x + 1)) * B := Nat.mul_le_mul_right _ (by omega)
        have e : (q + 1) * B = B * q + B := by ring
        have : d % B < B := Nat.mod_lt _ hBpos
        omega
    · cases p
      · right
        refine ⟨rfl, ?_⟩
        unfold addW fitW
        rw [esum, if_neg hov]
        rfl
      · left
        refine ⟨⟨2, (q / 2 * 2 + (x + 1)) * B % 2 ^ 64⟩, ?_, hstuck _ (Nat.mod_mod_of_dvd _ hB2) (Nat.mod_lt _ (by omega)), nofun⟩
        unfold addW fitW
        rw [esum, if_neg hov]
        rfl
  · left
    rw [if_neg hyN, addW_ok (by omega), Res.bind_ok,
      setLetter_raw p N 2 d 0 (d % 2 ^ bitsPerLetter N + 1 + 1) h1 hN (by omega) (by omega) hd (by omega) (by simp; omega),
      Nat.add_sub_cancel, Nat.zero_mul, Nat.add_zero, Nat.pow_zero, Nat.mod_one, Nat.add_zero, Nat.mul_one,
      addW_ok (by rw [Nat.mul_comm]; omega)]
    refine ⟨⟨2, d + 1⟩, ?_, ⟨rfl, by show d + 1 < 2 ^ 64; omega, ?_, m, hm, ?_⟩, fun _ => Nat.lt_succ_self d⟩
    · have : d / 2 ^ bitsPerLetter N * 2 ^ bitsPerLetter N + (d % 2 ^ bitsPerLetter N + 1) = d + 1 := by rw [Nat.mul_comm]; omega
      rw [this]
      rfl
    · show (d + 1) % 2 ^ bitsPerLetter N < N
      have : (d + 1) % 2 ^ bitsPerLetter N = d % 2 ^ bitsPerLetter N + 1 := by
        conv_lhs => rw [← hdm, Nat.add_assoc, Nat.mul_add_mod]
        exact Nat.mod_eq_of_lt (by omega)
      omega
    · show (d + 1) / 2 ^ bitsPerLetter N % _ = _
      have : (d + 1) / 2 ^ bitsPerLetter N = d / 2 ^ bitsPerLetter N := by
        conv_lhs => rw [← hdm, Nat.add_assoc, Nat.mul_add_div (Nat.two_pow_pos _)]
        rw [Nat.div_eq_of_lt (a := d % 2 ^ bitsPerLetter N + 1) (by omega), Nat.add_zero]
      rw [this, hx]

theorem nth_stuck (p : Profile) (N : Nat) (h1 : 1 ≤ N) (hN : N < 2 ^ 32) (hthird : ∀ m, N ≠ 2 ^ m / 3 + 1) (n : Nat) (k : TensorKey)
    (hk : Stuck N k) : (∃ k', BasisIter.nth p N n (.startingFrom N k) = .ok (some k') ∧ Stuck N k' ∧ (p = .debug → n ≤ k'.data)) ∨
      (p = .debug ∧ BasisIter.nth p N n (.startingFrom N k) = .panic) := by
  suffices h : (∃ k', BasisIter.nth p N n (.startingFrom N k) = .ok (some k') ∧ Stuck N k' ∧ (p = .debug → k.data + n ≤ k'.data)) ∨
      (p = .debug ∧ BasisIter.nth p N n (.startingFrom N k) = .panic) by
    rcases h with ⟨k', h1, h2, h3⟩ | h
    · exact .inl ⟨k', h1, h2, fun hp => by have := h3 hp; omega⟩
    · exact .inr h
  induction n generalizing k with
  | zero =>
    rcases advance_stuck p N h1 hN hthird k hk with ⟨k', hadv, _⟩ | ⟨hp, hadv⟩
    · exact .inl ⟨k, nth_zero_of_advance p N k _ hadv, hk, fun _ => le_rfl⟩
    · refine .inr ⟨hp, ?_⟩
      rw [BasisIter.nth, next_some, hadv]
      rfl
  | succ n ih =>
    rcases advance_stuck p N h1 hN hthird k hk with ⟨k', hadv, hk', hlt⟩ | ⟨hp, hadv⟩
    · rw [nth_succ_of_advance p N n k _ hadv]
      rcases ih k' hk' with ⟨k2, c1, c2, c3⟩ | h
      · exact .inl ⟨k2, c1, c2, fun hp => by have := hlt hp; have := c3 hp; omega⟩
      · exact .inr h
    · refine .inr ⟨hp, ?_⟩
      rw [BasisIter.nth, next_some, hadv]
      rfl

/-- The items of the whole iteration. -/
theorem nth_new_stuck (p : Profile) (N : Nat) (h1 : 1 ≤ N) (hN : N < 2 ^ 32) (hthird : ∀ m, N ≠ 2 ^ m / 3 + 1) (n : Nat) :
    (∃ k, BasisIter.nth p N n (.new N) = .ok (some k) ∧ k.size ≤ 2 ∧ (N + 1 ≤ n → Stuck N k ∧ (p = .debug → n - (N + 1) ≤ k.data))) ∨ (p = .debug ∧ BasisIter.nth p N n (.new N) = .panic) := by
  have h4 : 4 ≤ N := by
    have a1 := hthird 1
    have a2 := hthird 2
    have a3 := hthird 3
    simp at a1 a2 a3
    omega
  have hgood : ∀ i, i < 4 * N → advance p N (keyOf N (indexWord N i)) = .ok (some (keyOf N (indexWord N (i + 1)))) := by
    intro i hi
    have hlen : (indexWord N i).length ≤ maxDepth N := by
      have h2 := two_le_maxDepth N h1 hN
      have hg : 4 * N < geomSum N (2 + 1) := by simp only [geomSum]; nlinarith
      have hgm : geomSum N (2 + 1) ≤ geomSum N (maxDepth N + 1) := geomSum_mono (by omega)
      exact (indexWord_length_le i _ (by omega)).2 (by omega)
    have := advance_good p N h1 hN _ (validWord_indexWord (by omega) i) hlen (good_lt_four (by omega) hi)
    rwa [wordIndex_indexWord] at this
  have hchain : ∀ a m, a ≤ N + 1 → BasisIter.nth p N (a + m) (.new N) = BasisIter.nth p N m (.startingFrom N (keyOf N (indexWord N a))) := by
    intro a m ha
    have := nth_chain p N (fun i => keyOf N (indexWord N i)) m a 0 (fun i _ hi => hgood i (by omega))
    simp only [Nat.zero_add, indexWord_zero, keyOf_nil] at this
    exact this
  rcases Nat.lt_or_ge n (N + 1) with hn | hn
  · left
    have := hchain n 0 (by omega)
    rw [Nat.add_zero] at this
    rw [this]
    refine ⟨_, nth_zero_of_advance p N _ _ (hgood n (by omega)), ?_, fun h => by omega⟩
    show (indexWord N n).length ≤ 2
    refine (indexWord_length_le n 2 (by omega)).2 ?_
    simp only [geomSum]
    nlinarith
  · obtain ⟨m, rfl⟩ : ∃ m, n = (N + 1) + m := ⟨n - (N + 1), by omega⟩
    rw [hchain (N + 1) m (Nat.le_refl _)]
    have e : indexWord N (N + 1) = [1, 1] := by
      have : wordIndex N [1, 1] = N + 1 := by simp [wordIndex_cons]
      rw [← this, indexWord_wordIndex (by omega)]
      intro x hx; simp at hx; omega
    rw [e]
    have hs : Stuck N (keyOf N [1, 1]) := by
      have e0 : keyOf N [1, 1] = ⟨2, 0⟩ := by simp [keyOf, wordData_cons]
      rw [e0]
      exact ⟨rfl, by decide, by simp; omega, 1, by omega, by simp⟩
    rcases nth_stuck p N h1 hN hthird m _ hs with ⟨k, hk, hk2⟩ | h
    · exact .inl ⟨k, hk, by have := hk2.1.1; omega, fun _ => ⟨hk2.1, fun hp => by have := hk2.2 hp; omega⟩⟩
    · exact .inr h

/-- C07, how far the iteration gets.  For every alphabet size other than `2^m / 3 + 1` (that is 1, 2, 3, 6, 11, 22, 43, …), `iter_keys()` never
ends and never produces a word of three or more letters, although `max_depth` may be as large as 20: every item, from the first to any later
one, has degree at most two (a debug build may instead stop with an overflow panic). -/
theorem C07_never_past_degree_two (p : Profile) (N : Nat) (h1 : 1 ≤ N) (hN : N < 2 ^ 32) (hthird : ∀ m, N ≠ 2 ^ m / 3 + 1) (n : Nat) :
    (∃ k, BasisIter.nth p N n (.new N) = .ok (some k) ∧ k.size ≤ 2) ∨ (p = .debug ∧ BasisIter.nth p N n (.new N) = .panic) := by
  rcases nth_new_stuck p N h1 hN hthird n with ⟨k, hk, h2, _⟩ | h
  · exact .inl ⟨k, hk, h2⟩
  · exact .inr h

/-- Four letters (and, for instance, 5, 7, 8, 9, 10) satisfy the hypothesis. -/
example : ∀ m, 4 ≠ 2 ^ m / 3 + 1 := by
  intro m h
  rcases Nat.lt_or_ge m 4 with hm | hm
  · revert h; revert m; decide
  · have := Nat.pow_le_pow_right (n := 2) (by omega) hm
    omega

end RA
