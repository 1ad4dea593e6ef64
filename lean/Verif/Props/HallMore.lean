import Verif.Props.HallObject

/-!
# Letters and indices of Hall keys and Hall sets (C45, C47), and what lookups on shared objects answer (C75)
-/

namespace RA
open Spec Hall Hall.Shared

/-- C43.  Level 0 is a division by zero. -/
theorem C43_level_zero (p : Profile) (w : Nat) : levelSize p w 0 = .panic := by
  have hm : mobius p 1 = .ok 1 := by
    rw [mobius.eq_1]
    rfl
  have h : levelTerm p w 0 1 = .panic := by
    unfold levelTerm
    rw [hm, Res.bind_ok, divW_ok (by omega), Res.bind_ok]
    have : fitS p (powInt (toSigned w) (toU32 (0 / 1))) = .ok 1 := by
      show fitS p (toSigned w ^ 0) = _
      rw [pow_zero]
      rfl
    rw [this, Res.bind_ok]
    rfl
  unfold levelSize
  rw [levelSizeImpl.eq_1, remW_ok (by omega), Res.bind_ok, if_pos rfl, h]
  rfl

example : levelSize .release 5 0 = .panic := C43_level_zero .release 5

/-- C45.  `to_index`, `is_letter` and `is_valid` of every 64-bit word: the key less one, where the key 0 panics in debug and wraps around in release;
letters are the keys of size 1; a word is valid unless all its fields are 0. -/
theorem C45_any_key (p : Profile) (k : Nat) (hk : k < 2 ^ 64) :
    ∃ key l r sz, Key.getKey p k = .ok key ∧ Key.getLparent p k = .ok l ∧ Key.getRparent p k = .ok r ∧ Key.size p k = .ok sz ∧
      (1 ≤ key → Key.toIndex p k = .ok (key - 1)) ∧ (key = 0 → Key.toIndex p k = match p with | .debug => .panic | .release => .ok (2 ^ 64 - 1)) ∧
      (∃ b, Key.isLetter p k = .ok b ∧ (b = true ↔ sz = 1)) ∧ (Key.isValid k = false ↔ key = 0 ∧ l = 0 ∧ r = 0 ∧ sz = 0) := by
  obtain ⟨h1, h2, h3, h4⟩ := key_fields p k
  refine ⟨_, _, _, _, h1, h2, h3, h4, fun h => ?_, fun h => ?_, ⟨_, by unfold Key.isLetter; rw [h4, Res.bind_ok], by simp⟩, ?_⟩
  · unfold Key.toIndex
    rw [h1, Res.bind_ok, subW_ok h]
  · unfold Key.toIndex
    rw [h1, Res.bind_ok, h]
    cases p <;> rfl
  · unfold Key.isValid
    rw [decide_eq_false_iff_not, not_not]
    constructor
    · rintro rfl
      decide
    · rintro ⟨a, b, c, d⟩
      omega

example : Key.toIndex .debug 0 = .panic ∧ Key.toIndex .release 0 = .ok (2 ^ 64 - 1) := by decide +kernel
example := C45_any_key .debug (2 ^ 64 - 1) (by norm_num)

/-- C47.  `is_letter` of a Hall set never fails and is true exactly for the keys of the Hall keys that `from_letter` makes in debug builds. -/
theorem C47_is_letter (N key : Nat) (hN : N < 2 ^ 18) :
    ∃ b, Inner.isLetter N key = .ok b ∧ (b = true ↔ ∃ l k, Key.fromLetter .debug N l = .ok k ∧ Key.getKey .debug k = .ok key) := by
  refine ⟨_, rfl, ?_⟩
  rw [decide_eq_true_eq]
  constructor
  · intro h
    obtain ⟨k, h1, _, _, h2, _⟩ := C45_from_letter .debug N key h.1 h.2 (by omega)
    exact ⟨key, k, h1, h2⟩
  · rintro ⟨l, k, h1, h2⟩
    by_cases hl : 1 ≤ l ∧ l ≤ N
    · obtain ⟨k', h3, _, _, h4, _⟩ := C45_from_letter .debug N l hl.1 hl.2 (by omega)
      rw [h3] at h1
      cases h1
      rw [h4] at h2
      cases h2
      exact hl
    · unfold Key.fromLetter at h1
      rw [show decide (1 ≤ l ∧ l ≤ N) = false by simpa using hl] at h1
      cases h1

example : ∃ b, Inner.isLetter 3 3 = .ok b ∧ (b = true ↔ ∃ l k, Key.fromLetter .debug 3 l = .ok k ∧ Key.getKey .debug k = .ok 3) := C47_is_letter 3 3 (by norm_num)

/-- C47.  The degree of a key in every Hall set the code can make is 1 exactly below the number of letters, so the last letter has another degree, and 0, which is
no letter, has degree 1. -/
theorem C47_letter_degree (p : Profile) (N : Nat) (s : Inner) (h : ReachableInner p N s) (hfit : N ^ 5 < 2 ^ 63) (key : Nat) :
    (s.degree key = some 1 ↔ key < N) ∧ ((s.degree key = some 1 ↔ Inner.isLetter N key = .ok true) ↔ N = 0 ∨ key ≠ 0 ∧ key ≠ N) := by
  obtain ⟨_, h1, h3⟩ := reachable_inv p N s h
  have h2 := startingSize_pos N
  have hsort := mapOf_sorted p N s.degrees h1 hfit
  have hw : N < 2 ^ 63 := by simpa using pow_fit N 5 1 (le_refl _) (by omega) hfit
  have h6 : s.degrees.length ≤ 6 := by
    by_contra hc
    exact C43_hall_set_size_never_returns p N 6 _ hw (le_refl _) (h1 6 (by omega))
  have e0 : s.degrees[0]'(by omega) = 0 := by
    exact (Res.ok.inj (h1 0 (by omega))).symm
  have e1 : s.degrees[1]'(by omega) = N := by
    obtain ⟨W, hW, hs⟩ := C43_hall_set_size_partial p N 1 (by omega) (by simpa using hw)
    have hW1 := hW 1 (le_refl _) (le_refl _)
    rw [h1 1 (by omega)] at hs
    have hs := Res.ok.inj hs
    rw [hs, Finset.Icc_self, Finset.sum_singleton]
    unfold IsWitt at hW1
    rw [wittSum_one] at hW1
    omega
  obtain ⟨t1, t2, t3⟩ := takeWhile_length s.degrees key hsort
  have hd : s.degree key = some 1 ↔ key < N := by
    unfold Inner.degree RangeMap.findDeg
    rw [List.getLast?_eq_getElem?, List.getElem?_eq_getElem (by omega)]
    simp only
    have hl := hsort 1 (s.degrees.length - 1) (by omega) (by omega)
    rw [e1] at hl
    by_cases hk : s.degrees[s.degrees.length - 1]'(by omega) < key
    · rw [if_pos hk]
      constructor
      · nofun
      · intro; omega
    · rw [if_neg hk]
      show some (_ % 2 ^ 32) = some 1 ↔ _
      rw [Nat.mod_eq_of_lt (by omega), Option.some.injEq]
      constructor
      · intro ht
        have := t3 1 (by omega) (by omega)
        omega
      · intro hkN
        have a : ¬ 1 < _ := fun hlt => absurd (t2 1 (by omega) hlt) (by omega)
        have b : ¬ _ ≤ 0 := fun hle => absurd (t3 0 (by omega) hle) (by omega)
        omega
  refine ⟨hd, ?_⟩
  rw [hd]
  have : Inner.isLetter N key = .ok true ↔ 1 ≤ key ∧ key ≤ N := by
    unfold Inner.isLetter
    simp
  rw [this]
  omega

/-- Eleven letters: letter 11 has degree 2. -/
example (p : Profile) : ∃ s, ReachableInner p 11 s ∧ s.degree 10 = some 1 ∧ s.degree 11 ≠ some 1 ∧ Inner.isLetter 11 11 = .ok true := by
  obtain ⟨s, hs⟩ := new_returns p 11 (by omega) (by decide)
  have h := fun k => (C47_letter_degree p 11 s (.new hs) (by decide) k).1
  exact ⟨s, .new hs, (h 10).2 (by omega), fun e => absurd ((h 11).1 e) (by omega), rfl⟩

/-- C47.  `degree_range` of the largest degree does not overflow: the lookup of the degree itself fails first. -/
theorem C47_degree_range_last (p : Profile) (N : Nat) (s : Inner) (h : ReachableInner p N s) : s.degreeRange p (2 ^ 32 - 1) = .ok (.error .tooSmall) := by
  obtain ⟨_, _, h3⟩ := reachable_inv p N s h
  have : startingSize N ≤ 30 := by
    unfold startingSize
    split_ifs <;> omega
  unfold Inner.degreeRange RangeMap.get
  rw [List.getElem?_eq_none (by omega)]
  rfl

example (p : Profile) : ∃ s, ReachableInner p 11 s ∧ s.degreeRange p (2 ^ 32 - 1) = .ok (.error .tooSmall) := by
  obtain ⟨s, hs⟩ := new_returns p 11 (by omega) (by decide)
  exact ⟨s, .new hs, C47_degree_range_last p 11 s (.new hs)⟩

/-- C75.  The answers that threads get from lookups on a set that no panic has poisoned are those of the set itself. -/
theorem C75_answers (p : Profile) (N : Nat) (s : Inner) (k : Nat) :
    (∀ b, lookup p N s (.isLetter k) = .ok (.ok (.bool b)) ↔ Inner.isLetter N k = .ok b) ∧
    (∀ i, lookup p N s (.lparent k) = .ok (.ok (.info i)) ↔ s.lparentDetails k = .ok (.ok i)) ∧
    (∀ i, lookup p N s (.rparent k) = .ok (.ok (.info i)) ↔ s.rparentDetails k = .ok (.ok i)) ∧
    (∀ i, lookup p N s (.key k) = .ok (.ok (.info i)) ↔ s.keyDetails k = .ok (.ok i)) ∧
    (∀ a b, lookup p N s (.degreeRange k) = .ok (.ok (.range a b)) ↔ s.degreeRange p k = .ok (.ok (a, b))) ∧
    ∀ e, (lookup p N s (.isLetter k) ≠ .ok (.error e)) ∧ (lookup p N s (.lparent k) = .ok (.error e) ↔ s.lparentDetails k = .ok (.error e)) ∧
      (lookup p N s (.rparent k) = .ok (.error e) ↔ s.rparentDetails k = .ok (.error e)) ∧
      (lookup p N s (.key k) = .ok (.error e) ↔ s.keyDetails k = .ok (.error e)) ∧
      (lookup p N s (.degreeRange k) = .ok (.error e) ↔ s.degreeRange p k = .ok (.error e)) := by
  have key : ∀ {α : Type} (r : Res (Except SetError α)) (f : α → Answer), (∀ x y, f x = f y → x = y) →
      (∀ a, (r >>= fun x => .ok (x.map f)) = .ok (.ok (f a)) ↔ r = .ok (.ok a)) ∧ ∀ e, (r >>= fun x => .ok (x.map f)) = .ok (.error e) ↔ r = .ok (.error e) := by
    intro α r f hf
    rcases r with (e | a) | _ | _ | _
    · refine ⟨fun a => ⟨nofun, nofun⟩, fun e' => ⟨fun h => ?_, fun h => ?_⟩⟩ <;> cases h <;> rfl
    · refine ⟨fun b => ⟨fun h => ?_, fun h => ?_⟩, fun e => ⟨nofun, nofun⟩⟩
      · rw [hf a b (by injection h with h; injection h)]
      · cases h; rfl
    all_goals exact ⟨fun _ => ⟨nofun, nofun⟩, fun _ => ⟨nofun, nofun⟩⟩
  have hi : ∀ x y : ParentInfo, Answer.info x = Answer.info y → x = y := fun x y h => by cases h; rfl
  have hr : ∀ x y : Nat × Nat, Answer.range x.1 x.2 = Answer.range y.1 y.2 → x = y := fun x y h => by
    injection h with h1 h2
    exact Prod.ext h1 h2
  refine ⟨fun b => ⟨fun h => ?_, fun h => ?_⟩, (key _ _ hi).1, (key _ _ hi).1, (key _ _ hi).1, fun a b => (key _ (fun r : Nat × Nat => .range r.1 r.2) hr).1 (a, b),
    fun e => ⟨nofun, (key _ _ hi).2 e, (key _ _ hi).2 e, (key _ _ hi).2 e, (key _ (fun r : Nat × Nat => .range r.1 r.2) hr).2 e⟩⟩
  · unfold lookup Inner.isLetter at h
    unfold Inner.isLetter
    cases h
    rfl
  · show Res.ok ((Inner.isLetter N k).map Answer.bool) = _
    rw [h]
    rfl

example (p : Profile) : lookup p 2 ⟨3, [(0, 0)], [0, 2, 3]⟩ (.degreeRange 1) = .ok (.ok (.range 2 3)) :=
  ((C75_answers p 2 ⟨3, [(0, 0)], [0, 2, 3]⟩ 1).2.2.2.2.1 2 3).2 (by cases p <;> decide +kernel)

end RA
