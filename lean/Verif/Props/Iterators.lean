import Verif.Props.IterationMore
import Verif.Props.Profiles
import Mathlib.Data.Fintype.Pigeonhole

/-!
# The iterators keep the contract of iterators (C99)
-/

namespace RA
open Spec TensorKey TensorBasis

/-- The `n`-th item (counting from 0) produced by repeatedly calling `next` on the iterator over the letters of a key, from a given state. -/
def lettersNth (p : Profile) (N : Nat) (k : TensorKey) : (n : Nat) → (index : Nat) → Res (Option Nat)
  | 0, i => do
    let r ← lettersNext p N k i
    return r.1
  | n + 1, i => do
    let r ← lettersNext p N k i
    lettersNth p N k n r.2

/-- C99.  The iterator over the letters of a key: call number `n` returns letter number `n` of the word, and every call after the last letter returns `None`. -/
theorem C99_letters (p : Profile) (N : Nat) (h1 : 1 ≤ N) (hN : N < 2 ^ 32) (w : List Nat) (hw : ValidWord N w) (hl : w.length ≤ maxDepth N) (k : TensorKey)
    (hk : fromLetters p N w = .ok k) (n : Nat) : lettersNth p N k n 0 = .ok w[n]? := by
  obtain rfl : keyOf N w = k := Res.ok.inj ((fromLetters_ok p N h1 hN w hw hl).symm.trans hk)
  have hm := maxDepth_le N
  have key : ∀ n i, i ≤ w.length → lettersNth p N (keyOf N w) n i = .ok w[i + n]? := by
    intro n
    have step : ∀ i, i < w.length → lettersNext p N (keyOf N w) i = .ok (w[i]?, i + 1) := by
      intro i hi
      unfold lettersNext
      rw [if_neg (by simp only [keyOf]; omega), addW_ok (by omega), Res.bind_ok, subW_ok (show i + 1 ≤ (keyOf N w).size by simp only [keyOf]; omega), Res.bind_ok,
        getLetter_keyOf p N h1 hN w hw hl _ (by simp only [keyOf]; omega), Res.bind_ok, Res.pure_eq, List.getElem?_eq_getElem hi, List.getElem_reverse]
      have e : w.length - 1 - ((keyOf N w).size - (i + 1)) = i := by simp only [keyOf]; omega
      simp only [e]
    have last : lettersNext p N (keyOf N w) w.length = .ok (none, w.length) := if_pos rfl
    induction n with
    | zero =>
      intro i hi
      rcases Nat.lt_or_ge i w.length with h | h
      · rw [lettersNth, step i h, Res.bind_ok]; rfl
      · obtain rfl : i = w.length := by omega
        rw [lettersNth, last, Res.bind_ok, List.getElem?_eq_none (by omega)]; rfl
    | succ n ih =>
      intro i hi
      rcases Nat.lt_or_ge i w.length with h | h
      · rw [lettersNth, step i h, Res.bind_ok, ih (i + 1) (by omega), Nat.add_right_comm]; rfl
      · obtain rfl : i = w.length := by omega
        rw [lettersNth, last, Res.bind_ok, ih _ le_rfl, List.getElem?_eq_none (by omega), List.getElem?_eq_none (by omega)]
  rw [key n 0 (Nat.zero_le _), Nat.zero_add]

/-- The letters of `3 1 2`, and then nothing for ever. -/
example (p : Profile) (n : Nat) : ∃ k, fromLetters p 3 [3, 1, 2] = .ok k ∧ lettersNth p 3 k n 0 = .ok [3, 1, 2][n]? := by
  have hk := fromLetters_ok p 3 (by omega) (by omega) [3, 1, 2] (by decide) (by decide +kernel)
  exact ⟨_, hk, C99_letters p 3 (by omega) (by omega) [3, 1, 2] (by decide) (by decide +kernel) _ hk n⟩

/-- C99.  The iterator over letters is fused, in every state and for every key: after `None` come only `None`s. -/
theorem C99_letters_fused (p : Profile) (N : Nat) (k : TensorKey) (i j : Nat) (h : lettersNext p N k i = .ok (none, j)) (n : Nat) : lettersNth p N k n j = .ok none := by
  have hi : i = k.size ∧ j = i := by
    unfold lettersNext at h
    split_ifs at h with hi
    · cases h
      exact ⟨hi, rfl⟩
    · exfalso
      cases h1 : addW p 32 i 1 with
      | ok a =>
        rw [h1, Res.bind_ok] at h
        cases h2 : subW p 32 k.size a with
        | ok b =>
          rw [h2, Res.bind_ok] at h
          cases h3 : getLetter p N k b with
          | ok l => rw [h3, Res.bind_ok] at h; cases h
          | _ => rw [h3] at h; cases h
        | _ => rw [h2] at h; cases h
      | _ => rw [h1] at h; cases h
  obtain ⟨rfl, rfl⟩ := hi
  induction n with
  | zero => simp [lettersNth, lettersNext]
  | succ n ih => simpa [lettersNth, lettersNext] using ih

namespace TensorBasis

theorem next_cases {p : Profile} {N : Nat} {it : BasisIter} {o : Option TensorKey} {it' : BasisIter} (h : it.next p N = .ok (o, it')) :
    o = it.current ∧ it'.maxDepth = it.maxDepth ∧ (it.current = none → it' = it) := by
  unfold BasisIter.next at h
  split at h
  · rename_i hc
    cases h
    exact ⟨hc.symm, rfl, fun _ => rfl⟩
  · rename_i c hc
    cases h1 : advanceLoop p N it.maxDepth (c.size + 1) c 0 with
    | ok a =>
      rw [h1, Res.bind_ok] at h
      cases h
      exact ⟨hc.symm, rfl, fun h => by rw [hc] at h; cases h⟩
    | _ => rw [h1] at h; cases h

theorem next_none {p : Profile} {N : Nat} {it : BasisIter} (h : it.current = none) : it.next p N = .ok (none, it) := by
  unfold BasisIter.next
  rw [h]

theorem nth_of_none {p : Profile} {N : Nat} {it : BasisIter} (h : it.current = none) (n : Nat) : BasisIter.nth p N n it = .ok none := by
  induction n with
  | zero => rw [BasisIter.nth, next_none h, Res.bind_ok]; rfl
  | succ n ih => rw [BasisIter.nth, next_none h, Res.bind_ok]; exact ih

/-- When item `n` is there, the iterator went through a state that is about to yield it. -/
theorem nth_state {p : Profile} {N : Nat} (n : Nat) {it : BasisIter} {k : TensorKey} (h : BasisIter.nth p N n it = .ok (some k)) :
    ∃ it', it'.current = some k ∧ it'.maxDepth = it.maxDepth ∧ ∀ m, BasisIter.nth p N (n + m) it = BasisIter.nth p N m it' := by
  induction n generalizing it with
  | zero =>
    refine ⟨it, ?_, rfl, fun m => by rw [Nat.zero_add]⟩
    rw [BasisIter.nth] at h
    cases h1 : it.next p N with
    | ok r =>
      rw [h1, Res.bind_ok] at h
      have h2 := (next_cases (o := r.1) (it' := r.2) h1).1
      rw [← h2]
      exact Res.ok.inj h
    | _ => rw [h1] at h; cases h
  | succ n ih =>
    rw [BasisIter.nth] at h
    cases h1 : it.next p N with
    | ok r =>
      rw [h1, Res.bind_ok] at h
      obtain ⟨it', c1, c2, c3⟩ := ih h
      refine ⟨it', c1, c2.trans (next_cases (o := r.1) (it' := r.2) h1).2.1, fun m => ?_⟩
      rw [Nat.add_right_comm, BasisIter.nth, h1, Res.bind_ok]
      exact c3 m
    | _ => rw [h1] at h; cases h

/-- Every item before an item that is there is there. -/
theorem nth_earlier {p : Profile} {N n m : Nat} (h : n ≤ m) {it : BasisIter} {k : TensorKey} (hm : BasisIter.nth p N m it = .ok (some k)) :
    ∃ k', BasisIter.nth p N n it = .ok (some k') := by
  induction n generalizing m it with
  | zero =>
    cases hc : it.current with
    | none => rw [nth_of_none hc] at hm; cases hm
    | some c =>
      refine ⟨c, ?_⟩
      have : ∃ r, it.next p N = .ok r := by
        cases h1 : it.next p N with
        | ok r => exact ⟨r, rfl⟩
        | _ => cases m <;> rw [BasisIter.nth, h1] at hm <;> cases hm
      obtain ⟨r, hr⟩ := this
      rw [BasisIter.nth, hr, Res.bind_ok, (next_cases (o := r.1) (it' := r.2) hr).1, hc]
      rfl
  | succ n ih =>
    obtain ⟨m, rfl⟩ := Nat.exists_eq_add_of_le' (by omega : 1 ≤ m)
    rw [BasisIter.nth] at hm ⊢
    cases h1 : it.next p N with
    | ok r =>
      rw [h1, Res.bind_ok] at hm
      rw [Res.bind_ok]
      exact ih (by omega) hm
    | _ => rw [h1] at hm; cases hm

end TensorBasis

/-- C99.  The iterator over the basis is fused, in every state: after `None` come only `None`s. -/
theorem C99_basis_fused (p : Profile) (N : Nat) (it it' : BasisIter) (h : it.next p N = .ok (none, it')) (n : Nat) : BasisIter.nth p N n it' = .ok none := by
  obtain ⟨h1, _, h2⟩ := next_cases h
  rw [h2 h1.symm]
  exact nth_of_none h1.symm n

/-- C99.  Iteration can be resumed: starting from any key that the iteration yields, `starting_from` yields what the iteration goes on with, to the end or to a panic. -/
theorem C99_resume (p : Profile) (N n : Nat) (k : TensorKey) (h : BasisIter.nth p N n (.new N) = .ok (some k)) (m : Nat) :
    BasisIter.nth p N m (.startingFrom N k) = BasisIter.nth p N (n + m) (.new N) := by
  obtain ⟨it, h1, h2, h3⟩ := nth_state n h
  rw [h3 m]
  congr 1
  cases it
  cases h1
  cases h2
  rfl

/-- C99.  If the iteration yields a key twice, it goes round for ever. -/
theorem C99_repeat (p : Profile) (N n m : Nat) (hnm : n < m) (k : TensorKey) (hn : BasisIter.nth p N n (.new N) = .ok (some k))
    (hm : BasisIter.nth p N m (.new N) = .ok (some k)) (j : Nat) :
    BasisIter.nth p N (j + m) (.new N) = BasisIter.nth p N (j + n) (.new N) ∧ ∃ k', BasisIter.nth p N j (.new N) = .ok (some k') := by
  have round : ∀ j, BasisIter.nth p N (j + m) (.new N) = BasisIter.nth p N (j + n) (.new N) := fun j => by
    rw [Nat.add_comm j m, Nat.add_comm j n, ← C99_resume p N n k hn j, ← C99_resume p N m k hm j]
  refine ⟨round j, ?_⟩
  induction j using Nat.strong_induction_on with
  | _ j ih =>
    rcases Nat.lt_or_ge m j with h | h
    · have := round (j - m)
      rw [Nat.sub_add_cancel h.le] at this
      rw [this]
      exact ih _ (by omega)
    · exact nth_earlier h hm

/-- With three letters, items 4 to 12 are the words of length two; started from the first of them the iterator yields the others. -/
example (p : Profile) (m : Nat) := C99_resume p 3 4 ⟨2, 0⟩ (by cases p <;> decide +kernel) m

/-- The alphabets over which the iteration ends. -/
def EndingAlphabet (N : Nat) : Prop := N = 1 ∨ N = 2 ∨ ∃ m, 23 ≤ m ∧ N = 2 ^ m / 3 + 1

/-- Over the other alphabets the keys end up with a fixed number of letters. -/
theorem nth_other (p : Profile) (N : Nat) (h1 : 1 ≤ N) (hN : N < 2 ^ 32) (he : ¬ EndingAlphabet N) :
    ∃ a s, ∀ n, (∃ k, BasisIter.nth p N n (.new N) = .ok (some k) ∧ (a ≤ n → k.size = s ∧ k.data < 2 ^ 64 ∧ (p = .debug → n - a ≤ k.data))) ∨
      (p = .debug ∧ BasisIter.nth p N n (.new N) = .panic) := by
  have n1 : N ≠ 1 := fun h => he (.inl h)
  have n2 : N ≠ 2 := fun h => he (.inr (.inl h))
  have n3 : ∀ m, 23 ≤ m → N ≠ 2 ^ m / 3 + 1 := fun m hm h => he (.inr (.inr ⟨m, hm, h⟩))
  by_cases hth : ∀ m, N ≠ 2 ^ m / 3 + 1
  · refine ⟨N + 1, 2, fun n => ?_⟩
    rcases nth_new_stuck p N h1 hN hth n with ⟨k, hk, _, h⟩ | h
    · exact .inl ⟨k, hk, fun hn => ⟨(h hn).1.1, (h hn).1.2.1, (h hn).2⟩⟩
    · exact .inr h
  · obtain ⟨m, rfl⟩ : ∃ m, N = 2 ^ m / 3 + 1 := by
      by_contra hc
      exact hth fun m h => hc ⟨m, h⟩
    have hm3 : 3 ≤ m := by
      by_contra hc
      have : 2 ^ m ≤ 2 ^ 2 := Nat.pow_le_pow_right (by omega) (by omega)
      omega
    have hm22 : m ≤ 22 := by
      by_contra hc
      exact n3 m (by omega) rfl
    refine ⟨1 + (2 ^ m / 3 + 1) + m * (2 ^ m / 3 + 1), 3, fun n => ?_⟩
    rcases nth_thirds_stuck p m hm3 hm22 n with ⟨k, hk, _, h, h'⟩ | h
    · exact .inl ⟨k, hk, fun hn => ⟨h.2 hn, h' hn⟩⟩
    · exact .inr h

/-- C99.  The iteration over the keys comes to an end over exactly these alphabets: one letter, two letters, and `2^m / 3 + 1` letters for `m` from 23 on
(2796203, 5592406, …, 2863311531). -/
theorem C99_ends_iff (p : Profile) (N : Nat) (h1 : 1 ≤ N) (hN : N < 2 ^ 32) : (∃ n, BasisIter.nth p N n (.new N) = .ok none) ↔ N = 1 ∨ N = 2 ∨ ∃ m, 23 ≤ m ∧ N = 2 ^ m / 3 + 1 := by
  constructor
  · rintro ⟨n, hn⟩
    by_contra hc
    obtain ⟨a, s, h⟩ := nth_other p N h1 hN hc
    rcases h n with ⟨k, hk, _⟩ | ⟨_, h⟩
    · rw [hn] at hk
      cases hk
    · rw [hn] at h
      cases h
  · rintro (rfl | rfl | ⟨m, hm, rfl⟩)
    · exact ⟨_, (C07_iter_keys_one_letter p).2 _ (Nat.le_refl _)⟩
    · exact ⟨8675, (C07_two_letters_ends p).2.2.1 _ (Nat.le_refl _)⟩
    · have hm33 : m ≤ 33 := by
        by_contra hc
        have : 2 ^ 34 ≤ 2 ^ m := Nat.pow_le_pow_right (by omega) (by omega)
        omega
      exact ⟨_, (C07_thirds_end p m hm hm33 _).2 (Nat.le_refl _)⟩

/-- C99.  Over every other alphabet a release build goes round: from some item on, the sequence of keys repeats itself. -/
theorem C99_release_round (N : Nat) (h1 : 1 ≤ N) (hN : N < 2 ^ 32) (he : ¬ (N = 1 ∨ N = 2 ∨ ∃ m, 23 ≤ m ∧ N = 2 ^ m / 3 + 1)) :
    ∃ n m, n < m ∧ ∀ j, BasisIter.nth .release N (j + m) (.new N) = BasisIter.nth .release N (j + n) (.new N) := by
  obtain ⟨c, s, item⟩ := nth_other .release N h1 hN he
  replace item := fun n => (item n).resolve_right (fun h => absurd h.1 nofun)
  choose f hf hs using item
  obtain ⟨a, b, hab, he⟩ := Finite.exists_ne_map_eq_of_infinite fun n : Nat => (⟨(f (n + c)).data, (hs _ (by omega)).2.1⟩ : Fin (2 ^ 64))
  have hk : f (a + c) = f (b + c) := by
    have ha := hs (a + c) (by omega)
    have hb := hs (b + c) (by omega)
    have := Fin.mk.inj he
    revert ha hb this
    generalize f (a + c) = x
    generalize f (b + c) = y
    intro ha hb e
    cases x
    cases y
    simp only at ha hb e
    rw [e, ha.1, hb.1]
  rcases Nat.lt_or_gt_of_ne hab with h | h
  · exact ⟨a + c, b + c, by omega, fun j => (C99_repeat .release N _ _ (by omega) _ (hf _) (hk ▸ hf _) j).1⟩
  · exact ⟨b + c, a + c, by omega, fun j => (C99_repeat .release N _ _ (by omega) _ (hf _) (hk ▸ hf _) j).1⟩

/-- C99.  Over the same alphabets a debug build panics after finitely many items. -/
theorem C99_debug_panics (N : Nat) (h1 : 1 ≤ N) (hN : N < 2 ^ 32) (he : ¬ (N = 1 ∨ N = 2 ∨ ∃ m, 23 ≤ m ∧ N = 2 ^ m / 3 + 1)) :
    ∃ n, BasisIter.nth .debug N n (.new N) = .panic := by
  obtain ⟨c, s, item⟩ := nth_other .debug N h1 hN he
  rcases item (c + 2 ^ 64) with ⟨k, _, h⟩ | h
  · obtain ⟨_, h3, h2⟩ := h (Nat.le_add_right _ _)
    have h2 := h2 rfl
    rw [Nat.add_sub_cancel_left] at h2
    omega
  · exact ⟨_, h.2⟩

theorem four_other : ¬ (4 = 1 ∨ 4 = 2 ∨ ∃ m, 23 ≤ m ∧ 4 = 2 ^ m / 3 + 1) := by
  rintro (h | h | ⟨m, hm, h⟩)
  · omega
  · omega
  · have : 2 ^ 23 ≤ 2 ^ m := Nat.pow_le_pow_right (by omega) hm
    omega

/-- Four letters: the release build yields keys for ever, going round; the debug build panics. -/
example : (∃ n m, n < m ∧ ∀ j, BasisIter.nth .release 4 (j + m) (.new 4) = BasisIter.nth .release 4 (j + n) (.new 4)) ∧
    ∃ n, BasisIter.nth .debug 4 n (.new 4) = .panic :=
  ⟨C99_release_round 4 (by omega) (by omega) four_other, C99_debug_panics 4 (by omega) (by omega) four_other⟩

/-- The largest alphabet over which the iteration ends. -/
example (p : Profile) : ∃ n, BasisIter.nth p 2863311531 n (.new 2863311531) = .ok none := (C99_ends_iff p _ (by omega) (by omega)).2 (.inr (.inr ⟨33, by omega, by decide⟩))

/-- So the hypotheses of `C99_repeat` do occur. -/
example : ∃ n m k, n < m ∧ BasisIter.nth .release 4 n (.new 4) = .ok (some k) ∧ BasisIter.nth .release 4 m (.new 4) = .ok (some k) := by
  obtain ⟨n, m, hnm, h⟩ := C99_release_round 4 (by omega) (by omega) four_other
  obtain ⟨_, _, item⟩ := nth_other .release 4 (by omega) (by omega) four_other
  rcases item n with ⟨k, hk, _⟩ | h'
  · have := h 0
    rw [Nat.zero_add, Nat.zero_add, hk] at this
    exact ⟨n, m, k, hnm, hk, this⟩
  · exact absurd h'.1 nofun

/-- The iterator over the letters of the empty word is at its end at once, and stays there. -/
example (p : Profile) (n : Nat) : lettersNth p 3 TensorKey.new n 0 = .ok none := C99_letters_fused p 3 TensorKey.new 0 0 rfl n

/-- With one letter the iterator over the basis ends: the last of the 60 keys is item 59, and no later call yields anything. -/
example (p : Profile) (n : Nat) : ∃ it, BasisIter.next p 1 (.startingFrom 1 ⟨59, 0⟩) = .ok (some ⟨59, 0⟩, it) ∧ it.next p 1 = .ok (none, it) ∧ BasisIter.nth p 1 n it = .ok none := by
  have h : BasisIter.next p 1 (.startingFrom 1 ⟨59, 0⟩) = .ok (some ⟨59, 0⟩, ⟨none, 59⟩) := by cases p <;> decide +kernel
  exact ⟨_, h, rfl, C99_basis_fused p 1 ⟨none, 59⟩ _ rfl n⟩

end RA
