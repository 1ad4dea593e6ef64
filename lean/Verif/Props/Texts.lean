import Verif.Props.Keys
import Verif.Props.Hall
import Verif.Model.HallText

/-!
# Texts can be told apart (C74)
-/

namespace RA
open Spec TensorKey

/-! ## Decimal numerals -/

theorem toList_toString_nat (n : Nat) : (toString n).toList = Nat.toDigits 10 n := by
  rw [show toString n = n.repr from rfl, Nat.toList_repr]

theorem toDigits_inj {a b : Nat} (h : Nat.toDigits 10 a = Nat.toDigits 10 b) : a = b := by
  rw [← Nat.ofDigitChars_ten_toDigits (n := a), h, Nat.ofDigitChars_ten_toDigits]

theorem digits_isDigit (n : Nat) : ∀ c ∈ Nat.toDigits 10 n, c.isDigit = true := fun _ hc => Nat.isDigit_of_mem_toDigits (by omega) (by omega) hc

/-- Two numerals followed by something that is not a digit. -/
theorem numeral_split {a b : Nat} {c c' : Char} {r r' : List Char} (hc : c.isDigit = false) (hc' : c'.isDigit = false)
    (h : Nat.toDigits 10 a ++ c :: r = Nat.toDigits 10 b ++ c' :: r') : a = b ∧ c :: r = c' :: r' := by
  have key : ∀ (l l' : List Char), (∀ x ∈ l, x.isDigit = true) → (∀ x ∈ l', x.isDigit = true) → l ++ c :: r = l' ++ c' :: r' → l = l' ∧ c :: r = c' :: r' := by
    intro l
    induction l with
    | nil =>
      intro l' _ hl' e
      cases l' with
      | nil => exact ⟨rfl, e⟩
      | cons x l' =>
        rw [List.nil_append, List.cons_append] at e
        injection e with e1 _
        rw [e1, hl' x (by simp)] at hc
        cases hc
    | cons y l ih =>
      intro l' hl hl' e
      cases l' with
      | nil =>
        rw [List.nil_append, List.cons_append] at e
        injection e with e1 _
        rw [← e1, hl y (by simp)] at hc'
        cases hc'
      | cons x l' =>
        rw [List.cons_append, List.cons_append] at e
        injection e with e1 e2
        obtain ⟨h1, h2⟩ := ih l' (fun z hz => hl z (by simp [hz])) (fun z hz => hl' z (by simp [hz])) e2
        exact ⟨by rw [e1, h1], h2⟩
  obtain ⟨h1, h2⟩ := key _ _ (digits_isDigit a) (digits_isDigit b) h
  exact ⟨toDigits_inj h1, h2⟩

theorem commaSep_inj (l l' : List Nat) (h : (commaSep l).toList ++ [')'] = (commaSep l').toList ++ [')']) : l = l' := by
  have hd : (')' : Char).isDigit = false := by decide
  have hd' : (',' : Char).isDigit = false := by decide
  have hne : ∀ (a : Nat) (r : List Char), Nat.toDigits 10 a ++ r ≠ [')'] := by
    intro a r e
    cases hx : Nat.toDigits 10 a with
    | nil => exact Nat.toDigits_ne_nil hx
    | cons x t =>
      have := digits_isDigit a x (by rw [hx]; simp)
      rw [hx, List.cons_append] at e
      injection e with e1 _
      rw [e1] at this
      rw [this] at hd
      cases hd
  have hcons : ∀ (a : Nat) (l : List Nat), ∃ c r, (commaSep (a :: l)).toList ++ [')'] = Nat.toDigits 10 a ++ c :: r ∧
      ((l = [] ∧ c = ')' ∧ r = []) ∨ (l ≠ [] ∧ c = ',' ∧ r = ' ' :: ((commaSep l).toList ++ [')']))) := by
    intro a l
    cases l with
    | nil => exact ⟨')', [], by simp [commaSep], .inl ⟨rfl, rfl, rfl⟩⟩
    | cons b l =>
      refine ⟨',', _, ?_, .inr ⟨by simp, rfl, rfl⟩⟩
      simp [commaSep, String.toList_append]
  induction l generalizing l' with
  | nil =>
    cases l' with
    | nil => rfl
    | cons b l' =>
      obtain ⟨c, r, e, _⟩ := hcons b l'
      rw [e] at h
      exact absurd h.symm (hne _ _)
  | cons a l ih =>
    obtain ⟨c, r, e, hcr⟩ := hcons a l
    cases l' with
    | nil =>
      rw [e] at h
      exact absurd h (hne _ _)
    | cons b l' =>
      obtain ⟨c', r', e', hcr'⟩ := hcons b l'
      rw [e, e'] at h
      obtain ⟨h1, h2⟩ := numeral_split (by rcases hcr with ⟨_, rfl, _⟩ | ⟨_, rfl, _⟩ <;> decide) (by rcases hcr' with ⟨_, rfl, _⟩ | ⟨_, rfl, _⟩ <;> decide) h
      injection h2 with h2 h3
      rcases hcr with ⟨g1, g2, g3⟩ | ⟨g1, g2, g3⟩ <;> rcases hcr' with ⟨g1', g2', g3'⟩ | ⟨g1', g2', g3'⟩
      · rw [h1, g1, g1']
      · rw [g2, g2'] at h2
        exact absurd h2 (by decide)
      · rw [g2, g2'] at h2
        exact absurd h2 (by decide)
      · rw [g3, g3'] at h3
        injection h3 with _ h3
        rw [h1, ih l' h3]

/-- C74.  Distinct words have distinct Debug texts. -/
theorem C74_tensor_key_partial (p : Profile) (N : Nat) (h1 : 1 ≤ N) (hN : N < 2 ^ 32) (w w' : List Nat) (hw : ValidWord N w) (hw' : ValidWord N w')
    (hl : w.length ≤ maxDepth N) (hl' : w'.length ≤ maxDepth N) (k k' : TensorKey) (hk : fromLetters p N w = .ok k) (hk' : fromLetters p N w' = .ok k')
    (h : debugFmt p N k = debugFmt p N k') : w = w' := by
  rw [C15_debug_text_partial p N h1 hN w hw hl k hk, C15_debug_text_partial p N h1 hN w' hw' hl' k' hk'] at h
  injection h with h
  have h := congrArg String.toList h
  unfold keyText at h
  simp only [String.toList_append] at h
  rw [List.append_assoc, List.append_assoc] at h
  have := commaSep_inj _ _ (List.append_cancel_left h)
  simpa using this

example := C74_tensor_key_partial .debug 12 (by omega) (by omega) [1, 12] [11, 2] (by decide) (by decide) (by decide +kernel) (by decide +kernel) _ _
  (fromLetters_ok .debug 12 (by omega) (by omega) _ (by decide) (by decide +kernel))
  (fromLetters_ok .debug 12 (by omega) (by omega) _ (by decide) (by decide +kernel))

/-! ## Hall keys -/

open Hall

/-- C74.  The Debug text of a Hall key determines the key. -/
theorem C74_hall_debug_partial (p : Profile) (k k' : Nat) (hk : k < 2 ^ 64) (hk' : k' < 2 ^ 64) (h : Key.debugText p k = Key.debugText p k') : k = k' := by
  obtain ⟨a, l, r, s, a1, a2, a3, a4, a5⟩ := C45_unpack_pack p k hk
  obtain ⟨b, l', r', s', b1, b2, b3, b4, b5⟩ := C45_unpack_pack p k' hk'
  unfold Key.debugText at h
  rw [a1, a2, a3, a4, b1, b2, b3, b4] at h
  simp only [Res.bind_ok] at h
  have h := Res.ok.inj h
  have h := congrArg String.toList h
  simp only [String.toList_append, toList_toString_nat, List.append_assoc] at h
  rw [show ", lparent=".toList = ',' :: " lparent=".toList by decide, show ", rparent=".toList = ',' :: " rparent=".toList by decide,
    show ", size=".toList = ',' :: " size=".toList by decide, show ")".toList = [')'] by decide] at h
  simp only [List.cons_append] at h
  generalize " lparent=".toList = t1 at h
  generalize " rparent=".toList = t2 at h
  generalize " size=".toList = t3 at h
  have h := List.append_cancel_left h
  obtain ⟨e1, h⟩ := numeral_split (by decide) (by decide) h
  have h := (List.cons.inj h).2
  obtain ⟨e2, h⟩ := numeral_split (by decide) (by decide) (List.append_cancel_left h)
  have h := (List.cons.inj h).2
  obtain ⟨e3, h⟩ := numeral_split (by decide) (by decide) (List.append_cancel_left h)
  have h := (List.cons.inj h).2
  obtain ⟨e4, _⟩ := numeral_split (by decide) (by decide) (List.append_cancel_left h)
  rw [e1, e2, e3, e4, b5] at a5
  exact (Res.ok.inj a5).symm

example := C74_hall_debug_partial .debug (2 ^ 54 * 2 + 2 ^ 36 * 2 + 2 ^ 18 + 3) (2 ^ 54 * 2 + 2 ^ 36 + 2 ^ 18 * 2 + 3) (by norm_num) (by norm_num)

/-- The text of a key with given fields. -/
theorem displayText_of (p : Profile) (k key l r sz : Nat) (h1 : Key.getKey p k = .ok key) (h2 : Key.getLparent p k = .ok l) (h3 : Key.getRparent p k = .ok r)
    (h4 : Key.size p k = .ok sz) :
    ∃ s, Key.displayText p k = .ok s ∧ s.toList = if sz = 1 then Nat.toDigits 10 key else '[' :: (Nat.toDigits 10 l ++ ',' :: ' ' :: (Nat.toDigits 10 r ++ [']'])) := by
  unfold Key.displayText Key.display Key.isLetter
  rw [h4, h1, h2, h3]
  simp only [Res.bind_ok]
  by_cases hs : sz = 1
  · subst hs
    refine ⟨_, rfl, ?_⟩
    simp [Key.Piece.toText]
  · rw [if_neg hs, show decide (sz = 1) = false by simpa using hs]
    refine ⟨_, rfl, ?_⟩
    simp [Key.Piece.toText, String.toList_append]

/-- C74.  The Display text of a Hall key tells whether it is a letter; it determines the letter, or the two parents. -/
theorem C74_hall_display_partial (p : Profile) (k k' key l r sz key' l' r' sz' : Nat) (hk : key < 2 ^ 18) (hl : l < 2 ^ 18) (hr : r < 2 ^ 18) (hs : sz < 2 ^ 10)
    (hk' : key' < 2 ^ 18) (hl' : l' < 2 ^ 18) (hr' : r' < 2 ^ 18) (hs' : sz' < 2 ^ 10) (hm : Key.makeKeyData p key l r sz = .ok k)
    (hm' : Key.makeKeyData p key' l' r' sz' = .ok k') :
    Key.displayText p k = Key.displayText p k' ↔ (sz = 1 ∧ sz' = 1 ∧ key = key') ∨ (sz ≠ 1 ∧ sz' ≠ 1 ∧ l = l' ∧ r = r') := by
  obtain ⟨k1, g1, _, a1, a2, a3, a4⟩ := C45_pack_unpack p key l r sz hk hl hr hs
  obtain ⟨k2, g2, _, b1, b2, b3, b4⟩ := C45_pack_unpack p key' l' r' sz' hk' hl' hr' hs'
  rw [hm] at g1
  rw [hm'] at g2
  cases g1
  cases g2
  obtain ⟨s, e, t⟩ := displayText_of p k key l r sz a1 a2 a3 a4
  obtain ⟨s', e', t'⟩ := displayText_of p k' key' l' r' sz' b1 b2 b3 b4
  have hb : ∀ (n : Nat) (t : List Char), Nat.toDigits 10 n ≠ '[' :: t := by
    intro n t h
    have := digits_isDigit n '[' (by rw [h]; simp)
    exact absurd this (by decide)
  rw [e, e']
  constructor
  · intro h
    injection h with h
    rw [h, t'] at t
    by_cases h1 : sz = 1 <;> by_cases h2 : sz' = 1
    · rw [if_pos h1, if_pos h2] at t
      exact .inl ⟨h1, h2, (toDigits_inj t).symm⟩
    · rw [if_pos h1, if_neg h2] at t
      exact absurd t.symm (hb _ _)
    · rw [if_neg h1, if_pos h2] at t
      exact absurd t (hb _ _)
    · rw [if_neg h1, if_neg h2] at t
      injection t with _ t
      obtain ⟨t1, t2⟩ := numeral_split (by decide) (by decide) t
      injection t2 with _ t2
      injection t2 with _ t2
      obtain ⟨t3, _⟩ := numeral_split (by decide) (by decide) t2
      exact .inr ⟨h1, h2, t1.symm, t3.symm⟩
  · rintro (⟨h1, h2, h3⟩ | ⟨h1, h2, h3, h4⟩)
    · rw [if_pos h1] at t
      rw [if_pos h2, ← h3, ← t] at t'
      rw [String.toList_inj.mp t']
    · rw [if_neg h1] at t
      rw [if_neg h2, ← h3, ← h4, ← t] at t'
      rw [String.toList_inj.mp t']

example := C74_hall_display_partial .debug (2 ^ 54 * 2 + 2 ^ 36 * 2 + 2 ^ 18 + 3) (2 ^ 54 * 1 + 2 ^ 36 * 12 + 12) 3 1 2 2 12 0 12 1 (by omega) (by omega)
  (by omega) (by omega) (by omega) (by omega) (by omega) (by omega) (by decide +kernel) (by decide +kernel)

/-- C74, the full statement for Hall keys: distinct keys have distinct Display texts. -/
def C74_hall_display_full (p : Profile) : Prop := ∀ k k', k < 2 ^ 64 → k' < 2 ^ 64 → Key.displayText p k = Key.displayText p k' → k = k'

/-- C74 is false: a key of a pair is printed without its own number and size. -/
theorem C74_hall_display_refuted (p : Profile) : ¬ C74_hall_display_full p := by
  intro h
  obtain ⟨k, hk, b, a1, _⟩ := C45_pack_unpack p 3 1 2 2 (by omega) (by omega) (by omega) (by omega)
  obtain ⟨k', hk', b', a1', _⟩ := C45_pack_unpack p 4 1 2 2 (by omega) (by omega) (by omega) (by omega)
  have := h k k' b b' ((C74_hall_display_partial p k k' 3 1 2 2 4 1 2 2 (by omega) (by omega) (by omega) (by omega) (by omega) (by omega) (by omega) (by omega)
    hk hk').mpr (.inr ⟨by omega, by omega, rfl, rfl⟩))
  rw [this, a1'] at a1
  injection a1 with a1
  omega

/-! ## Errors -/

/-- C74, the full statement for the errors of Hall sets: distinct errors have distinct texts. -/
def C74_error_texts_full : Prop := ∀ e e' : AnyError, e.toText = e'.toText → e = e'

/-- C74 is false: a failed read and a failed write of the lock print the same text. -/
theorem C74_error_texts_refuted : ¬ C74_error_texts_full := by
  intro h
  exact absurd (h (.set .readError) (.set .writeError) rfl) (by decide)

/-- C74, the part that holds: apart from that pair the texts differ. -/
theorem C74_error_texts_partial (e e' : AnyError) (h : e.toText = e'.toText) :
    e = e' ∨ (e = .set .readError ∧ e' = .set .writeError) ∨ (e = .set .writeError ∧ e' = .set .readError) := by
  have hpre : ∀ (a b c : String), a ++ b = c → a.toList <+: c.toList := fun a b c h => ⟨b.toList, by rw [← String.toList_append, h]⟩
  match e, e' with
  | .set .tooSmall, .set .tooSmall | .set .readError, .set .readError | .set .writeError, .set .writeError => exact .inl rfl
  | .set .tooSmall, .set .readError | .set .tooSmall, .set .writeError | .set .readError, .set .tooSmall | .set .writeError, .set .tooSmall =>
    exact absurd (congrArg String.toList h) (by decide)
  | .set .readError, .set .writeError => exact .inr (.inl ⟨rfl, rfl⟩)
  | .set .writeError, .set .readError => exact .inr (.inr ⟨rfl, rfl⟩)
  | .other a, .other b =>
    have h := congrArg String.toList h
    unfold AnyError.toText at h
    rw [String.toList_append, String.toList_append] at h
    rw [String.toList_inj.mp (List.append_cancel_left h)]
    exact .inl rfl
  | .other a, .set .tooSmall | .other a, .set .readError | .other a, .set .writeError => exact absurd (hpre _ _ _ h) (by decide)
  | .set .tooSmall, .other a | .set .readError, .other a | .set .writeError, .other a => exact absurd (hpre _ _ _ h.symm) (by decide)

example := C74_error_texts_partial (.other "disk full") (.set .tooSmall)

end RA
