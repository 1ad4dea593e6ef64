import Verif.Model.DenseMore
import Verif.Model.Float
import Verif.Props.Basis
import Verif.Props.Keys
import Verif.Props.Algebra

/-!
# Printing dense vectors (C58) and slice access (C60)
-/

namespace RA
open Spec TensorKey TensorBasis

/-! ## C58 -/

/-- The text of coefficients and keys: each coefficient followed by its key. -/
def Spec.vectorText {S K : Type} (showS : S → String) (showK : K → String) : List S → List K → String
  | s :: ss, k :: ks => showS s ++ showK k ++ vectorText showS showK ss ks
  | _, _ => ""

/-- C58, full statement for tensors: a dense vector is printed as its coefficients, each followed by the letters of its key, in the order of the basis
(`ws` is the list of all words of the vector in that order). -/
def C58_display_full (p : Profile) (N : Nat) : Prop :=
  ∀ (S : Type) (showS : S → String) (d : Dense S) (ws : List (List Nat)), ws.length = d.size →
    (∀ i (h : i < ws.length), ValidWord N ws[i] ∧ ws[i].length ≤ maxDepth N ∧ wordIndex N ws[i] = i) →
    ∃ fuel, Dense.displayTensor p N (fun s => .ok (showS s)) d fuel = .ok (vectorText showS keyText d.data ws)

theorem next_first (p : Profile) (N : Nat) (h1 : 1 ≤ N) (hN : N < 2 ^ 32) :
    ∃ it, BasisIter.next p N (.new N) = .ok (some TensorKey.new, it) :=
  ⟨⟨some (keyOf N [1]), maxDepth N⟩, by
    show BasisIter.next p N (.startingFrom N (keyOf N [])) = _
    rw [next_some, advance_empty p N h1 hN]
    rfl⟩

/-- C58 is false: printing any vector with at least one coefficient never returns. -/
theorem C58_display_diverges {S : Type} (p : Profile) (N : Nat) (h1 : 1 ≤ N) (hN : N < 2 ^ 32) (showS : S → String) (d : Dense S) (hd : 0 < d.size)
    (fuel : Nat) : Dense.displayTensor p N (fun s => .ok (showS s)) d fuel = .diverge := by
  obtain ⟨it, hit⟩ := next_first p N h1 hN
  unfold Dense.displayTensor Dense.displayFmt
  unfold Dense.size at hd
  match h : d.data with
  | [] => rw [h] at hd; cases hd
  | v :: vs =>
    rw [Dense.displayLoop, hit, Res.bind_ok]
    simp only [Res.bind_ok]
    rw [C15_display_diverges]
    rfl

example (fuel : Nat) : Dense.displayTensor .release 3 (fun s => .ok (toString s)) (.ofVec [(7 : Int), 0, 1, 2]) fuel = .diverge :=
  C58_display_diverges .release 3 (by omega) (by omega) _ _ (by decide) fuel

theorem C58_display_refuted (p : Profile) (N : Nat) (h1 : 1 ≤ N) (hN : N < 2 ^ 32) : ¬ C58_display_full p N := by
  intro h
  obtain ⟨fuel, hf⟩ := h Int toString (.ofVec [1]) [[]] rfl (by
    intro i hi
    have : i = 0 := by simp at hi; omega
    subst this
    exact ⟨by intro x hx; simp at hx, by simp, rfl⟩)
  rw [C58_display_diverges p N h1 hN toString _ (by decide)] at hf
  cases hf

example : ¬ C58_display_full .debug 3 := C58_display_refuted .debug 3 (by omega) (by omega)

/-- C58, what holds of tensors: the empty vector prints as nothing. -/
theorem C58_display_empty_partial {S : Type} (p : Profile) (N : Nat) (h1 : 1 ≤ N) (hN : N < 2 ^ 32) (showS : S → String) (d : Dense S)
    (hd : d.size = 0) (fuel : Nat) : Dense.displayTensor p N (fun s => .ok (showS s)) d fuel = .ok "" := by
  obtain ⟨it, hit⟩ := next_first p N h1 hN
  unfold Dense.displayTensor Dense.displayFmt
  rw [List.length_eq_zero_iff.mp hd, Dense.displayLoop, hit]
  rfl

example : Dense.displayTensor .debug 2 (fun s => .ok (toString s)) (.ofVec ([] : List Int)) 5 = .ok "" :=
  C58_display_empty_partial .debug 2 (by omega) (by omega) _ _ rfl 5

/-- C58, exactly when: printing a tensor returns the right text only for the empty vector. -/
theorem C58_display_right_iff_partial {S : Type} (p : Profile) (N : Nat) (h1 : 1 ≤ N) (hN : N < 2 ^ 32) (showS : S → String) (d : Dense S)
    (ws : List (List Nat)) (hlen : ws.length = d.size) :
    (∃ fuel, Dense.displayTensor p N (fun s => .ok (showS s)) d fuel = .ok (vectorText showS keyText d.data ws)) ↔ d.size = 0 := by
  constructor
  · rintro ⟨fuel, h⟩
    by_contra hc
    rw [C58_display_diverges p N h1 hN showS d (Nat.pos_of_ne_zero hc) fuel] at h
    cases h
  · intro hd
    refine ⟨0, ?_⟩
    rw [C58_display_empty_partial p N h1 hN showS d hd 0, List.length_eq_zero_iff.1 hd, List.length_eq_zero_iff.1 (hlen.trans hd)]
    rfl

example : ¬ ∃ fuel, Dense.displayTensor .debug 2 (fun s => .ok (toString s)) (.ofVec [(4 : Int), 5]) fuel = .ok (vectorText toString keyText [4, 5] [[], [1]]) :=
  fun h => absurd ((C58_display_right_iff_partial .debug 2 (by omega) (by omega) toString (.ofVec [(4 : Int), 5]) [[], [1]] rfl).1 h) (by decide)

/-- The iterator gives the keys `ks` from state `it`, and then is in state `it'`. -/
inductive Spec.Yields {I K : Type} (next : I → Res (Option K × I)) : I → List K → I → Prop
  | nil (it : I) : Yields next it [] it
  | cons {it it' it'' : I} {k : K} {ks : List K} : next it = .ok (some k, it') → Yields next it' ks it'' → Yields next it (k :: ks) it''

/-- C58, for any ordered basis whose key iterator and key text work: the text is every coefficient followed by its key. -/
theorem C58_display_partial {I S K : Type} (next : I → Res (Option K × I)) (showS : S → String) (showK : K → Res String) (textK : K → String)
    (it it' : I) (d : Dense S) (ks : List K) (hy : Yields next it ks it') (hlen : ks.length = d.size) (hend : ∃ r, next it' = .ok r)
    (hk : ∀ k ∈ ks, showK k = .ok (textK k)) :
    Dense.displayFmt next (fun s => .ok (showS s)) showK it d = .ok (vectorText showS textK d.data ks) := by
  unfold Dense.displayFmt
  suffices ∀ (acc : String), Dense.displayLoop next (fun s => .ok (showS s)) showK it d.data acc =
      .ok (acc ++ vectorText showS textK d.data ks) by simpa using this ""
  unfold Dense.size at hlen
  generalize d.data = l at hlen
  induction hy generalizing l with
  | nil it =>
    intro acc
    rw [List.length_nil] at hlen
    rw [List.length_eq_zero_iff.mp hlen.symm, Dense.displayLoop]
    obtain ⟨r, hr⟩ := hend
    rw [hr]
    simp [vectorText]
  | @cons it it1 it2 k ks hn _ ih =>
    intro acc
    match l, hlen with
    | v :: vs, hlen =>
      rw [Dense.displayLoop, hn, Res.bind_ok]
      simp only [Res.bind_ok]
      rw [hk k (by simp), Res.bind_ok, ih hend (fun k' h => hk k' (by simp [h])) vs (by simpa using hlen)]
      simp [vectorText, String.append_assoc]

/-- A basis of integers with an iterator that counts up. -/
example : Dense.displayFmt (fun n : Nat => .ok (some n, n + 1)) (fun s => .ok (toString s)) (fun k => .ok s!"e{k} ") 0 (.ofVec [(5 : Int), -2, 7]) =
    .ok (vectorText toString (fun k => s!"e{k} ") [5, -2, 7] [0, 1, 2]) :=
  C58_display_partial _ toString _ _ 0 3 (.ofVec [(5 : Int), -2, 7]) [0, 1, 2] (.cons rfl (.cons rfl (.cons rfl (.nil _)))) rfl ⟨_, rfl⟩ (fun _ _ => rfl)

/-- C58, for any ordered basis whose key iterator ends before the coefficients do: the coefficients that have a key are printed, the others are not. -/
theorem C58_display_short_partial {I S K : Type} (next : I → Res (Option K × I)) (showS : S → String) (showK : K → Res String) (textK : K → String)
    (it it' : I) (d : Dense S) (ks : List K) (hy : Yields next it ks it') (hlen : ks.length < d.size) (hend : ∃ r, next it' = .ok (none, r))
    (hk : ∀ k ∈ ks, showK k = .ok (textK k)) :
    Dense.displayFmt next (fun s => .ok (showS s)) showK it d = .ok (vectorText showS textK (d.data.take ks.length) ks) := by
  unfold Dense.displayFmt
  suffices ∀ (acc : String), Dense.displayLoop next (fun s => .ok (showS s)) showK it d.data acc =
      .ok (acc ++ vectorText showS textK (d.data.take ks.length) ks) by simpa using this ""
  unfold Dense.size at hlen
  generalize d.data = l at hlen
  induction hy generalizing l with
  | nil it =>
    intro acc
    match l, hlen with
    | v :: vs, _ =>
      obtain ⟨r, hr⟩ := hend
      rw [Dense.displayLoop, hr, Res.bind_ok]
      simp [vectorText]
  | @cons it it1 it2 k ks hn _ ih =>
    intro acc
    match l, hlen with
    | v :: vs, hlen =>
      rw [Dense.displayLoop, hn, Res.bind_ok]
      simp only [Res.bind_ok]
      rw [hk k (by simp), Res.bind_ok, ih hend (fun k' h => hk k' (by simp [h])) vs (by simpa using hlen)]
      simp [vectorText, String.append_assoc]

/-- A basis of two elements and a vector with three coefficients. -/
example : Dense.displayFmt (fun n : Nat => .ok (if n < 2 then some n else none, n + 1)) (fun s => .ok (toString s)) (fun k => .ok s!"e{k} ") 0
    (.ofVec [(5 : Int), -2, 7]) = .ok (vectorText toString (fun k => s!"e{k} ") [5, -2] [0, 1]) :=
  C58_display_short_partial _ toString _ _ 0 2 (.ofVec [(5 : Int), -2, 7]) [0, 1] (.cons rfl (.cons rfl (.nil _))) (by decide) ⟨_, rfl⟩ (fun _ _ => rfl)

example : vectorText toString (fun k : Nat => s!"e{k} ") [(5 : Int), -2, 7] [0, 1, 2] = "5e0 -2e1 7e2 " := by decide +kernel

theorem yields_of_nth (p : Profile) (N : Nat) (k : Nat → TensorKey) (n : Nat) (it : BasisIter) (h : ∀ i, i ≤ n → BasisIter.nth p N i it = .ok (some (k i))) :
    ∃ it', Yields (BasisIter.next p N) it ((List.range n).map k) it' ∧ ∃ r, BasisIter.next p N it' = .ok r := by
  induction n generalizing it k with
  | zero =>
    have := h 0 le_rfl
    rw [BasisIter.nth] at this
    cases hn : BasisIter.next p N it with
    | ok r => exact ⟨it, .nil it, r, hn⟩
    | panic => rw [hn] at this; cases this
    | ub => rw [hn] at this; cases this
    | diverge => rw [hn] at this; cases this
  | succ n ih =>
    have h0 := h 0 (by omega)
    rw [BasisIter.nth] at h0
    cases hn : BasisIter.next p N it with
    | ok r =>
      rw [hn, Res.bind_ok] at h0
      obtain ⟨it', h1, h2⟩ := ih (fun i => k (i + 1)) r.2 (fun i hi => by
        have := h (i + 1) (by omega)
        rw [BasisIter.nth, hn, Res.bind_ok] at this
        exact this)
      refine ⟨it', ?_, h2⟩
      rw [List.range_succ_eq_map, List.map_cons, List.map_map]
      refine .cons (it' := r.2) ?_ h1
      rw [hn]
      congr 1
      exact Prod.ext (Res.ok.inj h0) rfl
    | panic => rw [hn] at h0; cases h0
    | ub => rw [hn] at h0; cases h0
    | diverge => rw [hn] at h0; cases h0

/-- C58, tensors with the text of `Debug` for the keys (as `Display` of a key was meant to print): vectors of up to `4N` coefficients over three or more
letters are printed right.  Beyond that the key iterator is wrong (C07). -/
theorem C58_display_debug_keys_partial {S : Type} (p : Profile) (N : Nat) (h3 : 3 ≤ N) (hN : N < 2 ^ 32) (showS : S → String) (d : Dense S)
    (hd : d.size ≤ 4 * N) (ws : List (List Nat)) (hlen : ws.length = d.size)
    (hws : ∀ i (h : i < ws.length), ValidWord N ws[i] ∧ ws[i].length ≤ maxDepth N ∧ wordIndex N ws[i] = i) :
    Dense.displayFmt (BasisIter.next p N) (fun s => .ok (showS s)) (debugFmt p N) (.new N) d = .ok (vectorText showS keyText d.data ws) := by
  have hlt : 4 * N < geomSum N (maxDepth N + 1) := by
    have h2 := two_le_maxDepth N (by omega) hN
    have hg : 4 * N < geomSum N (2 + 1) := by simp only [geomSum]; nlinarith
    have : geomSum N (2 + 1) ≤ geomSum N (maxDepth N + 1) := geomSum_mono (by omega)
    omega
  obtain ⟨it', hy, hend⟩ := yields_of_nth p N (fun i => keyOf N (indexWord N i)) d.size (.new N) (by
    intro i hi
    obtain ⟨k, hk, hn⟩ := C07_iter_keys_partial p N h3 hN i (by omega)
    rw [indexToKey_ok p N (by omega) hN i (by omega)] at hk
    cases hk
    exact hn)
  have hks : (List.range d.size).map (fun i => keyOf N (indexWord N i)) = ws.map (keyOf N) := by
    apply List.ext_getElem
    · simp [hlen]
    · intro i h1 h2
      simp only [List.length_map] at h2
      obtain ⟨hv, _, hi⟩ := hws i h2
      simp only [List.getElem_map, List.getElem_range]
      congr 1
      conv_lhs => rw [← hi]
      exact indexWord_wordIndex (by omega) hv
  rw [hks] at hy
  have key : ∀ (d : List S) (ws : List (List Nat)), (∀ w ∈ ws, ValidWord N w ∧ w.length ≤ maxDepth N) →
      vectorText showS (fun k => match debugFmt p N k with | .ok s => s | _ => "") d (ws.map (keyOf N)) = vectorText showS keyText d ws := by
    intro d ws h
    induction ws generalizing d with
    | nil => cases d <;> rfl
    | cons w ws ih =>
      cases d with
      | nil => rfl
      | cons s d =>
        simp only [List.map_cons, vectorText]
        rw [ih d (fun w' hw' => h w' (by simp [hw'])), C15_debug_text_partial p N (by omega) hN w (h w (by simp)).1 (h w (by simp)).2 _
          (fromLetters_ok p N (by omega) hN w (h w (by simp)).1 (h w (by simp)).2)]
  have hall : ∀ w ∈ ws, ValidWord N w ∧ w.length ≤ maxDepth N := by
    intro w hw
    obtain ⟨i, hi, rfl⟩ := List.mem_iff_getElem.mp hw
    exact ⟨(hws i hi).1, (hws i hi).2.1⟩
  rw [C58_display_partial _ showS _ (fun k => match debugFmt p N k with | .ok s => s | _ => "") _ _ d _ hy (by simp [hlen]) hend (by
    intro k hk
    rw [List.mem_map] at hk
    obtain ⟨w, hw, rfl⟩ := hk
    have e := C15_debug_text_partial p N (by omega) hN w (hall w hw).1 (hall w hw).2 _
      (fromLetters_ok p N (by omega) hN w (hall w hw).1 (hall w hw).2)
    show debugFmt p N (keyOf N w) = .ok (match debugFmt p N (keyOf N w) with | .ok s => s | _ => "")
    rw [e]), key d.data ws hall]

example : Dense.displayFmt (BasisIter.next .debug 3) (fun s => .ok (toString s)) (debugFmt .debug 3) (.new 3) (.ofVec [(5 : Int), -2, 7, 0, 1]) =
    .ok (vectorText toString keyText [5, -2, 7, 0, 1] [[], [1], [2], [3], [1, 1]]) :=
  C58_display_debug_keys_partial .debug 3 (by omega) (by omega) toString (.ofVec [(5 : Int), -2, 7, 0, 1]) (by decide) [[], [1], [2], [3], [1, 1]] rfl
    (by
      have h := two_le_maxDepth 3 (by omega) (by omega)
      have : ∀ i (h : i < [[], [1], [2], [3], [1, 1]].length), ValidWord 3 [[], [1], [2], [3], [1, 1]][i] ∧ [[], [1], [2], [3], [1, 1]][i].length ≤ 2 ∧
        wordIndex 3 [[], [1], [2], [3], [1, 1]][i] = i := by decide
      exact fun i hi => ⟨(this i hi).1, (this i hi).2.1.trans h, (this i hi).2.2⟩)

/-! ## C60: slices -/

/-- C60.  `get_slice(a..b)` gives a slice exactly when `a ≤ b ≤ size`, and then the coefficients at the indices `a, ..., b - 1`. -/
theorem C60_get_slice {S : Type} (d : Dense S) (a b : Nat) :
    (∀ l, d.getSlice (.range a b) = some l ↔ a ≤ b ∧ b ≤ d.size ∧ l.length = b - a ∧ ∀ i, i < b - a → l[i]? = d.data[a + i]?) ∧
    (d.getSlice (.range a b) = none ↔ b < a ∨ d.size < b) := by
  unfold Dense.getSlice Dense.SliceIdx.bounds Dense.size
  simp only
  by_cases h : a ≤ b ∧ b ≤ d.data.length
  · rw [if_pos h]
    simp only [Option.map_some, Option.some.injEq, reduceCtorEq, false_iff]
    refine ⟨fun l => ⟨?_, ?_⟩, by omega⟩
    · rintro rfl
      refine ⟨h.1, h.2, by simp; omega, fun i hi => ?_⟩
      rw [List.getElem?_drop, List.getElem?_take, if_pos (by omega)]
    · rintro ⟨_, _, hl, hi⟩
      apply List.ext_getElem?
      intro i
      rw [List.getElem?_drop, List.getElem?_take]
      by_cases hc : i < b - a
      · rw [if_pos (by omega), hi i hc]
      · rw [if_neg (by omega), List.getElem?_eq_none (by omega)]
  · rw [if_neg h]
    simp only [Option.map_none, reduceCtorEq, true_iff, false_iff]
    exact ⟨fun l hl => h ⟨hl.1, hl.2.1⟩, by omega⟩

example : (Dense.ofVec [(4 : Int), 5, 6, 7]).getSlice (.range 1 3) = some [5, 6] :=
  ((C60_get_slice (.ofVec [4, 5, 6, 7]) 1 3).1 _).2 ⟨by decide, by decide, by decide, by decide⟩

/-- C60.  The other index types are the ranges they denote. -/
theorem C60_index_types {S : Type} (d : Dense S) (i a b : Nat) (hd : d.size < 2 ^ 64 - 1) :
    d.getSlice (.at i) = (d.data[i]?).map ([·]) ∧ d.getSlice .full = some d.data ∧ d.getSlice (.rangeFrom a) = d.getSlice (.range a d.size) ∧
    d.getSlice (.rangeTo b) = d.getSlice (.range 0 b) ∧ d.getSlice (.incl a b) = d.getSlice (.range a (b + 1)) ∧
    d.getSlice (.toIncl b) = d.getSlice (.range 0 (b + 1)) := by
  unfold Dense.size at hd
  unfold Dense.getSlice Dense.SliceIdx.bounds Dense.size
  refine ⟨?_, by simp, by simp, by simp, ?_, ?_⟩
  · by_cases h : i < d.data.length
    · simp only [if_pos h, Option.map_some, List.getElem?_eq_getElem h, Option.some.injEq]
      apply List.ext_getElem?
      intro j
      rw [List.getElem?_drop, List.getElem?_take]
      cases j with
      | zero => simp [h]
      | succ j => simp
    · simp [h]
  · simp only
    by_cases h : b = 2 ^ 64 - 1
    · rw [if_pos h, if_neg (by omega)]
    · rw [if_neg h]
  · simp only
    by_cases h : b = 2 ^ 64 - 1
    · rw [if_pos h, if_neg (by omega)]
    · rw [if_neg h]
      by_cases h' : b + 1 ≤ d.data.length <;> simp [h']

example : (Dense.ofVec [(4 : Int), 5, 6, 7]).getSlice (.incl 1 2) = (Dense.ofVec [(4 : Int), 5, 6, 7]).getSlice (.range 1 3) :=
  (C60_index_types (.ofVec [(4 : Int), 5, 6, 7]) 0 1 2 (by decide)).2.2.2.2.1

/-- C60.  Writing through `get_mut_slice(a..b)` changes exactly the coefficients `a, ..., b - 1`; without a slice nothing changes. -/
theorem C60_get_mut_slice {S : Type} (d : Dense S) (a b : Nat) (f : S → S) :
    ((d.getMutSlice (.range a b) f).1 = true ↔ a ≤ b ∧ b ≤ d.size) ∧ (d.getMutSlice (.range a b) f).2.size = d.size ∧
    ∀ i, (d.getMutSlice (.range a b) f).2.data[i]? = if a ≤ i ∧ i < b ∧ b ≤ d.size then d.data[i]?.map f else d.data[i]? := by
  have hw : ∀ l : List S, (d.writeSlice l).data = l := by
    intro l
    unfold Dense.writeSlice
    cases h : d.makeMut.mode <;> rfl
  unfold Dense.getMutSlice Dense.SliceIdx.bounds Dense.size
  by_cases h : a ≤ b ∧ b ≤ d.data.length
  · simp only [if_pos h, hw, true_iff]
    refine ⟨h, by simp; omega, fun i => ?_⟩
    rw [List.append_assoc, List.getElem?_append]
    simp only [List.length_take, List.getElem?_take]
    by_cases h1 : i < a
    · rw [if_pos (by omega), if_pos h1, if_neg (by omega)]
    · rw [if_neg (by omega), List.getElem?_append]
      simp only [List.length_map, List.length_drop, List.length_take, List.getElem?_map, List.getElem?_drop, List.getElem?_take]
      by_cases h2 : i < b
      · rw [if_pos (by omega), if_pos (by omega), if_pos (by omega), show a + (i - min a d.data.length) = i by omega]
      · rw [if_neg (by omega), if_neg (by omega), show b + (i - min a d.data.length - (min b d.data.length - a)) = i by omega]
  · simp only [if_neg h, hw, true_and, Bool.false_eq_true, false_iff]
    refine ⟨h, fun i => ?_⟩
    rw [if_neg (by omega)]

example : ((Dense.ofVec [(4 : Int), 5, 6, 7]).getMutSlice (.range 1 3) (· * 10)).2.data = [4, 50, 60, 7] := by decide

example := C60_get_mut_slice (Dense.ofBorrowed [(4 : Int), 5, 6, 7]) 1 3 (· * 10)

/-- C60.  A write through `get_mut_slice` never reaches a read-only borrowed buffer and always reaches a mutably borrowed one. -/
theorem C60_get_mut_slice_lent {S : Type} (d : Dense S) (ix : Dense.SliceIdx) (f : S → S) :
    (d.mode = .borrowed → (d.getMutSlice ix f).2.lent = d.lent ∧ (d.getMutSlice ix f).2.mode = .owned) ∧
    (d.mode = .borrowedMut → (d.getMutSlice ix f).2.lent = (d.getMutSlice ix f).2.data ∧ (d.getMutSlice ix f).2.mode = .borrowedMut) := by
  obtain ⟨mode, data, lent⟩ := d
  constructor <;> rintro rfl <;> unfold Dense.getMutSlice Dense.writeSlice Dense.makeMut <;> simp only <;> cases ix.bounds data.length <;>
    exact ⟨rfl, rfl⟩

example : ((Dense.ofBorrowedMut [(4 : Int), 5, 6, 7]).getMutSlice (.at 2) (· * 10)).2.lent = [4, 5, 60, 7] := by decide

example := (C60_get_mut_slice_lent (Dense.ofBorrowedMut [(4 : Int), 5, 6, 7]) (.at 2) (· * 10)).2 rfl

/-- C60.  The slice from `start_of_degree(d)` to `start_of_degree(d + 1)` of a tensor that is stored up to degree `D ≥ d` consists of the coefficients of
the words of length `d`, all of them, in lexicographic order. -/
theorem C60_degree_slice {S : Type} (p : Profile) (N : Nat) (h2 : 2 ≤ N) (v : Dense S) (D d : Nat) (hv : FullTo N v D) (hd : d ≤ D) :
    ∃ (s e : Nat) (l : List _) (ws : List (List Nat)), startOfDegree p N d = .ok s ∧ startOfDegree p N (d + 1) = .ok e ∧ v.getSlice (.range s e) = some l ∧
      (∀ w, w ∈ ws ↔ ValidWord N w ∧ w.length = d) ∧ ws.Pairwise (· < ·) ∧ l.map some = ws.map (stored N v) := by
  have hp := pow_lt64_mono h2 (show d + 1 ≤ D + 1 by omega) hv.2
  have hlen : geomSum N (d + 1) ≤ v.data.length := by
    have := geomSum_mono (N := N) (a := d + 1) (b := D + 1) (by omega)
    have := hv.1
    unfold Dense.size at this
    omega
  have hmono := geomSum_mono (N := N) (a := d) (b := d + 1) (by omega)
  have hwlen : ∀ i, geomSum N d ≤ i → i < geomSum N (d + 1) → (indexWord N i).length = d := by
    intro i h3 h4
    have hb := wordIndex_bounds (validWord_indexWord (N := N) (by omega) i)
    rw [wordIndex_indexWord] at hb
    by_contra hc
    rcases Nat.lt_or_gt_of_ne hc with h | h
    · have := geomSum_mono (N := N) (a := (indexWord N i).length + 1) (b := d) (by omega)
      omega
    · have := geomSum_mono (N := N) (a := d + 1) (b := (indexWord N i).length) (by omega)
      omega
  refine ⟨geomSum N d, geomSum N (d + 1), (v.data.take (geomSum N (d + 1))).drop (geomSum N d),
    (List.range' (geomSum N d) (geomSum N (d + 1) - geomSum N d)).map (indexWord N),
    startOfDegree_ok p N h2 d (pow_lt64_mono h2 (by omega) hp), startOfDegree_ok p N h2 (d + 1) hp, ?_, fun w => ⟨?_, ?_⟩, ?_, ?_⟩
  · unfold Dense.getSlice Dense.SliceIdx.bounds
    simp only
    rw [if_pos ⟨hmono, hlen⟩]
    rfl
  · rw [List.mem_map]
    rintro ⟨i, hi, rfl⟩
    rw [List.mem_range'_1] at hi
    exact ⟨validWord_indexWord (by omega) i, hwlen i hi.1 (by omega)⟩
  · rintro ⟨hw, rfl⟩
    have hb := wordIndex_bounds hw
    exact List.mem_map.mpr ⟨wordIndex N w, List.mem_range'_1.mpr ⟨hb.1, by omega⟩, indexWord_wordIndex (by omega) hw⟩
  · rw [List.pairwise_map]
    refine List.Pairwise.imp_of_mem ?_ (List.pairwise_lt_range' (s := geomSum N d) (n := geomSum N (d + 1) - geomSum N d))
    intro i j hi hj hij
    rw [List.mem_range'_1] at hi hj
    have hg := (wordIndex_lt_iff (validWord_indexWord (N := N) (by omega) i) (validWord_indexWord (N := N) (by omega) j)).mp
      (by rwa [wordIndex_indexWord, wordIndex_indexWord])
    rcases hg with h | h
    · rw [hwlen i hi.1 (by omega), hwlen j hj.1 (by omega)] at h
      omega
    · exact h.2
  · apply List.ext_getElem?
    intro i
    simp only [List.getElem?_map, List.getElem?_drop, List.getElem?_take]
    by_cases hi : i < geomSum N (d + 1) - geomSum N d
    · rw [if_pos (by omega), List.getElem?_range' hi, List.getElem?_eq_getElem (by omega)]
      simp only [Option.map_some, Option.some.injEq]
      unfold stored
      rw [wordIndex_indexWord, Nat.one_mul, List.getElem?_eq_getElem (by omega)]
    · rw [if_neg (by omega), List.getElem?_eq_none (by simp; omega)]
      rfl

example : ∃ (s e : Nat) (l : List _) (ws : List (List Nat)), startOfDegree .debug 2 1 = .ok s ∧ startOfDegree .debug 2 2 = .ok e ∧
    (Dense.ofVec [(5 : Int), 6, 7, 8, 9, 10, 11]).getSlice (.range s e) = some l ∧ (∀ w, w ∈ ws ↔ ValidWord 2 w ∧ w.length = 1) ∧
    ws.Pairwise (· < ·) ∧ l.map some = ws.map (stored 2 (Dense.ofVec [(5 : Int), 6, 7, 8, 9, 10, 11])) :=
  C60_degree_slice .debug 2 (by omega) _ 2 1 ⟨by decide, by decide⟩ (by omega)

end RA
