import Verif.Props.Sparse
import Verif.Props.Keys
import Verif.Props.Trait
import Verif.Props.SparseIter

/-!
# Dense and sparse construction from one list of terms, exactly (C29)
-/

namespace RA
open Spec TensorKey TensorBasis

/-- The keys spelled by a list of terms. -/
theorem mapM_keys (p : Profile) (N : Nat) (h1 : 1 ≤ N) (hN : N < 2 ^ 32) {S : Type} (items : List (List Nat × S))
    (hw : ∀ e ∈ items, ValidWord N e.1) (hl : ∀ e ∈ items, e.1.length ≤ maxDepth N) :
    items.mapM (fun e => (fun k => (k, e.2)) <$> fromLetters p N e.1) = .ok (items.map fun e => (keyOf N e.1, e.2)) := by
  induction items with
  | nil => rfl
  | cons e es ih =>
    rw [List.mapM_cons, fromLetters_ok p N h1 hN e.1 (hw e (by simp)) (hl e (by simp)),
      ih (fun e' h => hw e' (by simp [h])) (fun e' h => hl e' (by simp [h]))]
    rfl

theorem sum_eq_getLast {S : Type} [CommRing S] (l : List S) : l.sum = l.getLast?.getD 0 ↔ l.dropLast.sum = 0 := by
  rcases List.eq_nil_or_concat l with rfl | ⟨l, x, rfl⟩
  · simp
  · simp

/-- C29 for tensors, exactly: built from one list of terms (words with values, in any order and with repetitions), the dense and the sparse vector
have the same coefficient at a word if and only if the values listed for that word, all but the last, add up to zero. -/
theorem C29_tensor_agree_iff {S R : Type} [CommRing S] (C : Coeff S R) (hC : C.IsRing) (p : Profile) (N : Nat) (h2 : 2 ≤ N) (hN : N < 2 ^ 32)
    (items : List (List Nat × S)) (D : Nat) (hw : ∀ e ∈ items, ValidWord N e.1) (hD : ∀ e ∈ items, e.1.length ≤ D)
    (hex : ∃ e ∈ items, e.1.length = D) (hl : D ≤ maxDepth N) (hp : N ^ (D + 1) < 2 ^ 64)
    (keys : List (TensorKey × S)) (hkeys : items.mapM (fun e => (fun k => (k, e.2)) <$> fromLetters p N e.1) = .ok keys) :
    ∃ d s, (Dense.ops C (tensorBasis p N)).fromIterator keys = .ok d ∧ (Sparse.ops C).fromIterator keys = .ok s ∧
      ∀ u ku, ValidWord N u → u.length ≤ maxDepth N → fromLetters p N u = .ok ku →
        (coefAt C (tensorBasis p N) d ku = .ok (s.coef C ku) ↔ (valuesOf items u).dropLast.sum = 0) := by
  obtain ⟨d, hd, _, hg⟩ := C18_from_iterator C p N h2 hN items D hw hD hex hl hp keys hkeys
  obtain ⟨s, hs, _, hsg⟩ := C29_sparse_from_iterator C keys
  refine ⟨d, s, hd, hs, fun u ku hu hlu hku => ?_⟩
  have hget := hg u ku hu hlu hku
  have hsum : ∀ l : List S, l.foldl C.add C.zero = l.sum := fun l => by
    rw [show C.add = (· + ·) from funext fun a => funext (hC.add a), hC.zero, List.sum_eq_foldl]
  rw [mapM_keys p N (by omega) hN items hw (fun e he => Nat.le_trans (hD e he) hl)] at hkeys
  cases hkeys
  rw [fromLetters_ok p N (by omega) hN u hu hlu] at hku
  cases hku
  have hvals : ((items.map fun e => (keyOf N e.1, e.2)).filter fun e => e.1 = keyOf N u).map (·.2) = valuesOf items u := by
    rw [List.filter_map, List.map_map]
    unfold valuesOf
    refine congrArg₂ List.map rfl (List.filter_congr fun e he => ?_)
    have h := C02_key_eq_iff p N (by omega) hN e.1 u (hw e he) hu (Nat.le_trans (hD e he) hl) hlu _ _
      (fromLetters_ok p N (by omega) hN e.1 (hw e he) (Nat.le_trans (hD e he) hl)) (fromLetters_ok p N (by omega) hN u hu hlu)
    simp only [Function.comp, h]
  have hsc : s.coef C (keyOf N u) = (valuesOf items u).getLast?.getD 0 := by
    have e : Sparse.find s.entries (keyOf N u) = _ := Res.ok.inj (hsg (keyOf N u))
    unfold Sparse.coef
    rw [e, hvals, hC.zero]
  have hdc : coefAt C (tensorBasis p N) d (keyOf N u) = .ok (valuesOf items u).sum := by
    unfold coefAt
    rw [hget]
    by_cases hlen : u.length ≤ D
    · rw [if_pos hlen, hsum]
      rfl
    · rw [if_neg hlen]
      have : valuesOf items u = [] := by
        unfold valuesOf
        rw [List.map_eq_nil_iff, List.filter_eq_nil_iff]
        intro e he h
        have := hD e he
        rw [of_decide_eq_true h] at this
        omega
      rw [this, List.sum_nil, ← hC.zero]
      rfl
  rw [hdc, hsc, ← sum_eq_getLast]
  exact ⟨fun h => Res.ok.inj h, fun h => by rw [h]⟩

/-- The word `[1]` is listed three times; the first two values cancel, so both vectors hold its last value.  The word `[2]` is listed twice. -/
example := C29_tensor_agree_iff intCoeff intCoeff_isRing .debug 2 (by omega) (by omega) [([1], 4), ([2], 1), ([1], -4), ([2], 2), ([1], 9)] 1
  (by decide) (by decide) (by decide) (by decide +kernel) (by decide)
  [(⟨1, 0⟩, 4), (⟨1, 1⟩, 1), (⟨1, 0⟩, -4), (⟨1, 1⟩, 2), (⟨1, 0⟩, 9)] (by decide +kernel)

example : ([4, -4, 9] : List Int).dropLast.sum = 0 ∧ ([1, 2] : List Int).dropLast.sum ≠ 0 := by decide

/-! ## C59: from sparse to dense tensors -/

theorem words_of_keys (p : Profile) (N D : Nat) {S : Type} (items : List (TensorKey × S))
    (hk : ∀ e ∈ items, ∃ w, ValidWord N w ∧ w.length ≤ D ∧ fromLetters p N w = .ok e.1) :
    ∃ ws : List (List Nat × S), ws.mapM (fun e => (fun k => (k, e.2)) <$> fromLetters p N e.1) = .ok items ∧
      (∀ e ∈ ws, ValidWord N e.1) ∧ (∀ e ∈ ws, e.1.length ≤ D) ∧ ∀ e ∈ items, ∃ e' ∈ ws, fromLetters p N e'.1 = .ok e.1 := by
  induction items with
  | nil => exact ⟨[], rfl, by simp, by simp, by simp⟩
  | cons e es ih =>
    obtain ⟨ws, h1, h2, h3, h4⟩ := ih fun e' h => hk e' (List.mem_cons_of_mem _ h)
    obtain ⟨w, w1, w2, w3⟩ := hk e (by simp)
    refine ⟨(w, e.2) :: ws, ?_, ?_, ?_, ?_⟩
    · rw [List.mapM_cons, h1]
      simp only [w3]
      rfl
    · intro e' h
      rcases List.mem_cons.1 h with rfl | h
      · exact w1
      · exact h2 e' h
    · intro e' h
      rcases List.mem_cons.1 h with rfl | h
      · exact w2
      · exact h3 e' h
    · intro e' h
      rcases List.mem_cons.1 h with rfl | h
      · exact ⟨(w, e'.2), by simp, w3⟩
      · obtain ⟨e2, h5, h6⟩ := h4 e' h
        exact ⟨e2, List.mem_cons_of_mem _ h5, h6⟩

/-- C59 for tensors.  Feeding the items of a sparse vector over tensor keys, in whatever order the map yields them, to the dense constructor gives a
dense tensor with the same coefficient at every word.  `D` is the largest degree stored. -/
theorem C59_to_dense_tensor {S R : Type} [CommRing S] (C : Coeff S R) (hC : C.IsRing) (p : Profile) (N : Nat) (h2 : 2 ≤ N) (hN : N < 2 ^ 32)
    (a : Sparse TensorKey S) (h : Sparse.Made C a) (items : List (TensorKey × S)) (hperm : a.intoIter.Perm items) (D : Nat)
    (hk : ∀ e ∈ items, ∃ w, ValidWord N w ∧ w.length ≤ D ∧ fromLetters p N w = .ok e.1)
    (hex : ∃ e ∈ items, ∃ w, w.length = D ∧ ValidWord N w ∧ fromLetters p N w = .ok e.1) (hl : D ≤ maxDepth N) (hp : N ^ (D + 1) < 2 ^ 64) :
    ∃ d, (Dense.ops C (tensorBasis p N)).fromIterator items = .ok d ∧
      ∀ u ku, ValidWord N u → u.length ≤ maxDepth N → fromLetters p N u = .ok ku → coefAt C (tensorBasis p N) d ku = .ok (a.coef C ku) := by
  obtain ⟨ws, w1, w2, w3, w4⟩ := words_of_keys p N D items hk
  have hexw : ∃ e ∈ ws, e.1.length = D := by
    obtain ⟨e, he, w, hwD, hw, hwk⟩ := hex
    obtain ⟨e', he', hk'⟩ := w4 e he
    have hle := Nat.le_trans (w3 e' he') hl
    exact ⟨e', he', by
      rw [(C02_key_eq_iff p N (by omega) hN e'.1 w (w2 e' he') hw hle (by omega) _ _ hk' hwk).1 rfl, hwD]⟩
  obtain ⟨d, s, h3, h4, h5⟩ := C29_tensor_agree_iff C hC p N h2 hN ws D w2 w3 hexw hl hp items w1
  obtain ⟨s', h6, h7⟩ := C59_rebuild C a h items hperm
  cases h4.symm.trans h6
  refine ⟨d, h3, fun u ku hu hlu hku => ?_⟩
  have hnd : (items.map (·.1)).Nodup := (hperm.map Prod.fst).nodup_iff.1 (made_wf C h)
  have hshort : (valuesOf ws u).dropLast = [] := by
    have hlen : (valuesOf ws u).length ≤ 1 := by
      rw [mapM_keys p N (by omega) hN ws w2 (fun e he => Nat.le_trans (w3 e he) hl)] at w1
      have e1 := Res.ok.inj w1
      rw [← e1, List.map_map] at hnd
      have hnd' : (ws.map (·.1)).Nodup := by
        rw [show ((fun x => x.1) ∘ fun e : List Nat × S => (keyOf N e.1, e.2)) = (keyOf N) ∘ Prod.fst from rfl, ← List.map_map] at hnd
        exact hnd.of_map
      unfold valuesOf
      rw [List.length_map]
      clear w1 w2 w3 w4 hexw h3 h4 h5 e1 hnd
      induction ws with
      | nil => simp
      | cons e es ih =>
        rw [List.map_cons, List.nodup_cons] at hnd'
        rw [List.filter_cons]
        split_ifs with hkk
        · have hkk := of_decide_eq_true hkk
          have : es.filter (fun e' => decide (e'.1 = u)) = [] := by
            rw [List.filter_eq_nil_iff]
            intro e' he' h'
            exact hnd'.1 (List.mem_map.2 ⟨e', he', (of_decide_eq_true h').trans hkk.symm⟩)
          rw [this]
          simp
        · exact ih hnd'.2
    rw [← List.length_eq_zero_iff, List.length_dropLast]
    omega
  rw [(h5 u ku hu hlu hku).2 (by rw [hshort]; rfl)]
  unfold Sparse.coef
  rw [show Sparse.find s.entries ku = Sparse.find a.entries ku from Res.ok.inj (h7 ku)]

/-- The sparse tensor `5 e_1 + 7 e_{2 1}`, its items in the other order. -/
example := C59_to_dense_tensor intCoeff intCoeff_isRing .debug 2 (by omega) (by omega) ⟨[(⟨2, 4⟩, 7), (⟨1, 0⟩, 5)]⟩
  (.insertSingle (.fromKeyScalar (k := ⟨2, 4⟩) (s := 7) rfl) (k := ⟨1, 0⟩) (s := 5) rfl) [(⟨1, 0⟩, 5), (⟨2, 4⟩, 7)] (by decide) 2
  (by
    intro e he
    simp only [List.mem_cons, List.not_mem_nil, or_false] at he
    rcases he with rfl | rfl
    · exact ⟨[1], by decide, by decide, by decide +kernel⟩
    · exact ⟨[2, 1], by decide, by decide, by decide +kernel⟩)
  ⟨(⟨2, 4⟩, 7), by simp, [2, 1], rfl, by decide, by decide +kernel⟩ (by decide +kernel) (by decide)

end RA
