import Verif.Model.Dense
import Verif.Proofs.TensorBasis

/-!
# Lemmas about dense vectors
-/

namespace RA

theorem modifyUnchecked_ok {S : Type} {l : List S} {i : Nat} (f : S → S) (h : i < l.length) :
    modifyUnchecked l i f = .ok (l.modify i f) := by
  unfold modifyUnchecked; rw [if_pos h]

theorem modifyUnchecked_ub {S : Type} {l : List S} {i : Nat} (f : S → S) (h : l.length ≤ i) :
    modifyUnchecked l i f = .ub := by
  unfold modifyUnchecked; rw [if_neg (by omega)]

theorem vecResize_length {S : Type} (l : List S) (n : Nat) (z : S) : (vecResize l n z).length = n := by
  unfold vecResize; simp; omega

theorem vecResize_getElem? {S : Type} (l : List S) (n : Nat) (z : S) (i : Nat) :
    (vecResize l n z)[i]? = if i < n then some (l[i]?.getD z) else none := by
  unfold vecResize
  rw [List.getElem?_append]
  simp only [List.length_take]
  split
  · rename_i h
    rw [List.getElem?_take, if_pos (by omega), if_pos (by omega), List.getElem?_eq_getElem (by omega)]
    rfl
  · rename_i h
    rw [List.getElem?_replicate]
    by_cases hi : i < n
    · rw [if_pos (by omega), if_pos hi, List.getElem?_eq_none (by omega)]
      rfl
    · rw [if_neg (by omega), if_neg hi]

theorem vecResize_self {S : Type} (l : List S) (z : S) : vecResize l l.length z = l := by
  unfold vecResize; simp

namespace Dense
variable {K S R : Type} (C : Coeff S R) (B : Basis K)

@[simp] theorem writeSlice_data (d : Dense S) (l : List S) : (d.writeSlice l).data = l := by
  unfold writeSlice; split <;> rfl

@[simp] theorem makeMut_data (d : Dense S) : (makeMut d).data = d.data := by
  unfold makeMut; split <;> rfl

@[simp] theorem ofVec_data (l : List S) : (ofVec l).data = l := rfl

theorem writeSlice_ofVec (l l' : List S) : (ofVec l).writeSlice l' = ofVec l' := rfl

@[simp] theorem resize_data (d : Dense S) (n : Nat) : (resize C d n).data = vecResize d.data n C.zero := by
  unfold resize; split <;> rfl

theorem zipInto_getElem? (f : S → S → S) (a b : List S) (i : Nat) :
    (zipInto f a b)[i]? = match a[i]?, b[i]? with
      | some x, some y => some (f x y)
      | some x, none => some x
      | none, _ => none := by
  unfold zipInto
  rw [List.getElem?_append]
  simp only [List.length_zipWith]
  split
  · rename_i h
    rw [List.getElem?_zipWith, List.getElem?_eq_getElem (show i < a.length by omega),
      List.getElem?_eq_getElem (show i < b.length by omega)]
  · rename_i h
    rw [List.getElem?_drop]
    by_cases hb : i < b.length
    · rw [List.getElem?_eq_none (by omega), List.getElem?_eq_none (l := a) (i := i) (by omega)]
    · rw [List.getElem?_eq_none (l := b) (i := i) (by omega)]
      by_cases ha : i < a.length
      · rw [List.getElem?_eq_getElem ha, ← List.getElem?_eq_getElem ha]
        rw [show b.length + (i - min a.length b.length) = i by omega, List.getElem?_eq_getElem ha]
      · rw [List.getElem?_eq_none (by omega), List.getElem?_eq_none (l := a) (i := i) (by omega)]

theorem zipInto_length (f : S → S → S) (a b : List S) : (zipInto f a b).length = a.length := by
  unfold zipInto; simp; omega

/-- The slice after `add_inplace`/`sub_inplace`. -/
def combine (f : S → S → S) (a b : List S) : List S :=
  zipInto f (if b.length > a.length then vecResize a b.length C.zero else a) b

theorem combine_length (f : S → S → S) (a b : List S) : (combine C f a b).length = max a.length b.length := by
  unfold combine
  rw [zipInto_length]
  split
  · rw [vecResize_length]; omega
  · omega

theorem combine_getElem? (f : S → S → S) (a b : List S) (i : Nat) :
    (combine C f a b)[i]? = match a[i]?, b[i]? with
      | some x, some y => some (f x y)
      | some x, none => some x
      | none, some y => some (f C.zero y)
      | none, none => none := by
  unfold combine
  rw [zipInto_getElem?]
  split_ifs with h
  · rw [vecResize_getElem?]
    by_cases hb : i < b.length
    · rw [if_pos hb, List.getElem?_eq_getElem hb]
      cases a[i]? <;> rfl
    · rw [if_neg hb, List.getElem?_eq_none (l := b) (i := i) (by omega), List.getElem?_eq_none (l := a) (i := i) (by omega)]
  · by_cases ha : i < a.length
    · rw [List.getElem?_eq_getElem ha]
      cases b[i]? <;> rfl
    · rw [List.getElem?_eq_none (l := b) (i := i) (by omega), List.getElem?_eq_none (l := a) (i := i) (by omega)]

theorem addInplace_data (d o : Dense S) : ∃ r, addInplace C d o = .ok r ∧ r.data = combine C C.add d.data o.data := by
  refine ⟨_, rfl, ?_⟩
  rw [writeSlice_data]
  unfold combine size
  simp only [makeMut_data]
  split_ifs <;> simp

theorem subInplace_data (d o : Dense S) : ∃ r, subInplace C d o = .ok r ∧ r.data = combine C C.sub d.data o.data := by
  refine ⟨_, rfl, ?_⟩
  rw [writeSlice_data]
  unfold combine size
  split_ifs <;> simp

/-! ### `from_key_scalar` -/

theorem fromKeyScalar_ok {k : K} {dim i : Nat} (hdim : B.dimForKey k = .ok dim) (hidx : B.keyToIndex k = .ok i) (h : i < dim) (s : S) :
    fromKeyScalar C B k s = .ok (ofVec ((List.replicate dim C.zero).modify i fun _ => s)) := by
  unfold fromKeyScalar fromDimension
  rw [hdim, Res.bind_ok, hidx, Res.bind_ok, ofVec_data, modifyUnchecked_ok _ (by rw [List.length_replicate]; exact h)]
  rfl

theorem fromKeyScalar_ub {k : K} {dim i : Nat} (hdim : B.dimForKey k = .ok dim) (hidx : B.keyToIndex k = .ok i) (h : dim ≤ i) (s : S) :
    fromKeyScalar C B k s = .ub := by
  unfold fromKeyScalar fromDimension
  rw [hdim, Res.bind_ok, hidx, Res.bind_ok, ofVec_data, modifyUnchecked_ub _ (by rw [List.length_replicate]; exact h)]
  rfl

/-! ### `from_iterator` -/

theorem fold_steps (es : List (Nat × S)) (l : List S) (h : ∀ e ∈ es, e.1 < l.length) :
    es.foldlM (fromIteratorStep C) (ofVec l) = .ok (ofVec (es.foldl (fun l e => l.modify e.1 fun x => C.add x e.2) l)) := by
  induction es generalizing l with
  | nil => rfl
  | cons e es ih =>
    rw [List.foldlM_cons]
    have : fromIteratorStep C (ofVec l) e = .ok (ofVec (l.modify e.1 fun x => C.add x e.2)) := by
      unfold fromIteratorStep
      rw [ofVec_data, modifyUnchecked_ok _ (h e (by simp)), Res.bind_ok, writeSlice_ofVec]
      rfl
    rw [this, Res.bind_ok, ih]
    · rfl
    · intro e' he'
      rw [List.length_modify]
      exact h e' (by simp [he'])

theorem fold_modify_getElem? (es : List (Nat × S)) (l : List S) (i : Nat) :
    (es.foldl (fun l e => l.modify e.1 fun x => C.add x e.2) l)[i]? =
      l[i]?.map fun x => ((es.filter fun e => e.1 = i).map (·.2)).foldl C.add x := by
  induction es generalizing l with
  | nil => simp
  | cons e es ih =>
    rw [List.foldl_cons, ih, List.getElem?_modify]
    by_cases h : e.1 = i
    · simp only [h, if_true, List.filter_cons, decide_true, List.map_cons, List.foldl_cons]
      cases l[i]? <;> rfl
    · simp only [h, if_false, List.filter_cons, decide_false]
      cases l[i]? <;> rfl

theorem filter_mergeSort (es : List (Nat × S)) (i : Nat) :
    (es.mergeSort (fun a b => decide (a.1 ≤ b.1))).filter (fun e => e.1 = i) = es.filter fun e => e.1 = i := by
  have hsub : (es.filter (fun e => decide (e.1 = i))).Sublist (es.mergeSort (fun a b => decide (a.1 ≤ b.1))) := by
    refine List.sublist_mergeSort (le := fun a b : Nat × S => decide (a.1 ≤ b.1)) ?_ ?_ ?_ (List.filter_sublist)
    · intro a b c; simp; omega
    · intro a b; simp; omega
    · rw [List.pairwise_filter]
      refine List.pairwise_iff_getElem.2 ?_
      intro a b _ _ _ ha hb
      simp only [decide_eq_true_eq] at ha hb ⊢
      omega
  have h2 := hsub.filter (fun e => decide (e.1 = i))
  rw [List.filter_filter] at h2
  simp only [Bool.and_self] at h2
  have hlen := ((List.mergeSort_perm es (fun a b => decide (a.1 ≤ b.1))).filter (fun e => decide (e.1 = i))).length_eq
  exact (h2.eq_of_length (by omega)).symm

theorem fromIterator_ok (items : List (K × S)) (idx : K → Nat) (hk : ∀ e ∈ items, B.keyToIndex e.1 = .ok (idx e.1))
    (hne : items ≠ []) (dim : Nat) (hlt : ∀ e ∈ items, idx e.1 < dim)
    (hdim : ∀ e ∈ items, (∀ e' ∈ items, idx e'.1 ≤ idx e.1) → B.dimForIndex (idx e.1) = .ok dim) :
    ∃ r, fromIterator C B items = .ok r ∧ r.mode = .owned ∧ r.data.length = dim ∧
      ∀ i, i < dim → r.data[i]? = some (((items.filter fun e => idx e.1 = i).map (·.2)).foldl C.add C.zero) := by
  have hmap : items.mapM (fun e => do
      let i ← B.keyToIndex e.1
      return (i, e.2)) = (.ok (items.map fun e => (idx e.1, e.2)) : Res _) := by
    clear hne hlt hdim
    induction items with
    | nil => rfl
    | cons e es ih =>
      rw [List.mapM_cons, hk e (by simp), ih (fun e' h => hk e' (by simp [h]))]
      rfl
  set vec := items.map fun e => (idx e.1, e.2) with hvec
  set srt := vec.mergeSort (fun a b => decide (a.1 ≤ b.1)) with hsrt
  have hperm : srt.Perm vec := List.mergeSort_perm _ _
  have hsne : srt ≠ [] := by
    intro h
    rw [h] at hperm
    have := hperm.symm.eq_nil
    rw [hvec, List.map_eq_nil_iff] at this
    exact hne this
  have hpw : srt.Pairwise (fun a b => a.1 ≤ b.1) := by
    have := List.pairwise_mergeSort (le := fun a b : Nat × S => decide (a.1 ≤ b.1))
      (by intro a b c; simp; omega) (by intro a b; simp; omega) vec
    exact this.imp (by intro a b; simp)
  have hlast : srt.getLast? = some (srt.getLast hsne) := List.getLast?_eq_some_getLast hsne
  set last := srt.getLast hsne with hl
  have hlmem : last ∈ vec := hperm.mem_iff.1 (List.getLast_mem hsne)
  have hmax : ∀ e ∈ vec, e.1 ≤ last.1 := by
    intro e he
    have he' := hperm.mem_iff.2 he
    rw [← List.dropLast_concat_getLast hsne, List.mem_append] at he'
    rcases he' with he' | he'
    · rw [← List.dropLast_concat_getLast hsne, List.pairwise_append] at hpw
      exact hpw.2.2 e he' _ (by simp [hl])
    · simp at he'
      rw [he']
  obtain ⟨e0, he0, hle0⟩ := List.mem_map.1 hlmem
  have hd : B.dimForIndex last.1 = .ok dim := by
    rw [← hle0]
    refine hdim e0 he0 ?_
    intro e' he'
    have := hmax (idx e'.1, e'.2) (List.mem_map.2 ⟨e', he', rfl⟩)
    rw [← hle0] at this
    exact this
  refine ⟨ofVec (srt.foldl (fun l e => l.modify e.1 fun x => C.add x e.2) (List.replicate dim C.zero)), ?_, rfl, ?_, ?_⟩
  · unfold fromIterator
    rw [hmap, Res.bind_ok]
    simp only [← hsrt, hlast, hd, Res.bind_ok]
    apply fold_steps
    intro e he
    rw [List.length_replicate]
    obtain ⟨e', he', rfl⟩ := List.mem_map.1 (hperm.mem_iff.1 he)
    exact hlt e' he'
  · have : ∀ (es : List (Nat × S)) (l : List S), (es.foldl (fun l e => l.modify e.1 fun x => C.add x e.2) l).length = l.length := by
      intro es
      induction es with
      | nil => intro l; rfl
      | cons e es ih => intro l; rw [List.foldl_cons, ih, List.length_modify]
    rw [ofVec_data, this, List.length_replicate]
  · intro i hi
    rw [ofVec_data, fold_modify_getElem?, List.getElem?_replicate, if_pos hi, hsrt, filter_mergeSort, hvec, List.filter_map,
      List.map_map]
    rfl

end Dense
end RA
