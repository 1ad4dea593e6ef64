import Verif.Model.Sparse
import Verif.Lawful
import Mathlib.Data.List.Nodup
import Mathlib.Data.List.Perm.Subperm

/-!
# Lemmas about sparse vectors
-/

namespace RA
namespace Sparse
variable {K S R : Type} [DecidableEq K] (C : Coeff S R)

/-- No key is stored twice. -/
def NoDup (m : List (K × S)) : Prop := (m.map (·.1)).Nodup

omit [DecidableEq K] in
theorem noDup_cons {e : K × S} {m : List (K × S)} : NoDup (e :: m) ↔ e.1 ∉ m.map (·.1) ∧ NoDup m := by
  unfold NoDup; rw [List.map_cons, List.nodup_cons]

theorem find_nil (k : K) : find ([] : List (K × S)) k = none := rfl

theorem find_cons (e : K × S) (m : List (K × S)) (k : K) : find (e :: m) k = if e.1 = k then some e.2 else find m k := by
  unfold find
  rw [List.find?_cons]
  by_cases h : e.1 = k <;> simp [h]

theorem find_append (m m' : List (K × S)) (k : K) : find (m ++ m') k = (find m k).or (find m' k) := by
  induction m with
  | nil => rfl
  | cons e m ih =>
    rw [List.cons_append, find_cons, find_cons, ih]
    split_ifs <;> rfl

theorem find_eq_none {m : List (K × S)} {k : K} : find m k = none ↔ k ∉ m.map (·.1) := by
  induction m with
  | nil => simp [find_nil]
  | cons e m ih =>
    rw [find_cons, List.map_cons, List.mem_cons]
    by_cases h : e.1 = k
    · simp [h]
    · simp only [h, if_false, ih, Ne.symm h, false_or]

theorem find_isSome {m : List (K × S)} {k : K} : (find m k).isSome = true ↔ k ∈ m.map (·.1) := by
  rw [← Option.ne_none_iff_isSome, Ne, find_eq_none, not_not]

theorem mem_of_find {m : List (K × S)} {k : K} {v : S} (h : find m k = some v) : (k, v) ∈ m := by
  induction m with
  | nil => cases h
  | cons e m ih =>
    rw [find_cons] at h
    split_ifs at h with hk
    · injection h with h
      subst hk h
      simp
    · exact List.mem_cons_of_mem _ (ih h)

theorem find_of_mem {m : List (K × S)} (hm : NoDup m) {k : K} {v : S} (h : (k, v) ∈ m) : find m k = some v := by
  induction m with
  | nil => cases h
  | cons e m ih =>
    rw [noDup_cons] at hm
    rw [find_cons]
    rcases List.mem_cons.1 h with rfl | h
    · simp
    · have hne : ¬ e.1 = k := by
        rintro rfl
        exact hm.1 (List.mem_map.2 ⟨_, h, rfl⟩)
      rw [if_neg hne]
      exact ih hm.2 h

theorem modifyAt_keys (m : List (K × S)) (k : K) (f : S → S) : (modifyAt m k f).map (·.1) = m.map (·.1) := by
  unfold modifyAt
  rw [List.map_map]
  refine List.map_congr_left ?_
  intro e _
  simp only [Function.comp]
  split_ifs <;> rfl

theorem find_modifyAt (m : List (K × S)) (k : K) (f : S → S) (k' : K) :
    find (modifyAt m k f) k' = if k' = k then (find m k).map f else find m k' := by
  induction m with
  | nil => simp [modifyAt, find_nil]
  | cons e m ih =>
    have : modifyAt (e :: m) k f = (if e.1 = k then (e.1, f e.2) else e) :: modifyAt m k f := rfl
    rw [this, find_cons, ih, find_cons, find_cons]
    by_cases h1 : e.1 = k
    · by_cases h2 : k' = k
      · simp [h1, h2]
      · have : ¬ k = k' := Ne.symm h2
        simp [h1, h2, this]
    · by_cases h2 : k' = k
      · subst h2; simp [h1]
      · simp [h1, h2]

theorem find_hmInsert (m : List (K × S)) (k : K) (v : S) (k' : K) :
    find (hmInsert m k v) k' = if k' = k then some v else find m k' := by
  unfold hmInsert
  split_ifs with h h2 h2
  · rw [find_modifyAt, if_pos h2]
    cases hf : find m k
    · rw [hf] at h; cases h
    · rfl
  · rw [find_modifyAt, if_neg h2]
  · rw [find_append, h2, find_cons, if_pos rfl]
    cases hf : find m k
    · rfl
    · rw [hf] at h; simp at h
  · rw [find_append, find_cons, if_neg (Ne.symm h2), find_nil]
    cases find m k' <;> rfl

theorem find_hmRemove (m : List (K × S)) (k k' : K) : find (hmRemove m k) k' = if k' = k then none else find m k' := by
  induction m with
  | nil => simp [hmRemove, find_nil]
  | cons e m ih =>
    unfold hmRemove at ih ⊢
    rw [List.filter_cons]
    by_cases h1 : e.1 = k
    · simp only [h1, not_true, decide_false]
      rw [if_neg (by decide), ih, find_cons, h1]
      by_cases h2 : k' = k
      · simp [h2]
      · simp [h2, Ne.symm h2]
    · simp only [h1, not_false_eq_true, decide_true, if_true]
      rw [find_cons, ih, find_cons]
      by_cases h2 : k' = k
      · subst h2; simp [h1]
      · simp [h2]

theorem noDup_modifyAt {m : List (K × S)} (hm : NoDup m) (k : K) (f : S → S) : NoDup (modifyAt m k f) := by
  unfold NoDup; rw [modifyAt_keys]; exact hm

theorem noDup_hmInsert {m : List (K × S)} (hm : NoDup m) (k : K) (v : S) : NoDup (hmInsert m k v) := by
  unfold hmInsert
  split_ifs with h
  · exact noDup_modifyAt hm k _
  · unfold NoDup at hm ⊢
    rw [List.map_append, List.nodup_append]
    refine ⟨hm, by simp, ?_⟩
    intro a ha b hb hab
    simp only [List.map_cons, List.map_nil, List.mem_singleton] at hb
    subst hb hab
    exact h (find_isSome.2 ha)

omit C in
theorem noDup_hmRemove {m : List (K × S)} (hm : NoDup m) (k : K) : NoDup (hmRemove m k) := by
  unfold NoDup hmRemove at *
  exact hm.sublist (List.Sublist.map _ List.filter_sublist)

omit [DecidableEq K] in
theorem noDup_map {m : List (K × S)} (hm : NoDup m) (f : S → S) : NoDup (m.map fun e => (e.1, f e.2)) := by
  unfold NoDup at *
  rw [List.map_map]
  exact hm

theorem find_map (m : List (K × S)) (f : S → S) (k : K) : find (m.map fun e => (e.1, f e.2)) k = (find m k).map f := by
  induction m with
  | nil => rfl
  | cons e m ih =>
    rw [List.map_cons, find_cons, find_cons, ih]
    split_ifs <;> rfl

/-- Entry after one turn of `add_inplace`/`sub_inplace` with combination `f` and conversion `g` of a new entry. -/
def mergeEntry (f : S → S → S) (g : S → S) (z : S → Bool) : Option S → Option S → Option S
  | x, none => x
  | none, some v => some (g v)
  | some i, some v => if z (f i v) then none else some (f i v)

theorem addStep_find (m : List (K × S)) (e : K × S) (k : K) :
    find (addStep C m e) k = if k = e.1 then mergeEntry C.add id (fun x => C.eq x C.zero) (find m k) (some e.2) else find m k := by
  unfold addStep
  cases h : find m e.1 with
  | none =>
    simp only
    rw [find_hmInsert]
    split_ifs with hk
    · rw [hk, h]; rfl
    · rfl
  | some i =>
    simp only
    split_ifs with hz hk hk
    · rw [find_hmRemove, if_pos hk, hk, h]
      simp [mergeEntry, hz]
    · rw [find_hmRemove, if_neg hk, find_modifyAt, if_neg hk]
    · rw [find_modifyAt, if_pos hk, hk, h]
      simp [mergeEntry, hz]
    · rw [find_modifyAt, if_neg hk]

theorem subStep_find (m : List (K × S)) (e : K × S) (k : K) :
    find (subStep C m e) k = if k = e.1 then mergeEntry C.sub C.uminus (fun x => C.eq x C.zero) (find m k) (some e.2) else find m k := by
  unfold subStep
  cases h : find m e.1 with
  | none =>
    simp only
    rw [find_hmInsert]
    split_ifs with hk
    · rw [hk, h]; rfl
    · rfl
  | some i =>
    simp only
    split_ifs with hz hk hk
    · rw [find_hmRemove, if_pos hk, hk, h]
      simp [mergeEntry, hz]
    · rw [find_hmRemove, if_neg hk, find_modifyAt, if_neg hk]
    · rw [find_modifyAt, if_pos hk, hk, h]
      simp [mergeEntry, hz]
    · rw [find_modifyAt, if_neg hk]

theorem foldl_find (step : List (K × S) → K × S → List (K × S)) (mg : Option S → Option S → Option S) (hmg : ∀ x, mg x none = x)
    (hstep : ∀ m e k, find (step m e) k = if k = e.1 then mg (find m k) (some e.2) else find m k)
    (o : List (K × S)) (ho : NoDup o) (m : List (K × S)) (k : K) :
    find (o.foldl step m) k = mg (find m k) (find o k) := by
  induction o generalizing m with
  | nil => rw [List.foldl_nil, find_nil, hmg]
  | cons e o ih =>
    rw [noDup_cons] at ho
    rw [List.foldl_cons, ih ho.2, hstep, find_cons]
    by_cases h : e.1 = k
    · subst h
      rw [if_pos rfl, if_pos rfl, find_eq_none.2 ho.1, hmg]
    · rw [if_neg (Ne.symm h), if_neg h]

theorem noDup_addStep {m : List (K × S)} (hm : NoDup m) (e : K × S) : NoDup (addStep C m e) := by
  unfold addStep
  split
  · split_ifs
    · exact noDup_hmRemove (noDup_modifyAt hm _ _) _
    · exact noDup_modifyAt hm _ _
  · exact noDup_hmInsert hm _ _

theorem noDup_subStep {m : List (K × S)} (hm : NoDup m) (e : K × S) : NoDup (subStep C m e) := by
  unfold subStep
  split
  · split_ifs
    · exact noDup_hmRemove (noDup_modifyAt hm _ _) _
    · exact noDup_modifyAt hm _ _
  · exact noDup_hmInsert hm _ _

omit [DecidableEq K] in
theorem noDup_foldl (step : List (K × S) → K × S → List (K × S)) (h : ∀ m e, NoDup m → NoDup (step m e)) (o m : List (K × S))
    (hm : NoDup m) : NoDup (o.foldl step m) := by
  induction o generalizing m with
  | nil => exact hm
  | cons e o ih => exact ih _ (h m e hm)

theorem find_foldl_insert (items : List (K × S)) (m : List (K × S)) (k : K) :
    find (items.foldl (fun m e => hmInsert m e.1 e.2) m) k =
      (((items.filter fun e => e.1 = k).map (·.2)).getLast?).or (find m k) := by
  induction items generalizing m with
  | nil => simp
  | cons e items ih =>
    rw [List.foldl_cons, ih, find_hmInsert, List.filter_cons]
    by_cases h : e.1 = k
    · simp only [h, decide_true, if_true, List.map_cons]
      rw [List.getLast?_cons]
      cases ((items.filter fun e => e.1 = k).map (·.2)).getLast? <;> simp
    · have : ¬ k = e.1 := Ne.symm h
      simp [h, this]

end Sparse
end RA
