import Verif.SpecLie
import Mathlib.Tactic.Linarith

/-!
# Lyndon words

Lexicographic comparison, the two ways to describe Lyndon words, their factorization, and the largest shuffle.  Independent of the model.
-/

namespace RA
open Spec

/-- The words differ at some place, and there `u` has the smaller letter. -/
def SDiff (u v : List Nat) : Prop := ∃ p a b s t, u = p ++ a :: s ∧ v = p ++ b :: t ∧ a < b

theorem cons_le_cons_iff' {a b : Nat} {s t : List Nat} : a :: s ≤ b :: t ↔ a < b ∨ a = b ∧ s ≤ t := by
  rw [← not_lt, List.cons_lt_cons_iff, ← not_lt]
  by_cases h : b < a
  · have : ¬ a < b ∧ a ≠ b := by omega
    simp [h, this.1, this.2]
  · by_cases h' : a < b
    · have : b ≠ a := by omega
      simp [h, h', this]
    · have : a = b := by omega
      simp [this]

theorem append_lt_append_iff (p s t : List Nat) : p ++ s < p ++ t ↔ s < t := by
  induction p with
  | nil => rfl
  | cons a p ih => simp [ih]

theorem SDiff.lt {u v : List Nat} (h : SDiff u v) (s t : List Nat) : u ++ s < v ++ t := by
  obtain ⟨p, a, b, x, y, rfl, rfl, hab⟩ := h
  rw [List.append_assoc, List.append_assoc, append_lt_append_iff, List.cons_append, List.cons_append, List.cons_lt_cons_iff]
  exact .inl hab

theorem lt_cases : ∀ u v : List Nat, u < v → SDiff u v ∨ ∃ t, t ≠ [] ∧ v = u ++ t
  | u, [], h => absurd h (by simp)
  | [], b :: v, _ => .inr ⟨b :: v, by simp, rfl⟩
  | a :: u, b :: v, h => by
    rw [List.cons_lt_cons_iff] at h
    rcases h with h | ⟨rfl, h⟩
    · exact .inl ⟨[], a, b, u, v, rfl, rfl, h⟩
    · rcases lt_cases u v h with ⟨p, x, y, s, t, rfl, rfl, hxy⟩ | ⟨t, ht, rfl⟩
      · exact .inl ⟨a :: p, x, y, s, t, rfl, rfl, hxy⟩
      · exact .inr ⟨t, ht, rfl⟩

theorem sdiff_of_lt {u v : List Nat} (h : u < v) (hl : v.length ≤ u.length) : SDiff u v := by
  rcases lt_cases u v h with h | ⟨t, ht, rfl⟩
  · exact h
  · rw [List.length_append] at hl
    have := List.length_pos_iff.2 ht
    omega

theorem lt_append_self (u : List Nat) {t : List Nat} (ht : t ≠ []) : u < u ++ t := by
  have := (append_lt_append_iff u [] t).2 (by cases t; exact absurd rfl ht; simp)
  rwa [List.append_nil] at this

/-- Lyndon words in terms of splittings. -/
theorem lyndon_iff_split (w : List Nat) : Lyndon w ↔ w ≠ [] ∧ ∀ u v, u ≠ [] → v ≠ [] → w = u ++ v → w < v ++ u := by
  refine and_congr_right fun _ => ⟨fun h u v hu hv e => ?_, fun h k h0 hk => ?_⟩
  · have := h u.length (List.length_pos_iff.2 hu) (by rw [e, List.length_append]; have := List.length_pos_iff.2 hv; omega)
    rwa [e, List.rotate_append_length_eq, ← e] at this
  · have := h (w.take k) (w.drop k) (by rw [← List.length_pos_iff, List.length_take]; omega) (by rw [← List.length_pos_iff, List.length_drop]; omega)
      (List.take_append_drop k w).symm
    rwa [List.rotate_eq_drop_append_take hk.le]

/-- Lyndon words in terms of suffixes: smaller than all proper suffixes. -/
theorem lyndon_iff_suffix (w : List Nat) : Lyndon w ↔ w ≠ [] ∧ ∀ u v, u ≠ [] → v ≠ [] → w = u ++ v → w < v := by
  rw [lyndon_iff_split]
  refine and_congr_right fun _ => ⟨fun h u v hu hv e => ?_, fun h u v hu hv e => ?_⟩
  · by_contra hlt
    have hlu := List.length_pos_iff.2 hu
    have hne : w ≠ v := fun h => by
      have := congrArg List.length (h.symm.trans e)
      rw [List.length_append] at this
      omega
    have hvw : v < w := lt_of_le_of_ne (not_lt.1 hlt) hne.symm
    rcases lt_cases v w hvw with hd | ⟨t, ht, ht'⟩
    · have h1 := h u v hu hv e
      have h2 := hd.lt u []
      rw [List.append_nil] at h2
      exact lt_asymm h1 h2
    · have h1 : v ++ t < v ++ u := by
        rw [← ht']
        exact h u v hu hv e
      rw [append_lt_append_iff] at h1
      have hlen : t.length = u.length := by
        have := congrArg List.length (ht'.symm.trans e)
        rw [List.length_append, List.length_append] at this
        omega
      have h2 := (sdiff_of_lt h1 hlen.ge).lt v v
      have h3 := h v t hv ht ht'
      rw [← e] at h2
      exact lt_asymm h2 h3
  · have h1 := h u v hu hv e
    have hd : SDiff w v := sdiff_of_lt h1 (by rw [e, List.length_append]; omega)
    have := hd.lt [] u
    rwa [List.append_nil] at this

/-- The smallest non-empty suffix. -/
theorem exists_min_suffix (w : List Nat) (hw : w ≠ []) : ∃ u v, w = u ++ v ∧ v ≠ [] ∧ ∀ x y, w = x ++ y → y ≠ [] → v ≤ y := by
  induction w with
  | nil => exact absurd rfl hw
  | cons a w ih =>
    by_cases h0 : w = []
    · subst h0
      refine ⟨[], [a], rfl, by simp, fun x y e hy => ?_⟩
      rcases x with _ | ⟨b, x⟩
      · exact le_of_eq e
      · simp only [List.cons_append, List.cons.injEq] at e
        exact absurd (List.append_eq_nil_iff.1 e.2.symm).2 hy
    · obtain ⟨u, v, e, hv, hm⟩ := ih h0
      rcases le_total v (a :: w) with h | h
      · refine ⟨a :: u, v, by rw [e]; rfl, hv, fun x y e' hy => ?_⟩
        rcases x with _ | ⟨b, x⟩
        · rw [List.nil_append] at e'
          rwa [← e']
        · simp only [List.cons_append, List.cons.injEq] at e'
          exact hm x y e'.2 hy
      · refine ⟨[], a :: w, rfl, by simp, fun x y e' hy => ?_⟩
        rcases x with _ | ⟨b, x⟩
        · exact le_of_eq e'
        · simp only [List.cons_append, List.cons.injEq] at e'
          exact h.trans (hm x y e'.2 hy)

/-- The smallest suffix is a Lyndon word. -/
theorem min_suffix_lyndon {w u v : List Nat} (e : w = u ++ v) (hv : v ≠ []) (hm : ∀ x y, w = x ++ y → y ≠ [] → v ≤ y) : Lyndon v := by
  rw [lyndon_iff_suffix]
  refine ⟨hv, fun x y hx hy e' => ?_⟩
  refine lt_of_le_of_ne (hm (u ++ x) y (by rw [e, e', List.append_assoc]) hy) fun h => ?_
  have := congrArg List.length (h.symm.trans e')
  rw [List.length_append] at this
  have := List.length_pos_iff.2 hx
  omega

/-- A word that is not a Lyndon word ends in a Lyndon word that no non-empty suffix of the rest precedes. -/
theorem exists_factor {w : List Nat} (hw : w ≠ []) (hn : ¬ Lyndon w) : ∃ u v, w = u ++ v ∧ u ≠ [] ∧ v ≠ [] ∧ ∀ x y, u = x ++ y → y ≠ [] → v ≤ y := by
  obtain ⟨u, v, e, hv, hm⟩ := exists_min_suffix w hw
  have hl := min_suffix_lyndon e hv hm
  refine ⟨u, v, e, fun hu => hn (by rw [e, hu]; exact hl), hv, fun x y ey hy => ?_⟩
  by_contra hlt
  have hyv : y < v := not_le.1 hlt
  have h1 : v ≤ y ++ v := hm x (y ++ v) (by rw [e, ey, List.append_assoc]) (by simp [hy])
  rcases lt_cases y v hyv with hd | ⟨t, ht, et⟩
  · have := hd.lt v []
    rw [List.append_nil] at this
    exact absurd h1 (not_le.2 this)
  · have h2 := (lyndon_iff_suffix v).1 hl |>.2 y t hy ht et
    have h3 : y ++ v < v := by
      conv_rhs => rw [et]
      rwa [append_lt_append_iff]
    exact absurd h1 (not_le.2 h3)

/-- A Lyndon word of two or more letters is the product of two Lyndon words. -/
theorem lyndon_factor {w : List Nat} (hw : Lyndon w) (h2 : 2 ≤ w.length) : ∃ u v, w = u ++ v ∧ Lyndon u ∧ Lyndon v := by
  obtain ⟨a, r, rfl⟩ : ∃ a r, w = a :: r := by
    cases w with
    | nil => simp at h2
    | cons a r => exact ⟨a, r, rfl⟩
  have hr : r ≠ [] := by rintro rfl; simp at h2
  obtain ⟨u', v, e, hv, hm⟩ := exists_min_suffix r hr
  refine ⟨a :: u', v, by rw [e]; rfl, ?_, min_suffix_lyndon e hv hm⟩
  rw [lyndon_iff_suffix]
  refine ⟨by simp, fun u1 u2 h1 h2' e' => ?_⟩
  have hw' := (lyndon_iff_suffix _).1 hw |>.2
  have eW : a :: r = u1 ++ (u2 ++ v) := by rw [e, ← List.append_assoc, ← e']; rfl
  have hlt := hw' u1 (u2 ++ v) h1 (by simp [hv]) eW
  by_contra hc
  have hne : u2 ≠ a :: u' := fun h => by
    have := congrArg List.length (h.trans e')
    rw [List.length_append] at this
    have := List.length_pos_iff.2 h1
    omega
  have hc : u2 < a :: u' := lt_of_le_of_ne (not_lt.1 hc) hne
  have eW' : a :: r = (a :: u') ++ v := by rw [e]; rfl
  rcases lt_cases _ _ hc with hd | ⟨t, ht, et⟩
  · have := hd.lt v v
    rw [← eW'] at this
    exact lt_asymm hlt this
  · rw [eW', et, List.append_assoc, append_lt_append_iff] at hlt
    obtain ⟨b, s, rfl⟩ : ∃ b s, u2 = b :: s := by
      cases u2 with
      | nil => exact absurd rfl h2'
      | cons b s => exact ⟨b, s, rfl⟩
    simp only [List.cons_append, List.cons.injEq] at et
    have := hm s (t ++ v) (by rw [e, et.2, List.append_assoc]) (by simp [ht])
    exact absurd hlt (not_lt.2 this)

/-! ## Shuffles -/

theorem shuffles_nil_right (u : List Nat) : shuffles u [] = [u] := by
  cases u <;> simp [shuffles]

theorem mem_shuffles_left {u v z : List Nat} (a : Nat) (h : z ∈ shuffles u v) : a :: z ∈ shuffles (a :: u) v := by
  cases v with
  | nil =>
    rw [shuffles_nil_right, List.mem_singleton] at h ⊢
    rw [h]
  | cons b v =>
    rw [shuffles]
    simp [h]

theorem mem_shuffles_right {u v z : List Nat} (b : Nat) (h : z ∈ shuffles u v) : b :: z ∈ shuffles u (b :: v) := by
  cases u with
  | nil =>
    simp only [shuffles, List.mem_singleton] at h ⊢
    rw [h]
  | cons a u =>
    rw [shuffles]
    simp [h]

theorem append_mem_shuffles (u v : List Nat) : u ++ v ∈ shuffles u v := by
  induction u with
  | nil => simp [shuffles]
  | cons a u ih => exact mem_shuffles_left a ih

theorem append_mem_shuffles' (u v : List Nat) : v ++ u ∈ shuffles u v := by
  induction v with
  | nil => simp [shuffles_nil_right]
  | cons a v ih => exact mem_shuffles_right a ih

theorem mem_shuffles_cases {u v z : List Nat} (h : z ∈ shuffles u v) : (u = [] ∧ v = [] ∧ z = []) ∨
    (∃ a u' z', u = a :: u' ∧ z = a :: z' ∧ z' ∈ shuffles u' v) ∨ ∃ b v' z', v = b :: v' ∧ z = b :: z' ∧ z' ∈ shuffles u v' := by
  match u, v with
  | [], [] =>
    simp only [shuffles, List.mem_singleton] at h
    exact .inl ⟨rfl, rfl, h⟩
  | [], b :: v =>
    simp only [shuffles, List.mem_singleton] at h
    exact .inr (.inr ⟨b, v, v, rfl, h, by simp [shuffles]⟩)
  | a :: u, [] =>
    simp only [shuffles, List.mem_singleton] at h
    exact .inr (.inl ⟨a, u, u, rfl, h, by simp [shuffles_nil_right]⟩)
  | a :: u, b :: v =>
    rw [shuffles, List.mem_append, List.mem_map, List.mem_map] at h
    rcases h with ⟨z', h, rfl⟩ | ⟨z', h, rfl⟩
    · exact .inr (.inl ⟨a, u, z', rfl, rfl, h⟩)
    · exact .inr (.inr ⟨b, v, z', rfl, rfl, h⟩)

/-- Moving a prefix from the larger word to the smaller one allows shuffles that are at least as large. -/
theorem shuffle_exchange (z : List Nat) : ∀ s x y : List Nat, y ≤ x → z ∈ shuffles (s ++ x) y → ∃ z' ∈ shuffles x (s ++ y), z ≤ z' := by
  induction z with
  | nil =>
    intro s x y _ hz
    refine ⟨x ++ (s ++ y), append_mem_shuffles _ _, ?_⟩
    cases x ++ (s ++ y) with
    | nil => exact le_rfl
    | cons a l => exact le_of_lt (by simp)
  | cons c z ih =>
    intro s x y hxy hz
    rcases s with _ | ⟨a, s⟩
    · exact ⟨_, hz, le_rfl⟩
    · rcases mem_shuffles_cases hz with ⟨h, _⟩ | ⟨a', u', z', h1, h2, h3⟩ | ⟨b, v', z', h1, h2, h3⟩
      · simp at h
      · simp only [List.cons_append, List.cons.injEq] at h1 h2
        obtain ⟨rfl, rfl⟩ := h1
        obtain ⟨rfl, rfl⟩ := h2
        obtain ⟨z', hz', hle⟩ := ih s x y hxy h3
        refine ⟨c :: z', mem_shuffles_right c hz', ?_⟩
        rw [cons_le_cons_iff']
        exact .inr ⟨rfl, hle⟩
      · obtain ⟨rfl, rfl⟩ := List.cons.inj h2
        subst h1
        rcases x with _ | ⟨e, x⟩
        · exact absurd hxy (not_le.2 (by simp))
        · rw [cons_le_cons_iff'] at hxy
          rcases hxy with h | ⟨rfl, h⟩
          · refine ⟨e :: (x ++ _), mem_shuffles_left e (append_mem_shuffles x _), le_of_lt ?_⟩
            rw [List.cons_lt_cons_iff]
            exact .inl h
          · obtain ⟨z', hz', hle⟩ := ih (a :: s ++ [c]) x v' h (by
              rw [List.append_assoc]
              exact h3)
            refine ⟨c :: z', mem_shuffles_left c ?_, ?_⟩
            · rw [List.append_assoc] at hz'
              exact hz'
            · rw [cons_le_cons_iff']
              exact .inr ⟨rfl, hle⟩

/-- The largest shuffle of `u` and `v` is `u v` when no non-empty suffix of `u` is smaller than `v`. -/
theorem shuffle_le (u v : List Nat) (h : ∀ x y, u = x ++ y → y ≠ [] → v ≤ y) : ∀ z ∈ shuffles u v, z ≤ u ++ v := by
  induction u with
  | nil =>
    intro z hz
    simp only [shuffles, List.mem_singleton] at hz
    exact le_of_eq hz
  | cons a u ih =>
    have ih := ih fun x y e hy => h (a :: x) y (by rw [e]; rfl) hy
    intro z hz
    rcases mem_shuffles_cases hz with ⟨h1, _⟩ | ⟨a', u', z', h1, rfl, h3⟩ | ⟨b, v', z', rfl, rfl, h3⟩
    · simp at h1
    · obtain ⟨rfl, rfl⟩ := List.cons.inj h1
      rw [List.cons_append, cons_le_cons_iff']
      exact .inr ⟨rfl, ih z' h3⟩
    · have hle := h [] (a :: u) rfl (by simp)
      rw [cons_le_cons_iff'] at hle
      rw [List.cons_append, cons_le_cons_iff']
      rcases hle with h' | ⟨rfl, h'⟩
      · exact .inl h'
      · obtain ⟨z'', hz'', hle⟩ := shuffle_exchange z' [b] u v' h' h3
        exact .inr ⟨rfl, hle.trans (ih z'' hz'')⟩

end RA
