import Verif.Proofs.LyndonCount
import Verif.Proofs.ConvMore
import Mathlib.LinearAlgebra.FiniteDimensional.Lemmas
import Mathlib.Algebra.CharZero.Defs

/-!
# The dimension of the space of Lie elements

Brackets of Lyndon words form a basis of the space of Lie elements.  Independent of the model.
-/

namespace RA
open Spec

section
variable {S : Type} [CommRing S]

/-- A convolution of homogeneous functions. -/
theorem conv_homogeneous (f g : List Nat → S) (a b : Nat) (hf : ∀ z, f z ≠ 0 → z.length = a) (hg : ∀ z, g z ≠ 0 → z.length = b) (z : List Nat) :
    conv f g z = if z.length = a + b then f (z.take a) * g (z.drop a) else 0 := by
  have hz : ∀ k ≤ z.length, k ≠ a ∨ z.length ≠ a + b → f (z.take k) * g (z.drop k) = 0 := by
    intro k hk h
    by_contra hne
    have h1 := hf _ (left_ne_zero_of_mul hne)
    have h2 := hg _ (right_ne_zero_of_mul hne)
    rw [List.length_take] at h1
    rw [List.length_drop] at h2
    omega
  rw [conv_eq_sum]
  have e : ((List.range (z.length + 1)).map fun k => f (z.take k) * g (z.drop k)).sum = ∑ k ∈ Finset.range (z.length + 1), f (z.take k) * g (z.drop k) := rfl
  rw [e]
  by_cases h : z.length = a + b
  · rw [if_pos h]
    exact Finset.sum_eq_single_of_mem a (Finset.mem_range.2 (by omega)) fun k hk hne => hz k (by rw [Finset.mem_range] at hk; omega) (.inl hne)
  · rw [if_neg h]
    exact Finset.sum_eq_zero fun k hk => hz k (by rw [Finset.mem_range] at hk; omega) (.inr h)

/-- The bracket of a Lyndon word: an expression whose smallest word is the Lyndon word, with coefficient one. -/
theorem exists_bracket (N : Nat) : ∀ (n : Nat) (l : List Nat), l.length ≤ n → Lyndon l → ValidWord N l →
    ∃ e : TExpr S, e.IsLie ∧ e.Words N 1 ∧ e.value l = 1 ∧ ∀ z, e.value z ≠ 0 → l ≤ z ∧ z.length = l.length ∧ ValidWord N z
  | 0, l, hn, hl, _ => absurd (List.length_eq_zero_iff.1 (by omega)) hl.1
  | n + 1, l, hn, hl, hv => by
    have hpos := List.length_pos_iff.2 hl.1
    by_cases h1 : l.length = 1
    · refine ⟨.term l 1, h1, ⟨hv, h1.le⟩, by simp [TExpr.value], fun z hz => ?_⟩
      simp only [TExpr.value] at hz
      by_cases e : z = l
      · subst e
        exact ⟨le_rfl, rfl, hv⟩
      · rw [if_neg e] at hz
        exact absurd rfl hz
    · obtain ⟨u, v, e, hu, hv'⟩ := lyndon_factor hl (by omega)
      have lu := List.length_pos_iff.2 hu.1
      have lv := List.length_pos_iff.2 hv'.1
      have hlen : l.length = u.length + v.length := by rw [e, List.length_append]
      obtain ⟨eu, u1, u2, u3, u4⟩ := exists_bracket N n u (by omega) hu fun m hm => hv m (by rw [e]; simp [hm])
      obtain ⟨ev, v1, v2, v3, v4⟩ := exists_bracket N n v (by omega) hv' fun m hm => hv m (by rw [e]; simp [hm])
      have cu := conv_homogeneous eu.value ev.value u.length v.length (fun z hz => (u4 z hz).2.1) (fun z hz => (v4 z hz).2.1)
      have cv := conv_homogeneous ev.value eu.value v.length u.length (fun z hz => (v4 z hz).2.1) (fun z hz => (u4 z hz).2.1)
      have key : ∀ (e1 e2 : TExpr S) (a b : List Nat), (∀ z, e1.value z ≠ 0 → a ≤ z ∧ z.length = a.length ∧ ValidWord N z) →
          (∀ z, e2.value z ≠ 0 → b ≤ z ∧ z.length = b.length ∧ ValidWord N z) → ∀ z, conv e1.value e2.value z ≠ 0 → a ++ b ≤ z ∧ z.length = a.length + b.length ∧ ValidWord N z := by
        intro e1 e2 a b k1 k2 z hz
        rw [conv_homogeneous e1.value e2.value a.length b.length (fun z hz => (k1 z hz).2.1) (fun z hz => (k2 z hz).2.1)] at hz
        by_cases h : z.length = a.length + b.length
        · rw [if_pos h] at hz
          obtain ⟨p1, p2, p3⟩ := k1 _ (left_ne_zero_of_mul hz)
          obtain ⟨q1, q2, q3⟩ := k2 _ (right_ne_zero_of_mul hz)
          have ez := List.take_append_drop a.length z
          refine ⟨?_, h, fun m hm => ?_⟩
          · rw [← ez]
            rcases eq_or_lt_of_le p1 with p | p
            · rw [← p]
              rcases eq_or_lt_of_le q1 with q | q
              · rw [← q]
              · exact le_of_lt ((append_lt_append_iff _ _ _).2 q)
            · exact le_of_lt ((sdiff_of_lt p p2.le).lt _ _)
          · rw [← ez, List.mem_append] at hm
            exact hm.elim (p3 m) (q3 m)
        · rw [if_neg h] at hz
          exact absurd rfl hz
      have hrot : l < v ++ u := ((lyndon_iff_split l).1 hl).2 u v hu.1 hv'.1 e
      refine ⟨.comm eu ev, ⟨u1, v1⟩, ⟨u2, v2⟩, ?_, fun z hz => ?_⟩
      · have h0 : conv ev.value eu.value l = 0 := by
          by_contra h
          exact absurd (key ev eu v u v4 u4 l h).1 (not_le.2 hrot)
        simp only [TExpr.value]
        rw [h0, cu, if_pos hlen, e, List.take_left, List.drop_left, u3, v3, mul_one, sub_zero]
      · simp only [TExpr.value] at hz
        by_cases h : conv eu.value ev.value z = 0
        · rw [h, zero_sub, neg_ne_zero] at hz
          obtain ⟨p1, p2, p3⟩ := key ev eu v u v4 u4 z hz
          exact ⟨hrot.le.trans p1, by omega, p3⟩
        · obtain ⟨p1, p2, p3⟩ := key eu ev u v u4 v4 z h
          exact ⟨by rw [e]; exact p1, by omega, p3⟩

end

section
variable {S : Type} [Field S] [CharZero S]

omit [CharZero S] in
theorem sum_single_word (f : List Nat → S) (w : List Nat) : ∀ L : List (List Nat), (∀ z ∈ L, z ≠ w → f z = 0) → (L.map f).sum = L.count w * f w
  | [], _ => by simp
  | z :: L, h => by
    rw [List.map_cons, List.sum_cons, sum_single_word f w L fun y hy => h y (by simp [hy])]
    by_cases e : z = w
    · rw [e, List.count_cons_self]
      push_cast
      ring
    · rw [List.count_cons_of_ne (by simpa using e), h z (by simp) e, zero_add]

/-- A Lie element that vanishes at the Lyndon words is zero. -/
theorem lie_zero (N : Nat) (P : Nat → Prop) (f : List Nat → S) (hf : f ∈ lieSpace S N P) (h0 : ∀ l, Lyndon l → ValidWord N l → P l.length → f l = 0) : f = 0 := by
  obtain ⟨f1, f2, f3⟩ := hf
  by_contra hne
  obtain ⟨w0, hw0⟩ := Function.ne_iff.1 hne
  have supp : ∀ w, f w ≠ 0 → ValidWord N w ∧ P w.length := fun w h => by
    by_contra hc
    exact h (f1 w hc)
  classical
  obtain ⟨w, hw, hmin⟩ := Finset.exists_min_image (((allWords N w0.length).toFinset).filter fun w => f w ≠ 0) id
    ⟨w0, Finset.mem_filter.2 ⟨List.mem_toFinset.2 ((mem_allWords _ _ _).2 ⟨(supp w0 hw0).1, rfl⟩), hw0⟩⟩
  rw [Finset.mem_filter, List.mem_toFinset, mem_allWords] at hw
  obtain ⟨⟨hv, hl⟩, hfw⟩ := hw
  have hwn : w ≠ [] := fun e => hfw (by rw [e, f2])
  by_cases hL : Lyndon w
  · exact hfw (h0 w hL hv (supp w hfw).2)
  · obtain ⟨u, v, e, hu, hv', hs⟩ := exists_factor hwn hL
    have hle := shuffle_le u v hs
    have hsum := f3 u v hu hv'
    rw [sum_single_word f w (shuffles u v) fun z hz hzw => ?_] at hsum
    · have hc : (shuffles u v).count w ≠ 0 := by
        rw [← Nat.pos_iff_ne_zero, List.count_pos_iff, e]
        exact append_mem_shuffles u v
      exact (mul_ne_zero (Nat.cast_ne_zero.2 hc) hfw) hsum
    · by_contra hfz
      have hz' : z ∈ ((allWords N w0.length).toFinset).filter fun w => f w ≠ 0 := by
        rw [Finset.mem_filter, List.mem_toFinset, mem_allWords]
        refine ⟨⟨(supp z hfz).1, ?_⟩, hfz⟩
        rw [shuffles_length u v z hz, ← hl, e, List.length_append]
      have h1 : w ≤ z := hmin z hz'
      have h2 : z ≤ w := e ▸ hle z hz
      exact hzw (le_antisymm h2 h1)

/-- The Lyndon words over `1..N` with a length in `P`. -/
abbrev LyndonIn (N : Nat) (P : Nat → Prop) := {l : List Nat // Lyndon l ∧ ValidWord N l ∧ P l.length}

variable (S) in
omit [CharZero S] in
/-- Values of brackets of Lyndon words. -/
theorem exists_bracket_basis (N : Nat) (P : Nat → Prop) [Fintype (LyndonIn N P)] : ∃ b : LyndonIn N P → lieSpace S N P,
    (∀ l, ∃ e : TExpr S, e.IsLie ∧ e.Words N 1 ∧ e.value = b l) ∧ LinearIndependent S b := by
  choose e e1 e2 e3 e4 using fun l : LyndonIn N P => exists_bracket (S := S) N l.1.length l.1 le_rfl l.2.1 l.2.2.1
  have hmem : ∀ l, (e l).value ∈ lieSpace S N P := fun l => by
    obtain ⟨p1, p2⟩ := primitive_value (e l) (e1 l)
    refine ⟨fun w hw => ?_, p1, fun u v hu hv => p2 u v hu hv⟩
    by_contra h
    obtain ⟨_, h2, h3⟩ := e4 l w h
    exact hw ⟨h3, by rw [h2]; exact l.2.2.2⟩
  refine ⟨fun l => ⟨(e l).value, hmem l⟩, fun l => ⟨e l, e1 l, e2 l, rfl⟩, ?_⟩
  rw [Fintype.linearIndependent_iff]
  intro g hg
  by_contra hne
  rw [not_forall] at hne
  obtain ⟨i0, hi0⟩ := hne
  classical
  obtain ⟨i, hi, hmin⟩ := Finset.exists_min_image (Finset.univ.filter fun i : LyndonIn N P => g i ≠ 0) (fun i => i.1) ⟨i0, by simp [hi0]⟩
  rw [Finset.mem_filter] at hi
  have h := congrArg (fun x : lieSpace S N P => x.1 i.1) hg
  simp only [Submodule.coe_sum, Submodule.coe_smul, Finset.sum_apply, Pi.smul_apply, smul_eq_mul, Submodule.coe_zero, Pi.zero_apply] at h
  rw [Finset.sum_eq_single_of_mem i (Finset.mem_univ _) fun j _ hj => ?_, e3 i, mul_one] at h
  · exact hi.2 h
  · by_contra hc
    have h1 : i.1 ≤ j.1 := hmin j (by simp [left_ne_zero_of_mul hc])
    have h2 : j.1 ≤ i.1 := (e4 j i.1 (right_ne_zero_of_mul hc)).1
    exact hj (Subtype.ext (le_antisymm h2 h1))

variable (S) in
theorem finrank_lie (N : Nat) (P : Nat → Prop) [Fintype (LyndonIn N P)] : Module.finrank S (lieSpace S N P) = Fintype.card (LyndonIn N P) ∧ Module.Finite S (lieSpace S N P) := by
  let ev : lieSpace S N P →ₗ[S] (LyndonIn N P → S) :=
    { toFun := fun f l => f.1 l.1
      map_add' := fun _ _ => rfl
      map_smul' := fun _ _ => rfl }
  have hinj : Function.Injective ev := by
    rw [injective_iff_map_eq_zero]
    intro f hf
    refine Subtype.ext (lie_zero N P f.1 f.2 fun l h1 h2 h3 => congrFun hf ⟨l, h1, h2, h3⟩)
  have hfin : Module.Finite S (lieSpace S N P) := Module.Finite.of_injective ev hinj
  obtain ⟨b, _, hb⟩ := exists_bracket_basis S N P
  refine ⟨le_antisymm ?_ hb.fintype_card_le_finrank, hfin⟩
  have := LinearMap.finrank_le_finrank_of_injective hinj
  rwa [Module.finrank_fintype_fun_eq_card] at this

/-- Ree's theorem: a coefficient function of bounded degree that satisfies the criterion is the value of a Lie expression. -/
theorem exists_lie_expr (N : Nat) (hN : 1 ≤ N) (P : Nat → Prop) [Fintype (LyndonIn N P)] (f : List Nat → S) (hf : f ∈ lieSpace S N P) :
    ∃ e : TExpr S, e.IsLie ∧ e.Words N 1 ∧ e.value = f := by
  obtain ⟨b, hb, hli⟩ := exists_bracket_basis S N P
  obtain ⟨hr, hfin⟩ := finrank_lie S N P
  have htop := hli.span_eq_top_of_card_eq_finrank' hr.symm
  have key : ∀ x ∈ Submodule.span S (Set.range b), ∃ e : TExpr S, e.IsLie ∧ e.Words N 1 ∧ e.value = x.1 := by
    intro x hx
    induction hx using Submodule.span_induction with
    | mem x h =>
      obtain ⟨l, rfl⟩ := h
      exact hb l
    | zero =>
      refine ⟨.term [1] 0, rfl, ⟨fun m hm => ?_, by simp⟩, ?_⟩
      · rw [List.mem_singleton] at hm
        omega
      · funext w
        simp [TExpr.value]
    | add x y _ _ hx hy =>
      obtain ⟨ex, a1, a2, a3⟩ := hx
      obtain ⟨ey, b1, b2, b3⟩ := hy
      refine ⟨.add ex ey, ⟨a1, b1⟩, ⟨a2, b2⟩, ?_⟩
      funext w
      simp only [TExpr.value, a3, b3]
      rfl
    | smul c x _ hx =>
      obtain ⟨ex, a1, a2, a3⟩ := hx
      refine ⟨.smul c ex, a1, a2, ?_⟩
      funext w
      simp only [TExpr.value, a3]
      rfl
  exact key ⟨f, hf⟩ (by rw [htop]; exact Submodule.mem_top)

end
end RA
