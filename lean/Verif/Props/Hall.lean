import Verif.Proofs.HallSize
import Verif.Props.HallCache
import Verif.Proofs.TensorKey

/-!
# Hall set sizes (C43), degree range maps (C44), Hall keys (C45, C48), Hall sets (C47)
-/

namespace RA
open Spec Hall ArithmeticFunction TensorKey

/-! ## C43 -/

/-- C43, full statement: `hall_set_size(w, d)` returns the sum of Witt's numbers, wherever the powers fit in `isize`. -/
def C43_hall_set_size_full (p : Profile) : Prop :=
  ∀ w d, d < 2 ^ 32 → w ^ d < 2 ^ 63 → ∃ W : Nat → Nat, (∀ n, 1 ≤ n → n ≤ d → IsWitt w n (W n)) ∧
    hallSetSize p w d = .ok (∑ n ∈ Finset.Icc 1 d, W n)

/-- C43, `mobius` exactly: it returns the Möbius function of 1, of primes and of numbers with a square factor, and never returns on squarefree composite
numbers. -/
theorem C43_mobius (p : Profile) (n : Nat) (h1 : 1 ≤ n) (hn : n < 2 ^ 62) :
    (¬ (Squarefree n ∧ n ≠ 1 ∧ ¬ n.Prime) → mobius p n = .ok (moebius n)) ∧ (Squarefree n ∧ n ≠ 1 ∧ ¬ n.Prime → mobius p n = .diverge) := by
  rcases mobius_cases p n h1 hn with ⟨h, h'⟩ | ⟨h, h'⟩
  · exact ⟨fun _ => h, fun hc => absurd hc h'⟩
  · exact ⟨fun hc => absurd h' hc, fun _ => h⟩

example (p : Profile) : mobius p 6 = .diverge :=
  (C43_mobius p 6 (by omega) (by omega)).2
    ⟨(Nat.squarefree_mul (by decide : Nat.Coprime 2 3)).mpr ⟨Nat.prime_two.squarefree, Nat.prime_three.squarefree⟩, by omega, by decide⟩

/-- C43.  The size of a level: Witt's number when the level is a prime power (or 1) and the power fits. -/
theorem C43_level_partial (p : Profile) (w n : Nat) (hn : n < 2 ^ 32) (h : n = 1 ∨ IsPrimePow n) (hfit : w ^ n < 2 ^ 63) :
    ∃ v, levelSize p w n = .ok v ∧ IsWitt w n v := by
  rcases h with rfl | h
  · refine ⟨w, levelSize_one p w (by simpa using hfit), ?_⟩
    unfold IsWitt
    rw [wittSum_one]
    simp
  · obtain ⟨q, k, hq, hk, rfl⟩ := (isPrimePow_nat_iff n).1 h
    obtain ⟨k, rfl⟩ : ∃ j, k = j + 1 := ⟨k - 1, by omega⟩
    obtain ⟨v, hv, hw, _⟩ := levelSize_primePow p w q k hq hn hfit
    exact ⟨v, hv, hw⟩

example (p : Profile) := C43_level_partial p 3 8 (by omega) (.inr ⟨2, 3, Nat.prime_two.prime, by omega, rfl⟩) (by norm_num)

/-- C43.  The computation never ends at any other level whose power fits. -/
theorem C43_level_diverges (p : Profile) (w n : Nat) (h2 : 2 ≤ n) (hn : n < 2 ^ 32) (hpp : ¬ IsPrimePow n) (hfit : w ^ n < 2 ^ 63) :
    levelSize p w n = .diverge := levelSize_diverge p w n h2 hn hpp (.inr hfit)

example (p : Profile) : levelSize p 2 12 = .diverge := C43_level_diverges p 2 12 (by omega) (by omega) (by decide) (by norm_num)

theorem sum_pow_lt (w d : Nat) (h5 : d ≤ 5) (hfit : w ^ d < 2 ^ 63) : ∑ n ∈ Finset.Icc 1 d, w ^ n < 2 ^ 64 := by
  rcases Nat.lt_or_ge w 2 with hw | hw
  · have h1 : ∑ n ∈ Finset.Icc 1 d, w ^ n ≤ ∑ n ∈ Finset.Icc 1 d, 1 := Finset.sum_le_sum fun n _ => by
      have : w ^ n ≤ 1 ^ n := Nat.pow_le_pow_left (by omega) n
      simpa using this
    simp at h1
    omega
  · have h1 : ∀ d, ∑ n ∈ Finset.Icc 1 d, w ^ n ≤ 2 * w ^ d := by
      intro d
      induction d with
      | zero => simp
      | succ d ih =>
        rw [Finset.sum_Icc_succ_top (by omega)]
        have : 2 * w ^ d ≤ w ^ (d + 1) := by rw [pow_succ, Nat.mul_comm]; exact Nat.mul_le_mul_left _ hw
        omega
    have := h1 d
    omega

/-- Sizes up to degree 5, with the numbers of each level. -/
theorem size_small (p : Profile) (w D : Nat) (h5 : D ≤ 5) (hfit : w ^ D < 2 ^ 63) :
    ∃ W : Nat → Nat, (∀ n, 1 ≤ n → n ≤ D → IsWitt w n (W n)) ∧ ∀ d, d ≤ D → hallSetSize p w d = .ok (∑ n ∈ Finset.Icc 1 d, W n) := by
  have hex : ∀ n, ∃ v, 1 ≤ n → n ≤ D → levelSize p w n = .ok v ∧ IsWitt w n v ∧ v ≤ w ^ n := by
    intro n
    by_cases h : 1 ≤ n ∧ n ≤ D
    · obtain ⟨v, hv⟩ := levelSize_small p w n h.1 (by omega) (pow_fit w D n h.1 h.2 hfit)
      exact ⟨v, fun _ _ => hv⟩
    · exact ⟨0, fun h1 h2 => absurd ⟨h1, h2⟩ h⟩
  obtain ⟨W, hW⟩ := Classical.axiomOfChoice hex
  refine ⟨W, fun n h1 h2 => (hW n h1 h2).2.1, fun d hd => ?_⟩
  unfold hallSetSize
  split_ifs with h0
  · subst h0; rfl
  · refine sizeImpl_ok p w d 1 W (le_refl _) (by omega) (by omega) (fun n h1 h2 => (hW n h1 (by omega)).1) ?_
    refine lt_of_le_of_lt (Finset.sum_le_sum fun n hn => ?_) (sum_pow_lt w d (by omega) (pow_fit w D d (by omega) hd hfit))
    rw [Finset.mem_Icc] at hn
    exact (hW n hn.1 (by omega)).2.2

/-- C43 up to depth 5.  Missing: every greater depth, where the function does not return. -/
theorem C43_hall_set_size_partial (p : Profile) (w d : Nat) (h5 : d ≤ 5) (hfit : w ^ d < 2 ^ 63) :
    ∃ W : Nat → Nat, (∀ n, 1 ≤ n → n ≤ d → IsWitt w n (W n)) ∧ hallSetSize p w d = .ok (∑ n ∈ Finset.Icc 1 d, W n) := by
  obtain ⟨W, h1, h2⟩ := size_small p w d h5 hfit
  exact ⟨W, h1, h2 d (le_refl _)⟩

/-- C43.  From depth 6 on `hall_set_size` never ends: for every width in release, and for every width whose sixth power fits in debug. -/
theorem C43_hall_set_size_diverges (p : Profile) (w d : Nat) (h6 : 6 ≤ d) (hw : p = .release ∨ w ^ 6 < 2 ^ 63) : hallSetSize p w d = .diverge := by
  unfold hallSetSize
  rw [if_neg (by omega)]
  exact sizeImpl_diverge p w d 1 (le_refl _) (by omega) h6 hw

example (p : Profile) : hallSetSize p 2 6 = .diverge := C43_hall_set_size_diverges p 2 6 (by omega) (.inr (by norm_num))

/-- C43.  From depth 6 on `hall_set_size` never returns, whatever the width and profile. -/
theorem C43_hall_set_size_never_returns (p : Profile) (w d v : Nat) (hw : w < 2 ^ 63) (h6 : 6 ≤ d) : hallSetSize p w d ≠ .ok v := by
  by_cases h : p = .release ∨ w ^ 6 < 2 ^ 63
  · rw [C43_hall_set_size_diverges p w d h6 h]
    exact fun h => by cases h
  · obtain ⟨hp, hfit⟩ := not_or.1 h
    have hp : p = .debug := by cases p; rfl; exact absurd rfl hp
    subst hp
    have hrec : ∀ l, 1 ≤ l → l ≤ 6 → ∀ v, sizeImpl .debug w d l ≠ .ok v := by
      intro l h1 h2
      induction hk : 6 - l generalizing l with
      | zero =>
        obtain rfl : l = 6 := by omega
        intro v hv
        rw [sizeImpl_eq, levelSize_debug_panic w 6 (by omega) hw (by omega)] at hv
        cases hv
      | succ k ih =>
        intro v hv
        rw [sizeImpl_eq] at hv
        cases hl : levelSize .debug w l with
        | ok a =>
          rw [hl, Res.bind_ok, if_pos (by omega), addW_ok (by omega), Res.bind_ok] at hv
          cases hs : sizeImpl .debug w d (l + 1) with
          | ok b => exact ih (l + 1) (by omega) (by omega) (by omega) b hs
          | panic => rw [hs] at hv; cases hv
          | ub => rw [hs] at hv; cases hv
          | diverge => rw [hs] at hv; cases hv
        | panic => rw [hl] at hv; cases hv
        | ub => rw [hl] at hv; cases hv
        | diverge => rw [hl] at hv; cases hv
    unfold hallSetSize
    rw [if_neg (by omega)]
    exact hrec 1 (by omega) (by omega) v

example (p : Profile) : hallSetSize p 1000000000 7 ≠ .ok 0 := C43_hall_set_size_never_returns p 1000000000 7 0 (by norm_num) (by omega)

/-- C43 is false: width 2, depth 6 does not return. -/
theorem C43_hall_set_size_refuted (p : Profile) : ¬ C43_hall_set_size_full p := by
  intro h
  obtain ⟨W, _, hv⟩ := h 2 6 (by omega) (by decide)
  exact C43_hall_set_size_never_returns p 2 6 _ (by omega) (by omega) hv

example : ¬ C43_hall_set_size_full .debug ∧ ¬ C43_hall_set_size_full .release := ⟨C43_hall_set_size_refuted _, C43_hall_set_size_refuted _⟩

/-- The crate's own test: width 5, depth 5 is 829. -/
example (p : Profile) : hallSetSize p 5 5 = .ok 829 := by
  obtain ⟨W, h1, h2⟩ := C43_hall_set_size_partial p 5 5 (by omega) (by decide)
  have w1 := h1 1 (by omega) (by omega)
  have w2 := h1 2 (by omega) (by omega)
  have w3 := h1 3 (by omega) (by omega)
  have w4 := h1 4 (by omega) (by omega)
  have w5 := h1 5 (by omega) (by omega)
  unfold IsWitt at w1 w2 w3 w4 w5
  rw [wittSum_one] at w1
  rw [show (2 : Nat) = 2 ^ (0 + 1) from rfl, wittSum_prime_pow 5 2 0 Nat.prime_two] at w2
  rw [show (3 : Nat) = 3 ^ (0 + 1) from rfl, wittSum_prime_pow 5 3 0 Nat.prime_three] at w3
  rw [show (4 : Nat) = 2 ^ (1 + 1) from rfl, wittSum_prime_pow 5 2 1 Nat.prime_two] at w4
  rw [show wittSum 5 5 = (5 : Int) ^ 5 ^ (0 + 1) - (5 : Int) ^ 5 ^ 0 from wittSum_prime_pow 5 5 0 Nat.prime_five] at w5
  norm_num at w1 w2 w3 w4 w5
  rw [h2]
  congr 1
  rw [show Finset.Icc 1 5 = {1, 2, 3, 4, 5} from rfl]
  simp only [Finset.sum_insert, Finset.mem_insert, Finset.mem_singleton, Finset.sum_singleton, OfNat.one_ne_ofNat, or_self, not_false_eq_true,
    show ¬ ((2 : Nat) = 3 ∨ 2 = 4 ∨ 2 = 5) by omega, show ¬ ((3 : Nat) = 4 ∨ 3 = 5) by omega, show ¬ ((4 : Nat) = 5) by omega]
  omega

/-! ## C44 -/

/-- A map after `new(n)` and a history of `grow` calls. -/
def mapAfter (p : Profile) (N n : Nat) (gs : List Nat) : Res RangeMap := do
  let m ← RangeMap.new p N n
  gs.foldlM (RangeMap.grow p N) m

/-- The degrees covered after a history: `new(n)` covers the degrees below `n`, `grow(g)` those up to `g`. -/
def covered (n : Nat) (gs : List Nat) : Nat := gs.foldl (fun n g => max n (g + 1)) n

theorem pushSizes_ok (p : Profile) (N : Nat) (L : List Nat) (m m' : RangeMap) (h : pushSizes p N m L = .ok m') :
    ∃ vs, m' = m ++ vs ∧ List.Forall₂ (fun d v => hallSetSize p N d = .ok v) L vs := by
  unfold pushSizes at h
  induction L generalizing m with
  | nil => cases h; exact ⟨[], by simp, .nil⟩
  | cons d L ih =>
    rw [List.foldlM_cons] at h
    cases hs : hallSetSize p N d with
    | ok v =>
      rw [hs, Res.bind_ok, Res.bind_ok] at h
      obtain ⟨vs, h1, h2⟩ := ih _ h
      exact ⟨v :: vs, by rw [h1]; simp, .cons hs h2⟩
    | panic => rw [hs] at h; cases h
    | ub => rw [hs] at h; cases h
    | diverge => rw [hs] at h; cases h

theorem pushSizes_of_ok (p : Profile) (N : Nat) (L : List Nat) (m : RangeMap) (s : Nat → Nat) (h : ∀ d ∈ L, hallSetSize p N d = .ok (s d)) :
    pushSizes p N m L = .ok (m ++ L.map s) := by
  unfold pushSizes
  induction L generalizing m with
  | nil => simp
  | cons d L ih =>
    rw [List.foldlM_cons, h d (by simp), Res.bind_ok, Res.bind_ok, ih _ (fun e he => h e (by simp [he]))]
    simp

/-- The entries of a map are the sizes. -/
def MapOf (p : Profile) (N : Nat) (m : RangeMap) : Prop := ∀ d (h : d < m.length), hallSetSize p N d = .ok m[d]

theorem mapOf_push (p : Profile) (N : Nat) (m m' : RangeMap) (k : Nat) (hm : MapOf p N m)
    (h : pushSizes p N m (List.range' m.length k) = .ok m') : MapOf p N m' ∧ m'.length = m.length + k ∧ m <+: m' := by
  obtain ⟨vs, rfl, hv⟩ := pushSizes_ok p N _ m m' h
  have hlen : vs.length = k := by rw [← hv.length_eq]; simp
  refine ⟨fun d hd => ?_, by simp [hlen], List.prefix_append _ _⟩
  rcases Nat.lt_or_ge d m.length with h1 | h1
  · rw [List.getElem_append_left h1]
    exact hm d h1
  · rw [List.length_append] at hd
    have hg := (List.forall₂_iff_get.1 hv).2 (d - m.length) (by simp; omega) (by omega)
    rw [List.getElem_append_right h1]
    simpa [show m.length + (d - m.length) = d by omega] using hg

theorem mapOf_grow (p : Profile) (N : Nat) (m m' : RangeMap) (g : Nat) (hm : MapOf p N m) (h : RangeMap.grow p N m g = .ok m') :
    MapOf p N m' ∧ m'.length = max m.length (g + 1) ∧ m <+: m' := by
  unfold RangeMap.grow at h
  split_ifs at h with hg
  · cases h
    exact ⟨hm, by omega, List.prefix_rfl⟩
  · obtain ⟨h1, h2, h3⟩ := mapOf_push p N m m' _ hm h
    exact ⟨h1, by omega, h3⟩

theorem mapOf_new (p : Profile) (N n : Nat) (m : RangeMap) (h : RangeMap.new p N n = .ok m) : MapOf p N m ∧ m.length = n := by
  unfold RangeMap.new at h
  rw [List.range_eq_range'] at h
  obtain ⟨h1, h2, _⟩ := mapOf_push p N [] m n (fun d hd => absurd hd (by simp)) h
  exact ⟨h1, by simpa using h2⟩

theorem mapOf_history (p : Profile) (N : Nat) (gs : List Nat) (m m' : RangeMap) (hm : MapOf p N m) (h : gs.foldlM (RangeMap.grow p N) m = .ok m') :
    MapOf p N m' ∧ m'.length = covered m.length gs ∧ m <+: m' := by
  induction gs generalizing m with
  | nil => cases h; exact ⟨hm, rfl, List.prefix_rfl⟩
  | cons g gs ih =>
    rw [List.foldlM_cons] at h
    cases hg : RangeMap.grow p N m g with
    | ok m1 =>
      rw [hg, Res.bind_ok] at h
      obtain ⟨h1, h2, h3⟩ := mapOf_grow p N m m1 g hm hg
      obtain ⟨k1, k2, k3⟩ := ih m1 h1 h
      exact ⟨k1, by rw [k2, h2]; rfl, h3.trans k3⟩
    | panic => rw [hg] at h; cases h
    | ub => rw [hg] at h; cases h
    | diverge => rw [hg] at h; cases h

theorem mapAfter_mapOf (p : Profile) (N n : Nat) (gs : List Nat) (m : RangeMap) (h : mapAfter p N n gs = .ok m) :
    MapOf p N m ∧ m.length = covered n gs := by
  unfold mapAfter at h
  cases hn : RangeMap.new p N n with
  | ok m0 =>
    rw [hn, Res.bind_ok] at h
    obtain ⟨h1, h2⟩ := mapOf_new p N n m0 hn
    obtain ⟨h3, h4, _⟩ := mapOf_history p N gs m0 m h1 h
    exact ⟨h3, by rw [h4, h2]⟩
  | panic => rw [hn] at h; cases h
  | ub => rw [hn] at h; cases h
  | diverge => rw [hn] at h; cases h

/-- C44, full statement. -/
def C44_degree_range_map_full (p : Profile) (N : Nat) : Prop :=
  ∀ n gs, N ^ covered n gs < 2 ^ 63 → ∃ m, mapAfter p N n gs = .ok m ∧
    (∀ d, (d < covered n gs → ∃ v, hallSetSize p N d = .ok v ∧ RangeMap.get m d = .ok v) ∧
      (covered n gs ≤ d → RangeMap.get m d = .error .degreeOutOfBounds)) ∧
    (∀ k, (∀ last, m.getLast? = some last → last ≤ k) → ∃ e, RangeMap.findDeg m k = .error e) ∧
    (∀ k last, m.getLast? = some last → k < last → ∃ d lo hi, RangeMap.findDeg m k = .ok (d + 1) ∧
      RangeMap.get m d = .ok lo ∧ RangeMap.get m (d + 1) = .ok hi ∧ lo ≤ k ∧ k < hi)

/-- C44, `get` after any history that returns: the size for every covered degree and an error for every other. -/
theorem C44_get (p : Profile) (N n : Nat) (gs : List Nat) (m : RangeMap) (h : mapAfter p N n gs = .ok m) (d : Nat) :
    (d < covered n gs → ∃ v, hallSetSize p N d = .ok v ∧ RangeMap.get m d = .ok v) ∧
    (covered n gs ≤ d → RangeMap.get m d = .error .degreeOutOfBounds) := by
  obtain ⟨h1, h2⟩ := mapAfter_mapOf p N n gs m h
  unfold RangeMap.get
  refine ⟨fun hd => ⟨m[d]'(by omega), h1 d (by omega), ?_⟩, fun hd => ?_⟩
  · rw [List.getElem?_eq_getElem (by omega)]
  · rw [List.getElem?_eq_none (by omega)]

/-- C44.  `grow` never shrinks the map or changes an entry, and reaches the degree requested. -/
theorem C44_grow_extends (p : Profile) (N n : Nat) (gs : List Nat) (m m' : RangeMap) (g : Nat) (h : mapAfter p N n gs = .ok m)
    (hg : RangeMap.grow p N m g = .ok m') :
    (∀ d v, RangeMap.get m d = .ok v → RangeMap.get m' d = .ok v) ∧ (∃ v, RangeMap.get m' g = .ok v) ∧
      (∀ d, covered n gs ≤ d → g < d → RangeMap.get m' d = .error .degreeOutOfBounds) := by
  obtain ⟨h1, h2⟩ := mapAfter_mapOf p N n gs m h
  obtain ⟨h3, h4, h5⟩ := mapOf_grow p N m m' g h1 hg
  unfold RangeMap.get
  refine ⟨fun d v hd => ?_, ?_, fun d hd hgd => ?_⟩
  · obtain ⟨t, rfl⟩ := h5
    cases hm : m[d]? with
    | none => rw [hm] at hd; cases hd
    | some x =>
      rw [hm] at hd
      cases hd
      have hlt := (List.getElem?_eq_some_iff.1 hm).1
      rw [List.getElem?_append_left hlt, hm]
  · rw [List.getElem?_eq_getElem (show g < m'.length by omega)]
    exact ⟨_, rfl⟩
  · rw [List.getElem?_eq_none (by omega)]

/-- C44.  Histories that stay within degree 5 return, if the fifth power of the width fits. -/
theorem C44_returns_partial (p : Profile) (N n : Nat) (gs : List Nat) (hfit : N ^ 5 < 2 ^ 63) (hn : n ≤ 6) (hg : ∀ g ∈ gs, g ≤ 5) :
    ∃ m, mapAfter p N n gs = .ok m := by
  obtain ⟨W, _, hW⟩ := size_small p N 5 (le_refl _) hfit
  unfold mapAfter RangeMap.new
  rw [pushSizes_of_ok p N _ [] (fun d => ∑ n ∈ Finset.Icc 1 d, W n) (fun d hd => hW d (by rw [List.mem_range] at hd; omega)), Res.bind_ok]
  generalize hm0 : ([] : RangeMap) ++ _ = m0
  clear hm0
  induction gs generalizing m0 with
  | nil => exact ⟨_, rfl⟩
  | cons g gs ih =>
    rw [List.foldlM_cons]
    unfold RangeMap.grow
    have := hg g (by simp)
    split_ifs with h
    · rw [Res.bind_ok]
      exact ih (fun e he => hg e (by simp [he])) _
    · rw [pushSizes_of_ok p N _ m0 (fun d => ∑ n ∈ Finset.Icc 1 d, W n) (fun d hd => hW d (by rw [List.mem_range'_1] at hd; omega)), Res.bind_ok]
      exact ih (fun e he => hg e (by simp [he])) _

/-- C44.  A history that covers degree 6 or more never returns. -/
theorem C44_never_returns (p : Profile) (N n : Nat) (hN : N < 2 ^ 63) (gs : List Nat) (h7 : 7 ≤ covered n gs) (m : RangeMap) :
    mapAfter p N n gs ≠ .ok m := by
  intro h
  obtain ⟨h1, h2⟩ := mapAfter_mapOf p N n gs m h
  exact C43_hall_set_size_never_returns p N 6 _ hN (le_refl _) (h1 6 (by omega))

example (p : Profile) (m : RangeMap) : mapAfter p 5 2 [5, 6, 3] ≠ .ok m := C44_never_returns p 5 2 (by norm_num) [5, 6, 3] (by decide) m

/-- The hypotheses of `C44_get` and `C44_grow_extends`, width 5. -/
example (p : Profile) : ∃ m v, mapAfter p 5 2 [5, 3] = .ok m ∧ RangeMap.get m 4 = .ok v ∧ RangeMap.get m 6 = .error .degreeOutOfBounds := by
  obtain ⟨m, hm⟩ := C44_returns_partial p 5 2 [5, 3] (by decide) (by omega) (by simp)
  obtain ⟨v, _, hv⟩ := (C44_get p 5 2 [5, 3] m hm 4).1 (by decide)
  exact ⟨m, v, hm, hv, (C44_get p 5 2 [5, 3] m hm 6).2 (by decide)⟩

example (p : Profile) : ∃ m m' v, mapAfter p 5 2 [3] = .ok m ∧ RangeMap.grow p 5 m 5 = .ok m' ∧ RangeMap.get m' 5 = .ok v := by
  obtain ⟨m', hm'⟩ := C44_returns_partial p 5 2 [3, 5] (by decide) (by omega) (by simp)
  obtain ⟨m, hm⟩ := C44_returns_partial p 5 2 [3] (by decide) (by omega) (by simp)
  have hg : RangeMap.grow p 5 m 5 = .ok m' := by
    unfold mapAfter at hm hm'
    cases h0 : RangeMap.new p 5 2 with
    | ok a =>
      rw [h0, Res.bind_ok] at hm hm'
      rw [List.foldlM_cons] at hm hm'
      cases h1 : RangeMap.grow p 5 a 3 with
      | ok b =>
        rw [h1, Res.bind_ok] at hm hm'
        cases hm
        rw [List.foldlM_cons] at hm'
        cases h2 : RangeMap.grow p 5 m 5 with
        | ok c => rw [h2, Res.bind_ok] at hm'; exact hm'
        | panic => rw [h2] at hm'; cases hm'
        | ub => rw [h2] at hm'; cases hm'
        | diverge => rw [h2] at hm'; cases hm'
      | panic => rw [h1] at hm; cases hm
      | ub => rw [h1] at hm; cases hm
      | diverge => rw [h1] at hm; cases hm
    | panic => rw [h0] at hm; cases hm
    | ub => rw [h0] at hm; cases hm
    | diverge => rw [h0] at hm; cases hm
  obtain ⟨v, hv⟩ := (C44_grow_extends p 5 2 [3] m m' 5 hm hg).2.1
  exact ⟨m, m', v, hm, hg, hv⟩

/-- The entries of a map that was built are non-decreasing, when the powers fit. -/
theorem mapOf_sorted (p : Profile) (N : Nat) (m : RangeMap) (hm : MapOf p N m) (hfit : N ^ 5 < 2 ^ 63) :
    ∀ i j (hj : j < m.length) (h : i ≤ j), m[i]'(by omega) ≤ m[j] := by
  intro i j hj h
  have h6 : m.length ≤ 6 := by
    by_contra hc
    have hw : N < 2 ^ 63 := by simpa using pow_fit N 5 1 (le_refl _) (by omega) hfit
    exact C43_hall_set_size_never_returns p N 6 _ hw (le_refl _) (hm 6 (by omega))
  obtain ⟨W, _, hW⟩ := size_small p N 5 (le_refl _) hfit
  have e1 := hm i (by omega)
  have e2 := hm j hj
  rw [hW i (by omega)] at e1
  rw [hW j (by omega)] at e2
  injection e1 with e1
  injection e2 with e2
  rw [← e1, ← e2]
  exact Finset.sum_le_sum_of_subset (Finset.Icc_subset_Icc (le_refl _) h)

theorem takeWhile_stop (m : List Nat) (q : Nat → Bool) (h : (m.takeWhile q).length < m.length) : ¬ q (m[(m.takeWhile q).length]'h) = true := by
  induction m with
  | nil => simp at h
  | cons a m ih =>
    by_cases ha : q a = true
    · simp only [List.takeWhile_cons_of_pos ha, List.length_cons, List.getElem_cons_succ]
      simp only [List.takeWhile_cons_of_pos ha, List.length_cons] at h
      exact ih (by omega)
    · simp only [List.takeWhile_cons_of_neg ha, List.length_nil, List.getElem_cons_zero]
      exact ha

theorem takeWhile_length (m : List Nat) (k : Nat) (hs : ∀ i j (hj : j < m.length) (h : i ≤ j), m[i]'(by omega) ≤ m[j]) :
    let t := (m.takeWhile (fun v => decide (v ≤ k))).length
    t ≤ m.length ∧ (∀ i (h : i < m.length), i < t → m[i] ≤ k) ∧ (∀ i (h : i < m.length), t ≤ i → k < m[i]) := by
  intro t
  have hpre : m.takeWhile (fun v => decide (v ≤ k)) <+: m := List.takeWhile_prefix _
  have hle : t ≤ m.length := hpre.length_le
  refine ⟨hle, fun i h hi => ?_, fun i h hi => ?_⟩
  · have h1 := List.all_takeWhile (l := m) (p := fun v => decide (v ≤ k))
    rw [List.all_eq_true] at h1
    have h2 := h1 ((m.takeWhile (fun v => decide (v ≤ k)))[i]'hi) (List.getElem_mem _)
    rw [hpre.getElem hi] at h2
    simpa using h2
  · have ht : t < m.length := by omega
    have h1 : ¬ (m[t] ≤ k) := by
      have := takeWhile_stop m (fun v => decide (v ≤ k)) ht
      simpa using this
    have := hs t i h hi
    omega

/-- C44, `find_deg` of an index below the last size: the degree whose range of indices contains it. -/
theorem C44_find_deg_partial (p : Profile) (N n : Nat) (gs : List Nat) (m : RangeMap) (h : mapAfter p N n gs = .ok m) (hfit : N ^ 5 < 2 ^ 63)
    (k last : Nat) (hl : m.getLast? = some last) (hk : k < last) :
    ∃ d lo hi, RangeMap.findDeg m k = .ok (d + 1) ∧ RangeMap.get m d = .ok lo ∧ RangeMap.get m (d + 1) = .ok hi ∧ lo ≤ k ∧ k < hi := by
  obtain ⟨h1, _⟩ := mapAfter_mapOf p N n gs m h
  have hsort := mapOf_sorted p N m h1 hfit
  have hw : N < 2 ^ 63 := by simpa using pow_fit N 5 1 (le_refl _) (by omega) hfit
  have h6 : m.length ≤ 6 := by
    by_contra hc
    exact C43_hall_set_size_never_returns p N 6 _ hw (le_refl _) (h1 6 (by omega))
  obtain ⟨t1, t2, t3⟩ := takeWhile_length m k hsort
  have hne : m ≠ [] := fun he => by rw [he] at hl; cases hl
  have hpos : 0 < m.length := List.length_pos_iff.2 hne
  rw [List.getLast?_eq_getElem?, List.getElem?_eq_getElem (by omega)] at hl
  injection hl with hl
  have h0 : m[0] = 0 := by
    have := h1 0 hpos
    unfold hallSetSize at this
    rw [if_pos rfl] at this
    injection this with this
    exact this.symm
  set t := (m.takeWhile (fun v => decide (v ≤ k))).length with ht
  have ht0 : 0 < t := by
    by_contra hc
    have := t3 0 hpos (by omega)
    omega
  have htl : t < m.length := by
    by_contra hc
    have := t2 (m.length - 1) (by omega) (by omega)
    omega
  refine ⟨t - 1, m[t - 1]'(by omega), m[t], ?_, ?_, ?_, t2 _ _ (by omega), t3 _ _ (le_refl _)⟩
  · unfold RangeMap.findDeg
    rw [List.getLast?_eq_getElem?, List.getElem?_eq_getElem (by omega)]
    simp only
    rw [if_neg (by omega), ← ht, Nat.mod_eq_of_lt (by omega), show t - 1 + 1 = t by omega]
  · unfold RangeMap.get
    rw [List.getElem?_eq_getElem (by omega)]
  · unfold RangeMap.get
    rw [show t - 1 + 1 = t by omega, List.getElem?_eq_getElem htl]

/-- C44.  `find_deg` beyond the last size is an error, and so it is on an empty map. -/
theorem C44_find_deg_beyond (m : RangeMap) (k : Nat) : (m = [] → RangeMap.findDeg m k = .error .mapIsEmpty) ∧
    (∀ last, m.getLast? = some last → last < k → RangeMap.findDeg m k = .error .degreeOutOfBounds) := by
  unfold RangeMap.findDeg
  refine ⟨fun h => by rw [h]; rfl, fun last hl hk => ?_⟩
  rw [hl]
  simp only
  rw [if_pos hk]

example : RangeMap.findDeg [0, 2, 3, 5] 6 = .error .degreeOutOfBounds := (C44_find_deg_beyond [0, 2, 3, 5] 6).2 5 rfl (by omega)

/-- The hypotheses of `C44_find_deg_partial`, one letter: the last size is 1. -/
example (p : Profile) : ∃ m d, mapAfter p 1 2 [] = .ok m ∧ RangeMap.findDeg m 0 = .ok (d + 1) := by
  obtain ⟨m, hm⟩ := C44_returns_partial p 1 2 [] (by decide) (by omega) (by simp)
  have hlen := (mapAfter_mapOf p 1 2 [] m hm).2
  obtain ⟨W, hW, hs⟩ := C43_hall_set_size_partial p 1 1 (by omega) (by decide)
  have w1 := hW 1 (by omega) (by omega)
  unfold IsWitt at w1
  rw [wittSum_one] at w1
  obtain ⟨v, hv, hg⟩ := (C44_get p 1 2 [] m hm 1).1 (by decide)
  rw [hs] at hv
  have hv1 : v = 1 := by
    cases hv
    rw [Finset.Icc_self, Finset.sum_singleton]
    push_cast at w1
    omega
  have hl : m.getLast? = some 1 := by
    rw [List.getLast?_eq_getElem?, hlen]
    unfold RangeMap.get at hg
    show m[2 - 1]? = some 1
    cases h1 : m[1]? with
    | none => rw [h1] at hg; cases hg
    | some x => rw [h1] at hg; cases hg; rw [hv1]
  obtain ⟨d, _, _, h, _⟩ := C44_find_deg_partial p 1 2 [] m hm (by decide) 0 1 hl (by omega)
  exact ⟨m, d, hm, h⟩

/-- C44.  `find_deg` at the first index beyond the map (the last size) is not an error: it answers with a degree that the map does not cover. -/
theorem C44_find_deg_boundary (p : Profile) (N n : Nat) (gs : List Nat) (m : RangeMap) (h : mapAfter p N n gs = .ok m) (hfit : N ^ 5 < 2 ^ 63)
    (last : Nat) (hl : m.getLast? = some last) :
    RangeMap.findDeg m last = .ok m.length ∧ RangeMap.get m m.length = .error .degreeOutOfBounds := by
  obtain ⟨h1, _⟩ := mapAfter_mapOf p N n gs m h
  have hsort := mapOf_sorted p N m h1 hfit
  have hw : N < 2 ^ 63 := by simpa using pow_fit N 5 1 (le_refl _) (by omega) hfit
  have h6 : m.length ≤ 6 := by
    by_contra hc
    exact C43_hall_set_size_never_returns p N 6 _ hw (le_refl _) (h1 6 (by omega))
  have hne : m ≠ [] := fun he => by rw [he] at hl; cases hl
  have hpos : 0 < m.length := List.length_pos_iff.2 hne
  have hl' := hl
  rw [List.getLast?_eq_getElem?, List.getElem?_eq_getElem (by omega)] at hl'
  injection hl' with hl'
  obtain ⟨t1, t2, t3⟩ := takeWhile_length m last hsort
  set t := (m.takeWhile (fun v => decide (v ≤ last))).length with ht
  have htl : t = m.length := by
    by_contra hc
    have h2 := t3 (m.length - 1) (by omega) (by omega)
    omega
  constructor
  · unfold RangeMap.findDeg
    rw [hl]
    simp only
    rw [if_neg (by omega), ← ht, htl, Nat.mod_eq_of_lt (by omega)]
  · unfold RangeMap.get
    rw [List.getElem?_eq_none (le_refl _)]

/-- C44 is false for every width: `new(7)` does not return, and `find_deg` accepts the first index beyond the map. -/
theorem C44_degree_range_map_refuted (p : Profile) (N : Nat) (hfit : N ^ 5 < 2 ^ 63) : ¬ C44_degree_range_map_full p N := by
  intro h
  obtain ⟨m, hm, _, hb, _⟩ := h 1 [] (by
    show N ^ 1 < 2 ^ 63
    exact pow_fit N 5 1 (le_refl _) (by omega) hfit)
  obtain ⟨_, h2⟩ := mapAfter_mapOf p N 1 [] m hm
  have h2 : m.length = 1 := h2
  have hl : m.getLast? = some (m[0]'(by omega)) := by
    rw [List.getLast?_eq_getElem?, List.getElem?_eq_getElem (by omega)]
    simp [h2]
  obtain ⟨e, he⟩ := hb (m[0]'(by omega)) (fun last h => by rw [hl] at h; injection h with h; omega)
  rw [(C44_find_deg_boundary p N 1 [] m hm hfit _ hl).1] at he
  cases he

example : ¬ C44_degree_range_map_full .release 5 := C44_degree_range_map_refuted .release 5 (by norm_num)

/-- The map of the crate's tests, width 5: its last entry is the number of the test. -/
example (p : Profile) : ∃ m, mapAfter p 5 2 [5, 3] = .ok m ∧ m.length = 6 := by
  obtain ⟨m, hm⟩ := C44_returns_partial p 5 2 [5, 3] (by decide) (by omega) (by simp)
  exact ⟨m, hm, (mapAfter_mapOf p 5 2 [5, 3] m hm).2⟩

/-! ## C45 -/

theorem makeKeyData_ok (p : Profile) (key l r sz : Nat) (hk : key < 2 ^ 18) (hl : l < 2 ^ 18) (hr : r < 2 ^ 18) (hs : sz < 2 ^ 10) :
    Key.makeKeyData p key l r sz = .ok (key + l * 2 ^ 18 + r * 2 ^ 36 + sz * 2 ^ 54) := by
  unfold Key.makeKeyData
  rw [show Key.sizeShift = 54 from rfl, show Key.lparentShift = 18 from rfl, show Key.rparentShift = 36 from rfl,
    shlW_ok' (by omega) (by omega), Res.bind_ok, shlW_ok' (by omega) (by omega), Res.bind_ok, shlW_ok' (by omega) (by omega), Res.bind_ok,
    addW_ok (by omega), Res.bind_ok, addW_ok (by omega), Res.bind_ok, addW_ok (by omega)]

theorem key_fields (p : Profile) (k : Nat) :
    Key.getKey p k = .ok (k % 2 ^ 18) ∧ Key.getLparent p k = .ok (k / 2 ^ 18 % 2 ^ 18) ∧ Key.getRparent p k = .ok (k / 2 ^ 36 % 2 ^ 18) ∧
      Key.size p k = .ok (k / 2 ^ 54 % 2 ^ 10) := by
  refine ⟨?_, ?_, ?_, ?_⟩
  · unfold Key.getKey
    rw [show Key.keyBits = 18 from rfl, makeMask_ok _ _ _ (by omega) (by omega) (by omega), Res.bind_ok]
    have := mask_extract k 18 0
    rw [Nat.shiftRight_zero, Nat.pow_zero, Nat.div_one] at this
    rw [this, Nat.mod_eq_of_lt (by omega)]
  · unfold Key.getLparent
    rw [show Key.parentBits = 18 from rfl, show Key.lparentShift = 18 from rfl, makeMask_ok _ _ _ (by omega) (by omega) (by omega), Res.bind_ok,
      shrW_ok (by omega), Res.bind_ok, mask_extract, Nat.mod_eq_of_lt (show k / 2 ^ 18 % 2 ^ 18 < 2 ^ 32 by omega)]
  · unfold Key.getRparent
    rw [show Key.parentBits = 18 from rfl, show Key.rparentShift = 36 from rfl, makeMask_ok _ _ _ (by omega) (by omega) (by omega), Res.bind_ok,
      shrW_ok (by omega), Res.bind_ok, mask_extract, Nat.mod_eq_of_lt (show k / 2 ^ 36 % 2 ^ 18 < 2 ^ 32 by omega)]
  · unfold Key.size
    rw [show Key.sizeBits = 10 from rfl, show Key.sizeShift = 54 from rfl, makeMask_ok _ _ _ (by omega) (by omega) (by omega), Res.bind_ok,
      shrW_ok (by omega), Res.bind_ok, mask_extract, Nat.mod_eq_of_lt (show k / 2 ^ 54 % 2 ^ 10 < 2 ^ 32 by omega)]

/-- C45.  A Hall key packs its four fields without loss. -/
theorem C45_pack_unpack (p : Profile) (key l r sz : Nat) (hk : key < 2 ^ 18) (hl : l < 2 ^ 18) (hr : r < 2 ^ 18) (hs : sz < 2 ^ 10) :
    ∃ k, Key.makeKeyData p key l r sz = .ok k ∧ k < 2 ^ 64 ∧ Key.getKey p k = .ok key ∧ Key.getLparent p k = .ok l ∧
      Key.getRparent p k = .ok r ∧ Key.size p k = .ok sz := by
  refine ⟨_, makeKeyData_ok p key l r sz hk hl hr hs, by omega, ?_⟩
  obtain ⟨h1, h2, h3, h4⟩ := key_fields p (key + l * 2 ^ 18 + r * 2 ^ 36 + sz * 2 ^ 54)
  rw [h1, h2, h3, h4]
  refine ⟨?_, ?_, ?_, ?_⟩ <;> congr 1 <;> omega

example := C45_pack_unpack .debug 262143 17 3 1023 (by norm_num) (by norm_num) (by norm_num) (by norm_num)

/-- C45.  Conversely every 64-bit word is the packing of its fields. -/
theorem C45_unpack_pack (p : Profile) (k : Nat) (hk : k < 2 ^ 64) :
    ∃ key l r sz, Key.getKey p k = .ok key ∧ Key.getLparent p k = .ok l ∧ Key.getRparent p k = .ok r ∧ Key.size p k = .ok sz ∧
      Key.makeKeyData p key l r sz = .ok k := by
  obtain ⟨h1, h2, h3, h4⟩ := key_fields p k
  refine ⟨_, _, _, _, h1, h2, h3, h4, ?_⟩
  rw [makeKeyData_ok _ _ _ _ _ (by omega) (by omega) (by omega) (by omega)]
  congr 1
  omega

example := C45_unpack_pack .release (2 ^ 64 - 1) (by norm_num)

/-- C45.  `from_letter(l)` is a valid key: the letter `l`, of size 1, without left parent, its own right parent, at index `l - 1`. -/
theorem C45_from_letter (p : Profile) (N l : Nat) (h1 : 1 ≤ l) (hN : l ≤ N) (hl : l < 2 ^ 18) :
    ∃ k, Key.fromLetter p N l = .ok k ∧ Key.isValid k = true ∧ Key.isLetter p k = .ok true ∧ Key.getKey p k = .ok l ∧ Key.getLparent p k = .ok 0 ∧
      Key.getRparent p k = .ok l ∧ Key.toIndex p k = .ok (l - 1) ∧ Key.display p k = .ok [.num l] := by
  obtain ⟨k, hk, _, f1, f2, f3, f4⟩ := C45_pack_unpack p l 0 l 1 hl (by omega) hl (by omega)
  have hl : Key.isLetter p k = .ok true := by
    unfold Key.isLetter
    rw [f4]
    rfl
  refine ⟨k, ?_, ?_, hl, f1, f2, f3, ?_, ?_⟩
  · unfold Key.fromLetter
    rw [show decide (1 ≤ l ∧ l ≤ N) = true by simp; omega, debugAssert_true, Res.bind_ok, hk]
  · unfold Key.isValid
    rw [decide_eq_true_eq]
    rintro rfl
    rw [(key_fields p 0).1] at f1
    injection f1 with f1
    omega
  · unfold Key.toIndex
    rw [f1, Res.bind_ok, subW_ok h1]
  · unfold Key.display
    rw [hl, Res.bind_ok, if_pos rfl, f1]
    rfl

example := C45_from_letter .debug 300000 262143 (by norm_num) (by norm_num) (by norm_num)

/-- C45.  A key that is not a letter is displayed as the pair of its parents. -/
theorem C45_display_pair (p : Profile) (key l r sz : Nat) (hk : key < 2 ^ 18) (hl : l < 2 ^ 18) (hr : r < 2 ^ 18) (hs : sz < 2 ^ 10) (h1 : sz ≠ 1) :
    ∃ k, Key.makeKeyData p key l r sz = .ok k ∧ Key.display p k = .ok [.text "[", .num l, .text ", ", .num r, .text "]"] := by
  obtain ⟨k, hm, _, _, f2, f3, f4⟩ := C45_pack_unpack p key l r sz hk hl hr hs
  refine ⟨k, hm, ?_⟩
  unfold Key.display Key.isLetter
  rw [f4, Res.bind_ok, Res.bind_ok, if_neg (by simpa using h1), f2, Res.bind_ok, f3]
  rfl

example := C45_display_pair .debug 3 1 2 2 (by norm_num) (by norm_num) (by norm_num) (by norm_num) (by norm_num)

/-- C45.  The bound on letters is needed: the first letter past it is packed as a key with no letter. -/
theorem C45_from_letter_too_big (p : Profile) (N : Nat) (hN : 2 ^ 18 ≤ N) :
    ∃ k, Key.fromLetter p N (2 ^ 18) = .ok k ∧ Key.getKey p k = .ok 0 ∧ Key.getLparent p k = .ok 1 := by
  refine ⟨2 ^ 18 + 2 ^ 18 * 2 ^ 36 + 2 ^ 54, ?_, ?_, ?_⟩
  · unfold Key.fromLetter
    rw [show decide (1 ≤ 2 ^ 18 ∧ 2 ^ 18 ≤ N) = true by simp; omega, debugAssert_true, Res.bind_ok]
    cases p <;> decide +kernel
  · rw [(key_fields p _).1]
    decide +kernel
  · rw [(key_fields p _).2.1]
    decide +kernel

example := C45_from_letter_too_big .release 300000 (by norm_num)

example : Key.fromLetter .release 3 2 = .ok (2 + 2 * 2 ^ 36 + 2 ^ 54) := by decide +kernel

/-! ## C47 -/

/-- The Hall sets that the code can make: `HallSetInner::new()` followed by any calls of the inherent `grow_up`. -/
inductive ReachableInner (p : Profile) (N : Nat) : Inner → Prop
  | new {s : Inner} (h : Inner.new p N = .ok s) : ReachableInner p N s
  | grow {s t : Inner} {d : Nat} (hs : ReachableInner p N s) (hd : d < 2 ^ 32) (h : s.growUp p d = .ok t) : ReachableInner p N t

/-- C47, full statement: the lookups return for every key and history, `grow_up` reaches the degree, and afterwards every letter can be looked up (the degree 1
keys are the letters `1..=N`). -/
def C47_hall_set_full (p : Profile) (N : Nat) : Prop :=
  (∀ s, ReachableInner p N s → ∀ k, (∃ x, s.keyDetails k = .ok x) ∧ (∃ x, s.lparentDetails k = .ok x) ∧ (∃ x, s.rparentDetails k = .ok x)) ∧
  (∀ s, ReachableInner p N s → ∀ d, 1 ≤ d → d < 2 ^ 32 → ∃ t, s.traitGrowUp d = .ok (.ok t) ∧ d ≤ t.currentDegree ∧
    ∀ l, 1 ≤ l → l ≤ N → ∃ i, t.keyDetails l = .ok (.ok i))

theorem growUp_ok (p : Profile) (s : Inner) (d : Nat) (hd : d < 2 ^ 32) : s.growUp p d = .ok { s with currentDegree := max s.currentDegree d } := by
  induction hk : d - s.currentDegree generalizing s with
  | zero =>
    rw [Inner.growUp.eq_1, if_neg (by omega), show max s.currentDegree d = s.currentDegree by omega]
  | succ k ih =>
    rw [Inner.growUp.eq_1, if_pos (by omega), addW_ok (by omega), Res.bind_ok, ih _ (by simp; omega)]
    simp only
    rw [show max (s.currentDegree + 1) d = max s.currentDegree d by omega]

theorem startingSize_pos (N : Nat) : 2 ≤ startingSize N := by
  unfold startingSize
  split_ifs <;> omega

theorem reachable_inv (p : Profile) (N : Nat) (s : Inner) (h : ReachableInner p N s) :
    s.set = [(0, 0)] ∧ MapOf p N s.degrees ∧ s.degrees.length = startingSize N := by
  induction h with
  | new h =>
    unfold Inner.new at h
    cases hm : RangeMap.new p N (startingSize N) with
    | ok m =>
      rw [hm, Res.bind_ok] at h
      cases h
      obtain ⟨h1, h2⟩ := mapOf_new p N _ m hm
      exact ⟨rfl, h1, h2⟩
    | panic => rw [hm] at h; cases h
    | ub => rw [hm] at h; cases h
    | diverge => rw [hm] at h; cases h
  | grow hs hd h ih =>
    rw [growUp_ok p _ _ hd] at h
    cases h
    exact ih

theorem reachable_degree_zero (p : Profile) (N : Nat) (s : Inner) (h : ReachableInner p N s) : ∃ d, s.degree 0 = some d := by
  obtain ⟨_, _, h3⟩ := reachable_inv p N s h
  have := startingSize_pos N
  unfold Inner.degree RangeMap.findDeg
  rw [List.getLast?_eq_getElem?, List.getElem?_eq_getElem (by omega)]
  simp only
  rw [if_neg (by omega)]
  exact ⟨_, rfl⟩

/-- C47, the lookups of every Hall set the code can make, for every key: key 0 is its own parent, and every other key is `HallSetTooSmall`, whatever
the degree grown to.  None of them panics. -/
theorem C47_lookups_partial (p : Profile) (N : Nat) (s : Inner) (h : ReachableInner p N s) (k : Nat) :
    (k = 0 → ∃ d, s.keyDetails k = .ok (.ok (0, 0, 0, d)) ∧ s.lparentDetails k = .ok (.ok (0, 0, 0, d)) ∧
      s.rparentDetails k = .ok (.ok (0, 0, 0, d))) ∧
    (k ≠ 0 → s.keyDetails k = .ok (.error .tooSmall) ∧ s.lparentDetails k = .ok (.error .tooSmall) ∧ s.rparentDetails k = .ok (.error .tooSmall)) := by
  obtain ⟨h1, _, _⟩ := reachable_inv p N s h
  obtain ⟨d, hd⟩ := reachable_degree_zero p N s h
  refine ⟨?_, fun hk => ?_⟩
  · rintro rfl
    refine ⟨d, ?_, ?_, ?_⟩
    · unfold Inner.keyDetails Inner.getParents; rw [h1]; simp only [List.getElem?_cons_zero]; rw [hd]; rfl
    · unfold Inner.lparentDetails Inner.detailsOf Inner.getParents; rw [h1]; simp only [List.getElem?_cons_zero]; rw [hd]; rfl
    · unfold Inner.rparentDetails Inner.detailsOf Inner.getParents; rw [h1]; simp only [List.getElem?_cons_zero]; rw [hd]; rfl
  · obtain ⟨j, rfl⟩ : ∃ j, k = j + 1 := ⟨k - 1, by omega⟩
    unfold Inner.keyDetails Inner.lparentDetails Inner.rparentDetails Inner.getParents
    rw [h1]
    exact ⟨rfl, rfl, rfl⟩

/-- C47.  The inherent `grow_up(d)` reaches degree `d`, never lowers the degree, and changes nothing else. -/
theorem C47_grow_up_degree_partial (p : Profile) (s : Inner) (d : Nat) (hd : d < 2 ^ 32) :
    ∃ t, s.growUp p d = .ok t ∧ t.currentDegree = max s.currentDegree d ∧ t.set = s.set ∧ t.degrees = s.degrees :=
  ⟨_, growUp_ok p s d hd, rfl, rfl, rfl⟩

example : ∃ t, (⟨3, [(0, 0)], [0, 2, 3]⟩ : Inner).growUp .debug 2 = .ok t ∧ t.currentDegree = 3 ∧ t.set = [(0, 0)] ∧ t.degrees = [0, 2, 3] :=
  C47_grow_up_degree_partial .debug ⟨3, [(0, 0)], [0, 2, 3]⟩ 2 (by norm_num)

/-- C47.  The details of a stored key are the key, its left and right parent and the degree that the size map gives for it, and the details of a parent are those of the parent: in any
table, reachable or not.  A key that is not stored is `HallSetTooSmall`, and a stored key with a parent that is not stored panics. -/
theorem C47_details_partial (s : Inner) (k l r : Nat) (hk : s.set[k]? = some (l, r)) :
    (∀ d, s.degree k = some d → s.keyDetails k = .ok (.ok (k, l, r, d))) ∧
    (∀ l1 l2 d, s.set[l]? = some (l1, l2) → s.degree l = some d → s.lparentDetails k = .ok (.ok (l, l1, l2, d))) ∧
    (∀ r1 r2 d, s.set[r]? = some (r1, r2) → s.degree r = some d → s.rparentDetails k = .ok (.ok (r, r1, r2, d))) ∧
    (s.set.length ≤ l → s.lparentDetails k = .panic) ∧ (s.set.length ≤ r → s.rparentDetails k = .panic) ∧
    (∀ j, s.set.length ≤ j → s.keyDetails j = .ok (.error .tooSmall) ∧ s.lparentDetails j = .ok (.error .tooSmall) ∧
      s.rparentDetails j = .ok (.error .tooSmall)) := by
  unfold Inner.keyDetails Inner.lparentDetails Inner.rparentDetails Inner.detailsOf Inner.getParents
  rw [hk]
  refine ⟨fun d hd => ?_, fun l1 l2 d hl hd => ?_, fun r1 r2 d hr hd => ?_, fun hl => ?_, fun hr => ?_, fun j hj => ?_⟩
  · rw [hd]; rfl
  · simp only [hl, hd]; rfl
  · simp only [hr, hd]; rfl
  · simp only [List.getElem?_eq_none hl]; rfl
  · simp only [List.getElem?_eq_none hr]; rfl
  · rw [List.getElem?_eq_none hj]; exact ⟨rfl, rfl, rfl⟩

/-- With the Hall set of two letters up to degree 3, `1, 2, [1,2], [1,[1,2]], [2,[1,2]]`: the details of `[2,[1,2]]` and of its parents (the map takes
keys as 0-based indices, C44). -/
example : let s : Inner := { currentDegree := 3, set := [(0, 0), (0, 1), (0, 2), (1, 2), (1, 3), (2, 3)], degrees := [0, 2, 3, 5] }
    s.keyDetails 5 = .ok (.ok (5, 2, 3, 4)) ∧ s.lparentDetails 5 = .ok (.ok (2, 0, 2, 2)) ∧ s.rparentDetails 5 = .ok (.ok (3, 1, 2, 3)) := by
  intro s
  obtain ⟨h1, h2, h3, _⟩ := C47_details_partial s 5 2 3 rfl
  exact ⟨h1 4 (by decide), h2 0 2 2 rfl (by decide), h3 1 2 3 rfl (by decide)⟩

/-- C47.  `HallSetInner::new()` never returns for two to ten letters. -/
theorem C47_new_never_returns (p : Profile) (N : Nat) (h2 : 2 ≤ N) (h10 : N ≤ 10) (s : Inner) : ¬ ReachableInner p N s := by
  intro h
  obtain ⟨_, h1, h3⟩ := reachable_inv p N s h
  have h7 : 7 ≤ startingSize N := by
    unfold startingSize
    split_ifs <;> omega
  exact C43_hall_set_size_never_returns p N 6 _ (by omega) (le_refl _) (h1 6 (by omega))

example (p : Profile) (s : Inner) : ¬ ReachableInner p 5 s := C47_new_never_returns p 5 (by omega) (by omega) s

/-- For every other width (up to 6208 letters) it returns. -/
theorem new_returns (p : Profile) (N : Nat) (h : N < 2 ∨ 10 < N) (hfit : N ^ 5 < 2 ^ 63) : ∃ s, Inner.new p N = .ok s := by
  have h3 : startingSize N ≤ 3 := by
    unfold startingSize
    split_ifs <;> omega
  obtain ⟨m, hm⟩ := C44_returns_partial p N (startingSize N) [] hfit (by omega) (by simp)
  unfold mapAfter at hm
  unfold Inner.new
  cases hn : RangeMap.new p N (startingSize N) with
  | ok m => exact ⟨_, rfl⟩
  | panic => rw [hn] at hm; cases hm
  | ub => rw [hn] at hm; cases hm
  | diverge => rw [hn] at hm; cases hm

/-- C47 is false for every width whose Hall set can be made: the `grow_up` of the trait panics. -/
theorem C47_hall_set_refuted (p : Profile) (N : Nat) (h : N < 2 ∨ 10 < N) (hfit : N ^ 5 < 2 ^ 63) : ¬ C47_hall_set_full p N := by
  intro hf
  obtain ⟨s, hs⟩ := new_returns p N h hfit
  obtain ⟨t, ht, _⟩ := hf.2 s (.new hs) 1 (le_refl _) (by omega)
  cases ht

example (p : Profile) : ¬ C47_hall_set_full p 100 := C47_hall_set_refuted p 100 (by omega) (by norm_num)

/-- C47.  Growing never makes a letter available: after any history each letter is still `HallSetTooSmall`. -/
theorem C47_letters_never_available (p : Profile) (N : Nat) (s : Inner) (h : ReachableInner p N s) (l : Nat) (hl : 1 ≤ l) :
    s.keyDetails l = .ok (.error .tooSmall) := ((C47_lookups_partial p N s h l).2 (by omega)).1

example (p : Profile) : ∃ s, ReachableInner p 11 s ∧ s.keyDetails 0 ≠ .ok (.error .tooSmall) ∧ ∀ l, 1 ≤ l → s.keyDetails l = .ok (.error .tooSmall) := by
  obtain ⟨s, hs⟩ := new_returns p 11 (by omega) (by decide)
  obtain ⟨d, hd, _⟩ := (C47_lookups_partial p 11 s (.new hs) 0).1 rfl
  exact ⟨s, .new hs, by rw [hd]; simp, C47_letters_never_available p 11 s (.new hs)⟩

/-- C47.  Calling `grow_up` on a Hall set object panics and poisons it: every later operation on it is an error. -/
theorem C47_grow_up_poisons (o : Obj) (ho : o.poisoned = false) (d : Nat) :
    (o.growUp d).1 = .panic ∧
      (∀ e, ((o.growUp d).2.growUp e).1 = .ok (.error .writeError)) ∧
      (∀ k, (o.growUp d).2.read (fun i => i.keyDetails k) = .ok (.error .readError)) := by
  unfold Obj.growUp
  rw [ho]
  refine ⟨rfl, fun e => rfl, fun k => rfl⟩

example := C47_grow_up_poisons ⟨⟨3, [(0, 0)], [0, 2, 3]⟩, false⟩ rfl 5

/-- C47.  `degree_range(d)` is the pair of sizes at `d` and `d + 1` when the map covers both, and `HallSetTooSmall` otherwise. -/
theorem C47_degree_range_partial (p : Profile) (N : Nat) (s : Inner) (h : ReachableInner p N s) (d : Nat) (hd : d < 2 ^ 32 - 1) :
    (d + 1 < startingSize N → ∃ a b, s.degreeRange p d = .ok (.ok (a, b)) ∧ hallSetSize p N d = .ok a ∧ hallSetSize p N (d + 1) = .ok b) ∧
    (startingSize N ≤ d + 1 → s.degreeRange p d = .ok (.error .tooSmall)) := by
  obtain ⟨_, h1, h3⟩ := reachable_inv p N s h
  refine ⟨fun hlt => ⟨s.degrees[d]'(by omega), s.degrees[d + 1]'(by omega), ?_, h1 d (by omega), h1 (d + 1) (by omega)⟩, fun hge => ?_⟩
  · unfold Inner.degreeRange RangeMap.get
    rw [List.getElem?_eq_getElem (by omega)]
    simp only
    rw [addW_ok (by omega), Res.bind_ok, List.getElem?_eq_getElem (by omega)]
  · unfold Inner.degreeRange RangeMap.get
    by_cases hd2 : d < s.degrees.length
    · rw [List.getElem?_eq_getElem hd2]
      simp only
      rw [addW_ok (by omega), Res.bind_ok, List.getElem?_eq_none (by omega)]
      rfl
    · rw [List.getElem?_eq_none (by omega)]
      rfl

example (p : Profile) : ∃ s a b, ReachableInner p 11 s ∧ s.degreeRange p 1 = .ok (.ok (a, b)) ∧ s.degreeRange p 2 = .ok (.error .tooSmall) := by
  obtain ⟨s, hs⟩ := new_returns p 11 (by omega) (by decide)
  obtain ⟨a, b, h, _⟩ := (C47_degree_range_partial p 11 s (.new hs) 1 (by omega)).1 (by decide)
  exact ⟨s, a, b, .new hs, h, (C47_degree_range_partial p 11 s (.new hs) 2 (by omega)).2 (by decide)⟩

example (p : Profile) : ∃ s, ReachableInner p 11 s ∧ s.currentDegree = 4 := by
  obtain ⟨s, hs⟩ := new_returns p 11 (by omega) (by decide)
  have h0 : s.currentDegree = 0 := by
    unfold Inner.new at hs
    cases hm : RangeMap.new p 11 (startingSize 11) with
    | ok m => rw [hm, Res.bind_ok] at hs; cases hs; rfl
    | panic => rw [hm] at hs; cases hs
    | ub => rw [hm] at hs; cases hs
    | diverge => rw [hm] at hs; cases hs
  exact ⟨_, .grow (.new hs) (by omega : 4 < 2 ^ 32) (growUp_ok p s 4 (by omega)), by rw [h0]; rfl⟩

/-! ## C48 -/

/-- A Hall set in which the details of a key can be looked up, with fields that fit in a Hall key. -/
def HasEntry (s : Inner) (k l r d : Nat) : Prop :=
  s.set[k]? = some (l, r) ∧ s.degree k = some d ∧ k < 2 ^ 18 ∧ l < 2 ^ 18 ∧ r < 2 ^ 18 ∧ d < 2 ^ 10

/-- C48, full statement: in any Hall set that has entries for both parents of a key, `lparent()` and `parent()` return the keys of the parents. -/
def C48_parents_full (p : Profile) : Prop :=
  ∀ (s : Inner) (k key l r sz l1 l2 d r1 r2 e : Nat), Key.makeKeyData p key l r sz = .ok k → HasEntry s key l r sz → HasEntry s l l1 l2 d →
    HasEntry s r r1 r2 e →
    (∃ k', Key.lparentWith p ⟨s, false⟩ k = .ok k' ∧ Key.getKey p k' = .ok l) ∧ (∃ k', Key.parentWith p ⟨s, false⟩ k = .ok k' ∧ Key.getKey p k' = .ok r)

/-- C48.  `lparent()` and `parent()` are the same function. -/
theorem C48_lparent_is_parent (p : Profile) (hs : Obj) (k : Nat) : Key.lparentWith p hs k = Key.parentWith p hs k := rfl

/-- C48, what they compute: the right parent of the right parent. -/
theorem C48_parent_actual (p : Profile) (s : Inner) (k key l r sz r1 r2 q1 q2 d : Nat) (hk : Key.makeKeyData p key l r sz = .ok k)
    (he : HasEntry s key l r sz) (hr : s.set[r]? = some (r1, r2)) (hq : HasEntry s r2 q1 q2 d) :
    ∃ k', Key.parentWith p ⟨s, false⟩ k = .ok k' ∧ Key.getKey p k' = .ok r2 := by
  obtain ⟨_, _, h1, h2, h3, h4⟩ := he
  obtain ⟨e1, e2, e3, e4, e5, e6⟩ := hq
  obtain ⟨k0, hk0, _, _, _, f3, _⟩ := C45_pack_unpack p key l r sz h1 h2 h3 h4
  have hkk : k0 = k := by
    have := hk0.symm.trans hk
    injection this
  rw [hkk] at f3
  obtain ⟨k', hk', _, f1, _⟩ := C45_pack_unpack p r2 q1 q2 d e3 e4 e5 e6
  refine ⟨k', ?_, f1⟩
  unfold Key.parentWith Obj.read
  rw [f3, Res.bind_ok, if_neg (by simp)]
  have hd : s.rparentDetails r = .ok (.ok (r2, q1, q2, d)) := by
    unfold Inner.rparentDetails Inner.detailsOf Inner.getParents
    rw [hr]
    simp only
    rw [e1, e2]
    rfl
  show (s.rparentDetails r >>= Key.packDetails p) = _
  rw [hd, Res.bind_ok]
  unfold Key.packDetails
  exact hk'

/-- C48 for `parent()` where the right parent is a letter, recorded as its own right parent.  Missing: right parents that are not letters, and `lparent()`
altogether. -/
theorem C48_parent_partial (p : Profile) (s : Inner) (k key l r sz r1 d : Nat) (hk : Key.makeKeyData p key l r sz = .ok k) (he : HasEntry s key l r sz)
    (hr : HasEntry s r r1 r d) : ∃ k', Key.parentWith p ⟨s, false⟩ k = .ok k' ∧ Key.getKey p k' = .ok r :=
  C48_parent_actual p s k key l r sz r1 r r1 r d hk he hr.1 hr

/-- The Hall set of two letters up to degree 3, `1, 2, [1,2], [1,[1,2]], [2,[1,2]]`, with the sizes of its degrees. -/
def twoLetters : Inner := { currentDegree := 3, set := [(0, 0), (0, 1), (0, 2), (1, 2), (1, 3), (2, 3)], degrees := [0, 2, 3, 5] }

/-- C48 is false even in a Hall set with all its entries: `lparent()` of `[1, 2]` is `2`, and `parent()` of `[1, [1, 2]]` is `2`. -/
theorem C48_parents_refuted (p : Profile) : ¬ C48_parents_full p := by
  intro h
  obtain ⟨k, hk, _⟩ := C45_pack_unpack p 3 1 2 3 (by omega) (by omega) (by omega) (by omega)
  obtain ⟨⟨k1, h1, h2⟩, _⟩ := h twoLetters k 3 1 2 3 0 1 1 0 2 2 hk (by unfold HasEntry; decide) (by unfold HasEntry; decide)
    (by unfold HasEntry; decide)
  obtain ⟨k2, h3, h4⟩ := C48_parent_actual p twoLetters k 3 1 2 3 0 2 0 2 2 hk (by unfold HasEntry; decide) rfl (by unfold HasEntry; decide)
  rw [C48_lparent_is_parent, h3] at h1
  cases h1
  rw [h4] at h2
  cases h2

example (p : Profile) : ∃ k k', Key.makeKeyData p 3 1 2 3 = .ok k ∧ Key.parentWith p ⟨twoLetters, false⟩ k = .ok k' ∧ Key.getKey p k' = .ok 2 := by
  obtain ⟨k, hk, _⟩ := C45_pack_unpack p 3 1 2 3 (by norm_num) (by norm_num) (by norm_num) (by norm_num)
  obtain ⟨k', h, h'⟩ := C48_parent_partial p twoLetters k 3 1 2 3 0 2 hk (by unfold HasEntry; decide) (by unfold HasEntry; decide)
  exact ⟨k, k', hk, h, h'⟩

/-- C48.  With the Hall sets that the code makes, `lparent()` and `parent()` of every letter panic. -/
theorem C48_parents_panic (p : Profile) (N : Nat) (s : Inner) (h : ReachableInner p N s) (l k : Nat) (h1 : 1 ≤ l) (hN : l ≤ N) (hl : l < 2 ^ 18)
    (hk : Key.fromLetter p N l = .ok k) : Key.lparentWith p ⟨s, false⟩ k = .panic ∧ Key.parentWith p ⟨s, false⟩ k = .panic := by
  obtain ⟨k', hk', _, _, _, _, f3, _⟩ := C45_from_letter p N l h1 hN hl
  cases hk.symm.trans hk'
  have : Key.parentWith p ⟨s, false⟩ k = .panic := by
    unfold Key.parentWith Obj.read
    rw [f3, Res.bind_ok, if_neg (by simp)]
    show (s.rparentDetails l >>= Key.packDetails p) = _
    rw [((C47_lookups_partial p N s h l).2 (by omega)).2.2]
    rfl
  exact ⟨this, this⟩

example (p : Profile) : ∃ s k, ReachableInner p 11 s ∧ Key.fromLetter p 11 4 = .ok k ∧ Key.lparentWith p ⟨s, false⟩ k = .panic := by
  obtain ⟨s, hs⟩ := new_returns p 11 (by omega) (by decide)
  obtain ⟨k, hk, _⟩ := C45_from_letter p 11 4 (by omega) (by omega) (by omega)
  exact ⟨s, k, .new hs, hk, (C48_parents_panic p 11 s (.new hs) 4 k (by omega) (by omega) (by omega) hk).1⟩

example : HasEntry twoLetters 3 1 2 3 ∧ HasEntry twoLetters 2 0 2 2 := by unfold HasEntry; decide

/-- C46.  What a call that does not find its width builds before it blocks: a set of the requested degree (1 if none is given) that contains nothing but
the zero entry.  For 2 to 10 letters the call does not get that far. -/
theorem C46_built_set (p : Profile) (N : Nat) (pre : Option Nat) (hpre : ∀ d ∈ pre, d < 2 ^ 32) :
    ((N < 2 ∨ 10 < N) → N ^ 5 < 2 ^ 63 → ∃ i, Cache.build p N pre = .ok i ∧ i.currentDegree = pre.getD 1 ∧ i.set = [(0, 0)] ∧
      ∀ k d, i.degrees[k]? = some d → hallSetSize p N k = .ok d) ∧
    (2 ≤ N → N ≤ 10 → ∀ i, Cache.build p N pre ≠ .ok i) := by
  refine ⟨fun hN hfit => ?_, fun h2 h10 i h => ?_⟩
  · obtain ⟨i, hi⟩ := new_returns p N hN hfit
    obtain ⟨h1, h3, h4⟩ := reachable_inv p N i (.new hi)
    have hc : i.currentDegree = 0 := by
      unfold Inner.new at hi
      cases hd : RangeMap.new p N (startingSize N) with
      | ok d => rw [hd, Res.bind_ok] at hi; cases hi; rfl
      | _ => rw [hd] at hi; cases hi
    refine ⟨{ i with currentDegree := pre.getD 1 }, ?_, rfl, h1, fun k d hk => ?_⟩
    · unfold Cache.build
      rw [hi, Res.bind_ok]
      cases pre with
      | none => exact (growUp_ok p i 1 (by omega)).trans (by rw [hc]; rfl)
      | some d => exact (growUp_ok p i d (hpre d rfl)).trans (by rw [hc, Nat.zero_max]; rfl)
    · obtain ⟨hk', rfl⟩ := List.getElem?_eq_some_iff.1 hk
      exact h3 k hk'
  · unfold Cache.build at h
    cases hd : Inner.new p N with
    | ok s => exact C47_new_never_returns p N h2 h10 s (.new hd)
    | _ => rw [hd] at h; cases h

example (p : Profile) : ∃ i, Cache.build p 12 (some 7) = .ok i ∧ i.currentDegree = 7 ∧ i.set = [(0, 0)] ∧
    ∀ k d, i.degrees[k]? = some d → hallSetSize p 12 k = .ok d := (C46_built_set p 12 (some 7) (by simp)).1 (by omega) (by norm_num)

/-! ## C46: examples -/

/-- A thread that reaches the call of `write()`: one thread, one letter. -/
example (p : Profile) : ∃ s : Cache.State Unit, Cache.Reach p (fun _ => 1) (fun _ => none) (fun _ _ => True) (Cache.init Unit (fun _ => none) 0) s ∧
    s.pc () = .writing 0 := by
  obtain ⟨i, hi⟩ := new_returns p 1 (by omega) (by decide)
  have hb : Cache.build p 1 none = .ok { i with currentDegree := max i.currentDegree 1 } := by
    unfold Cache.build
    rw [hi, Res.bind_ok]
    exact growUp_ok p i 1 (by omega)
  exact ⟨_, .tail (.tail (.tail (.refl _) (.read _ () rfl rfl trivial)) (.miss _ () (by simp [Cache.State.move]) rfl))
    (.built _ () _ (by simp [Cache.State.move]) hb), by simp [Cache.State.move, Cache.init]⟩

/-- The hypotheses of `C46_hit_returns_partial` for three threads, two widths, and a lock that keeps readers out while a writer waits. -/
example (p : Profile) (i : Fin 3) : ∃ t o, Cache.Reach p (fun i : Fin 3 => i.val % 2) (fun _ => none)
    (fun s _ => ∀ j o, s.pc j ≠ .writing o) (Cache.init (Fin 3) (fun w => some (w + 10)) 0) t ∧ t.pc i = .returned o ∧ o = i.val % 2 + 10 := by
  obtain ⟨t, o, h1, h2, h3⟩ := C46_hit_returns_partial p (fun i : Fin 3 => i.val % 2) (fun _ => none) (fun s _ => ∀ j o, s.pc j ≠ .writing o)
    (fun w => some (w + 10)) 0 (fun i => ⟨_, rfl⟩) (fun s i h => h) _ (.refl _) i
  exact ⟨t, o, h1, h2, by simpa using h3.symm⟩

end RA
