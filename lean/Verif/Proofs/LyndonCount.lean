import Verif.Proofs.Lyndon
import Verif.SpecHall
import Mathlib.Dynamics.PeriodicPts.Defs
import Mathlib.Algebra.BigOperators.Ring.Finset
import Mathlib.Data.Finset.Sigma
import Mathlib.Data.List.Nodup
import Mathlib.NumberTheory.Divisors

/-!
# The number of Lyndon words

Every word is a power of a rotation of a unique Lyndon word, which gives Witt's formula for their number.  Independent of the model.
-/

namespace RA
open Spec Function ArithmeticFunction

theorem mem_allWords (N : Nat) : ∀ (n : Nat) (w : List Nat), w ∈ allWords N n ↔ ValidWord N w ∧ w.length = n
  | 0, w => by
    simp only [allWords, List.mem_singleton, List.length_eq_zero_iff]
    exact ⟨fun h => ⟨by rw [h]; intro l hl; simp at hl, h⟩, fun h => h.2⟩
  | n + 1, [] => by simp [allWords]
  | n + 1, a :: w => by
    have ih := mem_allWords N n w
    simp only [allWords, List.mem_flatMap, List.mem_range'_1, List.mem_map, List.cons.injEq, List.length_cons]
    constructor
    · rintro ⟨l, hl, v, hv, rfl, rfl⟩
      obtain ⟨h1, h2⟩ := ih.1 hv
      refine ⟨fun m hm => ?_, by omega⟩
      rcases List.mem_cons.1 hm with rfl | hm
      · omega
      · exact h1 m hm
    · rintro ⟨h1, h2⟩
      have := h1 a (by simp)
      exact ⟨a, by omega, w, ih.2 ⟨fun m hm => h1 m (by simp [hm]), by omega⟩, rfl, rfl⟩

theorem nodup_allWords (N : Nat) : ∀ n, (allWords N n).Nodup
  | 0 => by simp [allWords]
  | n + 1 => by
    rw [allWords, List.nodup_flatMap]
    refine ⟨fun l _ => (nodup_allWords N n).map fun _ _ h => (List.cons.inj h).2, ?_⟩
    refine (List.nodup_range' (s := 1) (n := N)).imp fun {a b} hab => ?_
    rw [Function.onFun, List.disjoint_left]
    intro w hw hw'
    obtain ⟨x, _, rfl⟩ := List.mem_map.1 hw
    obtain ⟨y, _, h⟩ := List.mem_map.1 hw'
    exact hab (List.cons.inj h).1.symm

theorem length_allWords (N : Nat) : ∀ n, (allWords N n).length = N ^ n
  | 0 => rfl
  | n + 1 => by
    rw [allWords, List.length_flatMap]
    simp [length_allWords N n, Nat.pow_succ, Nat.mul_comm]

/-- Powers of a word. -/
def wpow (y : List Nat) : Nat → List Nat
  | 0 => []
  | k + 1 => y ++ wpow y k

theorem length_wpow (y : List Nat) (k : Nat) : (wpow y k).length = k * y.length := by
  induction k with
  | zero => simp [wpow]
  | succ k ih => rw [wpow, List.length_append, ih]; ring

theorem mem_wpow {y : List Nat} {k l : Nat} (h : l ∈ wpow y k) : l ∈ y := by
  induction k with
  | zero => simp [wpow] at h
  | succ k ih => exact (List.mem_append.1 h).elim id ih

theorem wpow_append (a b : List Nat) (k : Nat) : wpow (a ++ b) k ++ a = a ++ wpow (b ++ a) k := by
  induction k with
  | zero => simp [wpow]
  | succ k ih => rw [wpow, wpow, List.append_assoc, ih]; simp only [List.append_assoc]

theorem rotate_wpow (y : List Nat) (k i : Nat) (hi : i ≤ y.length) : (wpow y (k + 1)).rotate i = wpow (y.rotate i) (k + 1) := by
  have e : y = y.take i ++ y.drop i := (List.take_append_drop i y).symm
  have hl : (y.take i).length = i := by rw [List.length_take]; omega
  rw [List.rotate_eq_drop_append_take hi]
  generalize y.take i = a at e hl
  generalize y.drop i = b at e
  subst e
  subst hl
  rw [wpow, List.append_assoc, List.rotate_append_length_eq, List.append_assoc, wpow_append, wpow, List.append_assoc]

theorem wpow_inj {x y : List Nat} {k : Nat} (hl : x.length = y.length) (h : wpow x (k + 1) = wpow y (k + 1)) : x = y := by
  have := congrArg (List.take x.length) h
  rw [wpow, wpow, List.take_left] at this
  rwa [hl, List.take_left] at this

theorem wpow_of_comm (y : List Nat) (hy : y ≠ []) : ∀ (k : Nat) (r : List Nat), r.length = k * y.length → r ++ y = y ++ r → r = wpow y k
  | 0, r, hl, _ => by
    rw [Nat.zero_mul, List.length_eq_zero_iff] at hl
    rw [hl, wpow]
  | k + 1, r, hl, h => by
    obtain ⟨r', rfl⟩ : ∃ r', r = y ++ r' := by
      have h1 := congrArg (List.take y.length) h
      rw [List.take_left, List.take_append_of_le_length (by rw [hl]; nlinarith [Nat.zero_le (k * y.length)])] at h1
      refine ⟨r.drop y.length, ?_⟩
      conv_lhs => rw [← List.take_append_drop y.length r, h1]
    rw [List.append_assoc, List.append_cancel_left_eq] at h
    rw [wpow, ← wpow_of_comm y hy k r' (by rw [List.length_append, Nat.succ_mul] at hl; omega) h]

/-- Rotation by one letter. -/
def rot1 (w : List Nat) : List Nat := w.rotate 1

theorem rot1_iterate (w : List Nat) (k : Nat) : rot1^[k] w = w.rotate k := by
  induction k generalizing w with
  | zero => simp
  | succ k ih =>
    rw [iterate_succ_apply, ih]
    unfold rot1
    rw [List.rotate_rotate, Nat.add_comm]

theorem isPeriodicPt_rot1 (w : List Nat) (k : Nat) : IsPeriodicPt rot1 k w ↔ w.rotate k = w := by
  unfold IsPeriodicPt IsFixedPt
  rw [rot1_iterate]

/-- No proper rotation fixes the word. -/
def Aperiodic (y : List Nat) : Prop := y ≠ [] ∧ ∀ m, 0 < m → m < y.length → y.rotate m ≠ y

theorem lyndon_aperiodic {l : List Nat} (h : Lyndon l) : Aperiodic l := ⟨h.1, fun m h0 hm e => absurd (h.2 m h0 hm) (by rw [e]; exact lt_irrefl _)⟩

theorem Aperiodic.rotate {l : List Nat} (h : Aperiodic l) (i : Nat) : Aperiodic (l.rotate i) := by
  refine ⟨fun e => h.1 (by simpa using e), fun m h0 hm e => ?_⟩
  rw [List.length_rotate] at hm
  refine h.2 m h0 hm ?_
  rw [List.rotate_rotate, Nat.add_comm, ← List.rotate_rotate, List.rotate_eq_rotate] at e
  exact e

theorem Aperiodic.minimalPeriod {y : List Nat} (h : Aperiodic y) (k : Nat) : minimalPeriod rot1 (wpow y (k + 1)) = y.length := by
  have hy := List.length_pos_iff.2 h.1
  have hp : IsPeriodicPt rot1 y.length (wpow y (k + 1)) := by rw [isPeriodicPt_rot1, rotate_wpow y k _ le_rfl, List.rotate_length]
  have hle := hp.minimalPeriod_le hy
  have hpos := hp.minimalPeriod_pos hy
  by_contra hne
  have hm := (isPeriodicPt_rot1 _ _).1 (isPeriodicPt_minimalPeriod rot1 (wpow y (k + 1)))
  rw [rotate_wpow y k _ hle] at hm
  exact h.2 _ hpos (by omega) (wpow_inj (by simp) hm)

/-- Every non-empty word is a power of an aperiodic word. -/
theorem exists_aperiodic_root (x : List Nat) (hx : x ≠ []) : ∃ y k, Aperiodic y ∧ x = wpow y (k + 1) := by
  have hn := List.length_pos_iff.2 hx
  have hp : IsPeriodicPt rot1 x.length x := by rw [isPeriodicPt_rot1, List.rotate_length]
  obtain ⟨m, hm⟩ : ∃ m, m = minimalPeriod rot1 x := ⟨_, rfl⟩
  have hdvd : m ∣ x.length := hm ▸ hp.minimalPeriod_dvd
  have hpos : 0 < m := hm ▸ hp.minimalPeriod_pos hn
  have hper : x.rotate m = x := (isPeriodicPt_rot1 x m).1 (hm ▸ isPeriodicPt_minimalPeriod rot1 x)
  obtain ⟨k, hk⟩ := hdvd
  obtain ⟨k, rfl⟩ : ∃ j, k = j + 1 := ⟨k - 1, by
    rcases k with _ | k
    · omega
    · omega⟩
  have hle : m ≤ x.length := by rw [hk, Nat.mul_succ]; omega
  have e : x = x.take m ++ x.drop m := (List.take_append_drop m x).symm
  have hl : (x.take m).length = m := by rw [List.length_take]; omega
  have hy : x.take m ≠ [] := by rw [← List.length_pos_iff]; omega
  have hx' : x = wpow (x.take m) (k + 1) := by
    rw [wpow]
    rw [List.rotate_eq_drop_append_take hle] at hper
    rw [← wpow_of_comm _ hy k (x.drop m) (by rw [List.length_drop, hl, hk, Nat.mul_succ, Nat.mul_comm]; omega) (hper.trans e)]
    exact e
  refine ⟨x.take m, k, ⟨hy, fun j h0 hj hr => ?_⟩, hx'⟩
  have : x.rotate j = x := by
    conv_lhs => rw [hx']
    rw [rotate_wpow _ _ _ hj.le, hr, ← hx']
  have := ((isPeriodicPt_rot1 x j).2 this).minimalPeriod_le h0
  omega

/-- Every aperiodic word is a rotation of a Lyndon word. -/
theorem exists_lyndon_rotation {y : List Nat} (h : Aperiodic y) : ∃ l i, Lyndon l ∧ i < l.length ∧ y = l.rotate i := by
  have hn := List.length_pos_iff.2 h.1
  obtain ⟨j, hj, hmin⟩ := Finset.exists_min_image (Finset.range y.length) (fun j => y.rotate j) ⟨0, Finset.mem_range.2 hn⟩
  rw [Finset.mem_range] at hj
  have hp := h.rotate j
  refine ⟨y.rotate j, (y.length - j) % y.length, ⟨hp.1, fun k h0 hk => lt_of_le_of_ne ?_ (hp.2 k h0 hk).symm⟩, ?_, ?_⟩
  · have := hmin ((j + k) % y.length) (Finset.mem_range.2 (Nat.mod_lt _ hn))
    rwa [List.rotate_mod, ← List.rotate_rotate] at this
  · rw [List.length_rotate]
    exact Nat.mod_lt _ hn
  · have : (y.length - j) % y.length = (y.length - j) % (y.rotate j).length := by rw [List.length_rotate]
    rw [this, List.rotate_mod, List.rotate_rotate, show j + (y.length - j) = y.length by omega, List.rotate_length]

/-- Rotations of Lyndon words are rotations of one Lyndon word only, by one amount only. -/
theorem lyndon_rotation_unique {l l' : List Nat} (h : Lyndon l) (h' : Lyndon l') {i i' : Nat} (hi : i < l.length) (hi' : i' < l'.length)
    (e : l.rotate i = l'.rotate i') : l = l' ∧ i = i' := by
  have hlen : l.length = l'.length := by
    have := congrArg List.length e
    rwa [List.length_rotate, List.length_rotate] at this
  have key : ∀ {l l' : List Nat} {i i' : Nat}, Lyndon l → i < l.length → i' < l.length → l.length = l'.length → l.rotate i = l'.rotate i' → l ≤ l' := by
    intro l l' i i' h hi hi' hlen e
    have e' : l' = l.rotate (i + (l.length - i')) := by
      rw [← List.rotate_rotate, e, List.rotate_rotate, show i' + (l.length - i') = l.length by omega, hlen, List.rotate_length]
    rw [← List.rotate_mod] at e'
    have hlt : (i + (l.length - i')) % l.length < l.length := Nat.mod_lt _ (by omega)
    rcases Nat.eq_zero_or_pos ((i + (l.length - i')) % l.length) with h0 | h0
    · rw [h0, List.rotate_zero] at e'
      exact e'.ge
    · rw [e']
      exact (h.2 _ h0 hlt).le
  have hll : l = l' := le_antisymm (key h hi (by omega) hlen e) (key h' hi' (by omega) hlen.symm e.symm)
  subst hll
  refine ⟨rfl, ?_⟩
  by_contra hne
  have : ∀ {i i' : Nat}, i < i' → i' < l.length → l.rotate i ≠ l.rotate i' := by
    intro i i' hlt hi' e
    rw [show i' = (i' - i) + i by omega, ← List.rotate_rotate, List.rotate_eq_rotate] at e
    exact (lyndon_aperiodic h).2 (i' - i) (by omega) (by omega) e.symm
  rcases Nat.lt_or_gt_of_ne hne with h1 | h1
  · exact this h1 hi' e
  · exact this h1 hi e.symm

theorem mem_lyndonWords {N n : Nat} {w : List Nat} : w ∈ lyndonWords N n ↔ (ValidWord N w ∧ w.length = n) ∧ Lyndon w := by
  unfold lyndonWords
  rw [List.mem_filter, mem_allWords, decide_eq_true_iff]

theorem nodup_lyndonWords (N n : Nat) : (lyndonWords N n).Nodup := (nodup_allWords N n).filter _

/-- The words of length `n` are the rotated powers of the Lyndon words whose length divides `n`. -/
theorem sum_lyndon (N n : Nat) (hn : 0 < n) : ∑ d ∈ n.divisors, d * (lyndonWords N d).length = N ^ n := by
  have h1 : (n.divisors.sigma fun d => (lyndonWords N d).toFinset ×ˢ Finset.range d).card = ∑ d ∈ n.divisors, d * (lyndonWords N d).length := by
    rw [Finset.card_sigma]
    refine Finset.sum_congr rfl fun d _ => ?_
    rw [Finset.card_product, Finset.card_range, List.toFinset_card_of_nodup (nodup_lyndonWords N d), Nat.mul_comm]
  rw [← h1, ← length_allWords N n, ← List.toFinset_card_of_nodup (nodup_allWords N n)]
  refine Finset.card_bij (fun a _ => wpow (a.2.1.rotate a.2.2) (n / a.1)) ?_ ?_ ?_
  · rintro ⟨d, l, i⟩ h
    simp only [Finset.mem_sigma, Finset.mem_product, List.mem_toFinset, Finset.mem_range, mem_lyndonWords, Nat.mem_divisors] at h
    obtain ⟨⟨hd, _⟩, ⟨⟨hv, hl⟩, _⟩, hi⟩ := h
    rw [List.mem_toFinset, mem_allWords]
    refine ⟨fun m hm => hv m (List.mem_rotate.1 (mem_wpow hm)), ?_⟩
    rw [length_wpow, List.length_rotate, hl, Nat.div_mul_cancel hd]
  · rintro ⟨d, l, i⟩ h ⟨d', l', i'⟩ h' e
    simp only [Finset.mem_sigma, Finset.mem_product, List.mem_toFinset, Finset.mem_range, mem_lyndonWords, Nat.mem_divisors] at h h' e
    obtain ⟨⟨hd, _⟩, ⟨⟨hv, hl⟩, hL⟩, hi⟩ := h
    obtain ⟨⟨hd', _⟩, ⟨⟨hv', hl'⟩, hL'⟩, hi'⟩ := h'
    have pos : ∀ d, d ∣ n → ∃ k, n / d = k + 1 := fun d hd => ⟨n / d - 1, by have := Nat.div_pos (Nat.le_of_dvd hn hd) (Nat.pos_of_dvd_of_pos hd hn); omega⟩
    obtain ⟨k, hk⟩ := pos d hd
    obtain ⟨k', hk'⟩ := pos d' hd'
    rw [hk, hk'] at e
    have m1 := ((lyndon_aperiodic hL).rotate i).minimalPeriod k
    have m2 := ((lyndon_aperiodic hL').rotate i').minimalPeriod k'
    rw [e] at m1
    have hdd : d = d' := by
      have := m1.symm.trans m2
      rwa [List.length_rotate, List.length_rotate, hl, hl'] at this
    subst hdd
    have hkk : k = k' := by omega
    subst hkk
    have := wpow_inj (by rw [List.length_rotate, List.length_rotate, hl, hl']) e
    obtain ⟨rfl, rfl⟩ := lyndon_rotation_unique hL hL' (by omega) (by omega) this
    rfl
  · intro x hx
    rw [List.mem_toFinset, mem_allWords] at hx
    obtain ⟨hv, hlen⟩ := hx
    obtain ⟨y, k, hy, rfl⟩ := exists_aperiodic_root x (by rw [← List.length_pos_iff]; omega)
    obtain ⟨l, i, hl, hi, rfl⟩ := exists_lyndon_rotation hy
    rw [length_wpow, List.length_rotate] at hlen
    have hpos : 0 < l.length := by omega
    refine ⟨⟨l.length, l, i⟩, ?_, ?_⟩
    · simp only [Finset.mem_sigma, Finset.mem_product, List.mem_toFinset, Finset.mem_range, mem_lyndonWords, Nat.mem_divisors]
      refine ⟨⟨⟨k + 1, by rw [← hlen, Nat.mul_comm]⟩, by omega⟩, ⟨⟨fun m hm => hv m ?_, trivial⟩, hl⟩, hi⟩
      rw [wpow]
      exact List.mem_append_left _ (List.mem_rotate.2 hm)
    · simp only
      rw [← hlen, Nat.mul_div_cancel _ hpos]

/-- Witt's formula: the number of Lyndon words. -/
theorem lyndon_isWitt (N n : Nat) (hn : 0 < n) : IsWitt N n (lyndonWords N n).length := by
  have h := (sum_eq_iff_sum_mul_moebius_eq (f := fun d => ((d * (lyndonWords N d).length : Nat) : Int)) (g := fun n => ((N ^ n : Nat) : Int))).1 (by
    intro n hn
    rw [← sum_lyndon N n hn, Nat.cast_sum]) n hn
  unfold IsWitt wittSum
  push_cast at h
  rw [← h, Nat.sum_divisorsAntidiagonal (f := fun a b => (moebius a : Int) * (N : Int) ^ b)]

end RA
