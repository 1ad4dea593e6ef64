import Verif.Model.Hall
import Verif.Proofs.TensorKey
import Mathlib.NumberTheory.ArithmeticFunction.Moebius
import Mathlib.NumberTheory.Basic
import Mathlib.FieldTheory.Finite.Basic
import Mathlib.Data.Nat.Factorization.PrimePow
import Mathlib.Tactic.Linarith

/-!
# Hall set sizes: lemmas about the model
-/

namespace RA
open Hall

theorem fitS_ok {p : Profile} {e : Int} (h1 : -2 ^ 63 ≤ e) (h2 : e < 2 ^ 63) : fitS p e = .ok e := by
  unfold fitS; rw [if_pos ⟨h1, h2⟩]

theorem fitS_debug {e : Int} (h : ¬ (-2 ^ 63 ≤ e ∧ e < 2 ^ 63)) : fitS .debug e = .panic := by
  unfold fitS; rw [if_neg h]

theorem fitS_release (e : Int) : ∃ x, fitS .release e = .ok x := by
  unfold fitS
  split_ifs
  · exact ⟨_, rfl⟩
  · exact ⟨_, rfl⟩

theorem toSigned_of_lt {n : Nat} (h : n < 2 ^ 63) : toSigned n = n := by
  unfold toSigned
  rw [Int.bmod_def]
  omega

theorem toUnsigned_of_nonneg {n : Nat} (h : n < 2 ^ 64) : toUnsigned (n : Int) = n := by
  unfold toUnsigned
  rw [show ((n : Int).emod (2 ^ 64)) = n from Int.emod_eq_of_lt (by omega) (by omega)]
  simp

theorem powInt_eq (a e : Nat) : powInt (a : Int) e = ((a ^ e : Nat) : Int) := (Nat.cast_pow a e).symm

theorem toU32_of_lt {n : Nat} (h : n < 2 ^ 32) : toU32 n = n := Nat.mod_eq_of_lt h

namespace Hall

/-! ## Squarefree test -/

theorem isSquarefreeImpl_eq (p : Profile) (n base : Nat) (h1 : 1 ≤ n) (hn : n < 2 ^ 62) (hb : 2 ≤ base) (hm : (base - 1) * (base - 1) < n) :
    ∃ b, isSquarefreeImpl p n base = .ok b ∧ (b = true ↔ ∀ c, base ≤ c → ¬ c * c ∣ n) := by
  induction hk : n - base using Nat.strong_induction_on generalizing base with
  | _ k ih =>
    obtain ⟨t, rfl⟩ : ∃ t, base = t + 2 := ⟨base - 2, by omega⟩
    have ht : t + 1 < 2 ^ 31 := by
      by_contra hc
      have : 2 ^ 31 * 2 ^ 31 ≤ (t + 2 - 1) * (t + 2 - 1) := Nat.mul_le_mul (by omega) (by omega)
      omega
    have hbb : (t + 2) * (t + 2) < 2 ^ 64 := by
      have : (t + 2) * (t + 2) ≤ 2 ^ 31 * 2 ^ 31 := Nat.mul_le_mul (by omega) (by omega)
      omega
    have hpos : (t + 2) * (t + 2) ≠ 0 := Nat.mul_ne_zero (by omega) (by omega)
    rw [isSquarefreeImpl.eq_1, mulW_ok hbb]
    simp only [Res.bind_ok]
    rw [remW_ok hpos]
    simp only [Res.bind_ok]
    by_cases hr : n % ((t + 2) * (t + 2)) = 0
    · rw [if_neg (by simpa using hr)]
      refine ⟨false, rfl, ?_⟩
      simp only [Bool.false_eq_true, false_iff, not_forall]
      exact ⟨t + 2, le_refl _, fun h => h (Nat.dvd_of_mod_eq_zero hr)⟩
    · rw [if_pos hr]
      by_cases hge : (t + 2) * (t + 2) ≥ n
      · rw [if_pos hge]
        refine ⟨true, rfl, ?_⟩
        simp only [true_iff]
        intro c hc hd
        have h2 : c * c ≤ n := Nat.le_of_dvd (by omega) hd
        have h3 : (t + 2) * (t + 2) ≤ c * c := Nat.mul_le_mul hc hc
        have h4 : c * c = (t + 2) * (t + 2) := by omega
        rw [h4] at hd
        exact hr (Nat.mod_eq_zero_of_dvd hd)
      · rw [if_neg hge, addW_ok (by omega)]
        simp only [Res.bind_ok]
        have hsq : t + 2 ≤ (t + 2) * (t + 2) := Nat.le_mul_of_pos_left _ (by omega)
        obtain ⟨b, hb1, hb2⟩ := ih (n - (t + 2 + 1)) (by omega) (t + 2 + 1) (by omega) (by simpa using hge) rfl
        refine ⟨b, hb1, hb2.trans ⟨fun h c hc => ?_, fun h c hc => h c (by omega)⟩⟩
        rcases Nat.eq_or_lt_of_le hc with rfl | hlt
        · exact fun hd => hr (Nat.mod_eq_zero_of_dvd hd)
        · exact h c hlt

theorem isSquarefree_eq (p : Profile) (n : Nat) (h1 : 2 ≤ n) (hn : n < 2 ^ 62) :
    ∃ b, isSquarefree p n = .ok b ∧ (b = true ↔ Squarefree n) := by
  obtain ⟨b, h, hb⟩ := isSquarefreeImpl_eq p n 2 (by omega) hn (le_refl _) (by omega)
  refine ⟨b, h, hb.trans ⟨fun h c hd => ?_, fun h c hc hd => ?_⟩⟩
  · rw [Nat.isUnit_iff]
    rcases Nat.lt_or_ge c 2 with hc | hc
    · interval_cases c
      · rw [Nat.zero_mul, Nat.zero_dvd] at hd; omega
      · rfl
    · exact absurd hd (h c hc)
  · have := Nat.isUnit_iff.1 (h c hd)
    omega

/-! ## Möbius function -/

theorem mobius_one (p : Profile) : mobius p 1 = .ok 1 := by rw [mobius.eq_1, if_pos rfl]

theorem mobius_not_squarefree (p : Profile) (n : Nat) (h2 : 2 ≤ n) (hn : n < 2 ^ 62) (h : ¬ Squarefree n) : mobius p n = .ok 0 := by
  obtain ⟨b, hb, hb2⟩ := isSquarefree_eq p n h2 hn
  rw [mobius.eq_1, if_neg (by omega), hb]
  cases b
  · rfl
  · exact absurd (hb2.1 rfl) h

theorem mobiusImpl_prime (p : Profile) (n d : Nat) (hp : n.Prime) (hn : n < 2 ^ 62) (hd : 2 ≤ d) (hdn : d ≤ n) : mobiusImpl p n d = .ok (-1) := by
  induction hk : n - d generalizing d with
  | zero => rw [mobiusImpl.eq_1, if_pos (by omega)]
  | succ k ih =>
    rw [mobiusImpl.eq_1, if_neg (by omega), remW_ok (by omega)]
    simp only [Res.bind_ok]
    rw [if_neg (fun h => by rcases (Nat.dvd_prime hp).1 (Nat.dvd_of_mod_eq_zero h) with h | h <;> omega), addW_ok (by omega)]
    simp only [Res.bind_ok]
    exact ih (d + 1) (by omega) (by omega) (by omega)

theorem mobius_prime (p : Profile) (n : Nat) (hp : n.Prime) (hn : n < 2 ^ 62) : mobius p n = .ok (-1) := by
  obtain ⟨b, hb, hb2⟩ := isSquarefree_eq p n hp.two_le hn
  rw [mobius.eq_1, if_neg hp.one_lt.ne', hb]
  cases b
  · exact absurd hp.prime.squarefree (fun h => by simpa using hb2.2 h)
  · exact mobiusImpl_prime p n 2 hp hn (le_refl _) hp.two_le

open Lean.Order in
theorem admissible_diverge {α : Type} : admissible fun x : Res α => x = .diverge :=
  admissible_flatOrder (b := (Res.diverge : Res α)) (fun x => x = .diverge) rfl

open Lean.Order in
/-- On a squarefree composite number the recursion comes back to the same call. -/
theorem mobiusImpl_diverge (p : Profile) (n d : Nat) (hn : n < 2 ^ 62) (hd : 2 ≤ d) (hdn : d ≤ n.minFac) (h1 : 2 ≤ n) (hp : ¬ n.Prime)
    (hs : Squarefree n) : mobiusImpl p n d = .diverge := by
  have key := mobiusImpl.fixpoint_induct p
    (fun f => ∀ n d, n < 2 ^ 62 → 2 ≤ d → d ≤ n.minFac → 2 ≤ n → ¬ n.Prime → Squarefree n → f n d = .diverge)
    (fun f => ∀ n, n < 2 ^ 62 → 2 ≤ n → ¬ n.Prime → Squarefree n → f n = .diverge)
    (by
      refine admissible_pi_apply (fun n (g : Nat → Res Int) =>
        ∀ d, n < 2 ^ 62 → 2 ≤ d → d ≤ n.minFac → 2 ≤ n → ¬ n.Prime → Squarefree n → g d = .diverge) fun n => ?_
      refine admissible_pi_apply (fun d (x : Res Int) =>
        n < 2 ^ 62 → 2 ≤ d → d ≤ n.minFac → 2 ≤ n → ¬ n.Prime → Squarefree n → x = .diverge) fun d => ?_
      exact admissible_flatOrder (b := (Res.diverge : Res Int)) _ (fun _ _ _ _ _ _ => rfl))
    (by
      refine admissible_pi_apply (fun n (x : Res Int) => n < 2 ^ 62 → 2 ≤ n → ¬ n.Prime → Squarefree n → x = .diverge) fun n => ?_
      exact admissible_flatOrder (b := (Res.diverge : Res Int)) _ (fun _ _ _ _ => rfl))
    (by
      intro g f hg hf n d hn hd hdn h1 hp hs
      have hlt : n.minFac < n := (Nat.not_prime_iff_minFac_lt h1).1 hp
      simp only
      rw [if_neg (by omega), remW_ok (by omega)]
      simp only [Res.bind_ok]
      by_cases hr : n % d = 0
      · rw [if_pos hr, hf n hn h1 hp hs]
        rfl
      · rw [if_neg hr, addW_ok (by omega)]
        simp only [Res.bind_ok]
        refine hg n (d + 1) hn (by omega) ?_ h1 hp hs
        have hne : d ≠ n.minFac := fun h => hr (by rw [h]; exact Nat.mod_eq_zero_of_dvd n.minFac_dvd)
        omega)
    (by
      intro g hg n hn h1 hp hs
      obtain ⟨b, hb, hb2⟩ := isSquarefree_eq p n h1 hn
      simp only
      rw [if_neg (by omega), hb]
      cases b
      · exact absurd hs (fun h => by simpa using hb2.2 h)
      · exact hg n 2 hn (le_refl _) (Nat.minFac_prime (by omega)).two_le h1 hp hs)
  exact key n d hn hd hdn h1 hp hs

theorem mobius_diverge (p : Profile) (n : Nat) (hn : n < 2 ^ 62) (h1 : 2 ≤ n) (hp : ¬ n.Prime) (hs : Squarefree n) : mobius p n = .diverge := by
  obtain ⟨b, hb, hb2⟩ := isSquarefree_eq p n h1 hn
  rw [mobius.eq_1, if_neg (by omega), hb]
  cases b
  · exact absurd hs (fun h => by simpa using hb2.2 h)
  · exact mobiusImpl_diverge p n 2 hn (le_refl _) (Nat.minFac_prime (by omega)).two_le h1 hp hs

/-! ## Terms and levels -/

theorem levelTerm_ok (p : Profile) (w n d : Nat) (m : Int) (hm : mobius p d = .ok m) (hm1 : m = 0 ∨ m = 1 ∨ m = -1) (hw : w < 2 ^ 63)
    (hn : n < 2 ^ 32) (h1 : 1 ≤ n) (hd : 1 ≤ d) (hfit : w ^ (n / d) < 2 ^ 63) :
    levelTerm p w n d = .ok (m * ((w ^ (n / d) / n : Nat) : Int)) := by
  have hle : n / d ≤ n := Nat.div_le_self _ _
  have hq : ((w ^ (n / d) : Nat) : Int) < 2 ^ 63 := by exact_mod_cast hfit
  have hq0 : (0 : Int) ≤ ((w ^ (n / d) : Nat) : Int) := by positivity
  unfold levelTerm
  rw [hm]
  rw [Res.bind_ok]
  rw [divW_ok (by omega)]
  rw [Res.bind_ok]
  rw [toSigned_of_lt hw, toU32_of_lt (by omega), powInt_eq, fitS_ok (by omega) hq]
  rw [Res.bind_ok]
  rw [fitS_ok (by rcases hm1 with rfl | rfl | rfl <;> omega) (by rcases hm1 with rfl | rfl | rfl <;> omega)]
  rw [Res.bind_ok]
  rw [toSigned_of_lt (by omega)]
  unfold divS
  rw [if_neg (by omega)]
  congr 1
  rcases hm1 with rfl | rfl | rfl
  · simp
  · rw [one_mul, one_mul]; rfl
  · rw [neg_one_mul, neg_one_mul, Int.neg_tdiv]; rfl

theorem levelTerm_release (w n d : Nat) (m : Int) (hm : mobius .release d = .ok m) (hn : n < 2 ^ 32) (h1 : 1 ≤ n) (hd : 1 ≤ d) :
    ∃ t, levelTerm .release w n d = .ok t := by
  unfold levelTerm
  rw [hm]
  rw [Res.bind_ok]
  rw [divW_ok (by omega)]
  rw [Res.bind_ok]
  obtain ⟨x, hx⟩ := fitS_release (powInt (toSigned w) (toU32 (n / d)))
  rw [hx]
  rw [Res.bind_ok]
  obtain ⟨y, hy⟩ := fitS_release (m * x)
  rw [hy]
  rw [Res.bind_ok]
  rw [toSigned_of_lt (by omega)]
  unfold divS
  rw [if_neg (by omega)]
  exact ⟨_, rfl⟩

theorem levelTerm_diverge (p : Profile) (w n d : Nat) (hm : mobius p d = .diverge) : levelTerm p w n d = .diverge := by
  unfold levelTerm
  rw [hm]
  rfl

theorem levelTerm_debug_panic (w n d : Nat) (m : Int) (hm : mobius .debug d = .ok m) (hw : w < 2 ^ 63) (hn : n < 2 ^ 32) (hd : 1 ≤ d)
    (hfit : 2 ^ 63 ≤ w ^ (n / d)) : levelTerm .debug w n d = .panic := by
  have hle : n / d ≤ n := Nat.div_le_self _ _
  unfold levelTerm
  rw [hm]
  rw [Res.bind_ok]
  rw [divW_ok (by omega)]
  rw [Res.bind_ok]
  have hq : (2 : Int) ^ 63 ≤ ((w ^ (n / d) : Nat) : Int) := by exact_mod_cast hfit
  rw [toSigned_of_lt hw, toU32_of_lt (by omega), powInt_eq, fitS_debug (by omega)]
  rfl

/-- The recursion over divisors, as an equation without join points. -/
theorem levelSizeImpl_eq (p : Profile) (w n d : Nat) (hd : d ≠ 0) :
    levelSizeImpl p w n d =
      (if n % d = 0 then levelTerm p w n d else .ok 0) >>= fun a =>
        (if d < n then (addW p 64 d 1 >>= fun d => levelSizeImpl p w n d) else .ok 0) >>= fun b => fitS p (a + b) := by
  conv_lhs => rw [levelSizeImpl.eq_1, remW_ok hd]
  simp only [Res.bind_ok]
  split_ifs <;> simp

/-- If the term at a divisor diverges and those before it return, so does the sum. -/
theorem levelSizeImpl_diverge (p : Profile) (w n e d : Nat) (hn : n < 2 ^ 32) (hn1 : 1 ≤ n) (hd : 1 ≤ d) (hde : d ≤ e) (hen : e ∣ n)
    (hprev : ∀ c, 1 ≤ c → c < e → c ∣ n → (∃ t, levelTerm p w n c = .ok t) ∨ levelTerm p w n c = .diverge) (he : levelTerm p w n e = .diverge) :
    levelSizeImpl p w n d = .diverge := by
  have hle := Nat.le_of_dvd (by omega) hen
  induction hk : e - d generalizing d with
  | zero =>
    obtain rfl : d = e := by omega
    rw [levelSizeImpl_eq _ _ _ _ (by omega), if_pos (Nat.mod_eq_zero_of_dvd hen), he]
    rfl
  | succ k ih =>
    have hrec := ih (d + 1) (by omega) (by omega) (by omega)
    rw [levelSizeImpl_eq _ _ _ _ (by omega), if_pos (show d < n by omega), addW_ok (by omega)]
    simp only [Res.bind_ok]
    rw [hrec]
    split_ifs with hr
    · rcases hprev d hd (by omega) (Nat.dvd_of_mod_eq_zero hr) with ⟨t, ht⟩ | ht
      · rw [ht]; rfl
      · rw [ht]; rfl
    · rfl

/-- The sum over divisors when every term is known. -/
theorem levelSizeImpl_ok (p : Profile) (w n d : Nat) (t : Nat → Int) (hn : n < 2 ^ 32) (hd : 1 ≤ d) (hdn : d ≤ n)
    (hterm : ∀ c, 1 ≤ c → c ∣ n → levelTerm p w n c = .ok (t c))
    (hfit : ∀ c, -2 ^ 63 ≤ (∑ e ∈ (Finset.Icc c n).filter (· ∣ n), t e) ∧ (∑ e ∈ (Finset.Icc c n).filter (· ∣ n), t e) < 2 ^ 63) :
    levelSizeImpl p w n d = .ok (∑ e ∈ (Finset.Icc d n).filter (· ∣ n), t e) := by
  induction hk : n - d generalizing d with
  | zero =>
    obtain rfl : d = n := by omega
    have h1 := hfit d
    rw [levelSizeImpl_eq _ _ _ _ (by omega), if_pos (Nat.mod_self d), if_neg (by omega), hterm d hd dvd_rfl]
    simp only [Res.bind_ok]
    have hs : ∑ e ∈ (Finset.Icc d d).filter (· ∣ d), t e = t d + 0 := by
      rw [Finset.Icc_self, Finset.filter_singleton, if_pos dvd_rfl, Finset.sum_singleton, add_zero]
    rw [hs] at h1 ⊢
    rw [fitS_ok h1.1 h1.2]
  | succ k ih =>
    have hrec := ih (d + 1) (by omega) (by omega) (by omega)
    have h1 := hfit d
    have hI : Finset.Icc d n = insert d (Finset.Icc (d + 1) n) := by
      ext x
      simp only [Finset.mem_Icc, Finset.mem_insert]
      omega
    rw [levelSizeImpl_eq _ _ _ _ (by omega), if_pos (show d < n by omega), addW_ok (by omega)]
    simp only [Res.bind_ok]
    rw [hrec]
    by_cases hr : n % d = 0
    · have hdvd := Nat.dvd_of_mod_eq_zero hr
      rw [if_pos hr, hterm d hd hdvd]
      simp only [Res.bind_ok]
      rw [hI, Finset.filter_insert, if_pos hdvd, Finset.sum_insert (by simp)] at h1 ⊢
      rw [fitS_ok h1.1 h1.2]
    · have hdvd : ¬ d ∣ n := fun h => hr (Nat.mod_eq_zero_of_dvd h)
      rw [if_neg hr]
      simp only [Res.bind_ok]
      rw [hI, Finset.filter_insert, if_neg hdvd] at h1 ⊢
      rw [zero_add, fitS_ok h1.1 h1.2]

end Hall
end RA
