import Verif.Proofs.Hall
import Verif.SpecHall

/-!
# Hall set sizes by level
-/

namespace RA
namespace Hall
open Spec ArithmeticFunction

theorem pow_fit (w n m : Nat) (hm : 1 ≤ m) (hmn : m ≤ n) (h : w ^ n < 2 ^ 63) : w ^ m < 2 ^ 63 := by
  rcases Nat.eq_zero_or_pos w with rfl | hw
  · rw [Nat.zero_pow (by omega)]; omega
  · exact lt_of_le_of_lt (Nat.pow_le_pow_right hw hmn) h

theorem levelSize_one (p : Profile) (w : Nat) (hw : w < 2 ^ 63) : levelSize p w 1 = .ok w := by
  unfold levelSize
  rw [levelSizeImpl_eq _ _ _ _ (by omega), if_pos rfl, if_neg (by omega),
    levelTerm_ok p w 1 1 1 (mobius_one p) (by omega) hw (by omega) (by omega) (by omega) (by simpa using hw)]
  rw [Res.bind_ok, Res.bind_ok]
  have he : (1 : Int) * ((w ^ (1 / 1) / 1 : Nat) : Int) + 0 = w := by simp
  rw [he, fitS_ok (by omega) (by omega), Res.bind_ok, toUnsigned_of_nonneg (by omega)]

theorem not_squarefree_pow (q j : Nat) (hq : q.Prime) (hj : 2 ≤ j) : ¬ Squarefree (q ^ j) := by
  intro h
  have := h q (by rw [← pow_two]; exact pow_dvd_pow q hj)
  exact hq.one_lt.ne' (Nat.isUnit_iff.1 this)

theorem wittSum_prime_pow (w q k : Nat) (hq : q.Prime) :
    wittSum w (q ^ (k + 1)) = (w : Int) ^ q ^ (k + 1) - (w : Int) ^ q ^ k := by
  unfold wittSum
  rw [Nat.sum_divisors_prime_pow hq, Finset.sum_range_succ', Finset.sum_range_succ']
  have h0 : ∀ j ∈ Finset.range k, moebius (q ^ (j + 1 + 1)) * (w : Int) ^ (q ^ (k + 1) / q ^ (j + 1 + 1)) = 0 := by
    intro j _
    rw [moebius_eq_zero_of_not_squarefree (not_squarefree_pow q _ hq (by omega)), zero_mul]
  rw [Finset.sum_eq_zero h0, pow_zero, Nat.div_one, moebius_apply_one, one_mul, zero_add, zero_add, pow_one, moebius_apply_prime hq, pow_succ q k,
    Nat.mul_div_cancel _ hq.pos]
  ring

theorem prime_pow_dvd (w q k : Nat) (hq : q.Prime) : ((q ^ (k + 1) : Nat) : Int) ∣ (w : Int) ^ q ^ (k + 1) - (w : Int) ^ q ^ k := by
  have := Fact.mk hq
  have h1 : (q : Int) ∣ (w : Int) ^ q - w := by
    rw [← ZMod.intCast_zmod_eq_zero_iff_dvd _ q]
    push_cast
    rw [ZMod.pow_card, sub_self]
  have := dvd_sub_pow_of_dvd_sub h1 k
  rw [← pow_mul, ← pow_succ'] at this
  exact_mod_cast this

theorem levelSize_primePow (p : Profile) (w q k : Nat) (hq : q.Prime) (hn : q ^ (k + 1) < 2 ^ 32) (hfit : w ^ q ^ (k + 1) < 2 ^ 63) :
    ∃ v, levelSize p w (q ^ (k + 1)) = .ok v ∧ IsWitt w (q ^ (k + 1)) v ∧ v ≤ w ^ q ^ (k + 1) := by
  have hdvd := prime_pow_dvd w q k hq
  have hws := wittSum_prime_pow w q k hq
  unfold IsWitt
  rw [hws]
  have hqk : q ^ (k + 1) = q ^ k * q := pow_succ q k
  have hk0 : 0 < q ^ k := Nat.pow_pos hq.pos
  have hq2 := hq.two_le
  have hkn : q ^ k < q ^ (k + 1) := Nat.pow_lt_pow_right hq.one_lt (by omega)
  have hdiv : q ^ (k + 1) / q = q ^ k := by rw [hqk, Nat.mul_div_cancel _ hq.pos]
  have hmem1 : 1 ≤ q ∧ q ≤ q ^ (k + 1) := ⟨by omega, Nat.le_self_pow (by omega) q⟩
  have hdq : q ∣ q ^ (k + 1) := dvd_pow_self q (by omega)
  have hdiv1 : ∀ j, 2 ≤ j → q ^ j ≠ 1 ∧ q ^ j ≠ q := by
    intro j hj
    have : q ^ 2 ≤ q ^ j := Nat.pow_le_pow_right hq.pos hj
    have : q < q ^ 2 := by rw [pow_two]; nlinarith
    constructor <;> omega
  have hcases : ∀ c, c ∣ q ^ (k + 1) → ∃ j, j ≤ k + 1 ∧ c = q ^ j := fun c hc => (Nat.dvd_prime_pow hq).1 hc
  have hfitk : w ^ q ^ k < 2 ^ 63 := pow_fit w _ _ hk0 hkn.le hfit
  have hfd : ∀ c, 1 ≤ c → c ∣ q ^ (k + 1) → w ^ (q ^ (k + 1) / c) < 2 ^ 63 := fun c hc hd =>
    pow_fit w _ _ (Nat.div_pos (Nat.le_of_dvd (by omega) hd) hc) (Nat.div_le_self _ _) hfit
  have hw : w < 2 ^ 63 := by simpa using pow_fit w (q ^ (k + 1)) 1 (le_refl _) (by omega) hfit
  have hmain : ∃ A B : Nat, w ^ q ^ (k + 1) / q ^ (k + 1) = A ∧ w ^ q ^ k / q ^ (k + 1) = B ∧ A ≤ w ^ q ^ (k + 1) ∧ B ≤ w ^ q ^ k ∧
      ((q ^ (k + 1) : Nat) : Int) * ((A : Int) - B) = (w : Int) ^ q ^ (k + 1) - (w : Int) ^ q ^ k := by
    refine ⟨_, _, rfl, rfl, Nat.div_le_self _ _, Nat.div_le_self _ _, ?_⟩
    have hmod : w ^ q ^ (k + 1) % q ^ (k + 1) = w ^ q ^ k % q ^ (k + 1) := by
      have : (w ^ q ^ k) ≡ (w ^ q ^ (k + 1)) [MOD q ^ (k + 1)] := (Nat.modEq_iff_dvd).2 (by push_cast; exact_mod_cast hdvd)
      exact this.symm
    have h1 := Nat.div_add_mod (w ^ q ^ (k + 1)) (q ^ (k + 1))
    have h2 := Nat.div_add_mod (w ^ q ^ k) (q ^ (k + 1))
    rw [hmod] at h1
    have h1' := congrArg (Nat.cast (R := Int)) h1
    have h2' := congrArg (Nat.cast (R := Int)) h2
    push_cast at h1' h2' ⊢
    linarith
  obtain ⟨A, B, hA, hB, hAle, hBle, hAB⟩ := hmain
  have hAB' : B ≤ A := by
    have hmono : (w : Int) ^ q ^ k ≤ (w : Int) ^ q ^ (k + 1) := by
      rcases Nat.eq_zero_or_pos w with rfl | hw
      · rw [Nat.cast_zero, zero_pow (by omega), zero_pow (by omega)]
      · exact_mod_cast Nat.pow_le_pow_right hw hkn.le
    by_contra hlt
    have hpos : (0 : Int) < ((q ^ (k + 1) : Nat) : Int) := by exact_mod_cast (by omega : 0 < q ^ (k + 1))
    have : ((q ^ (k + 1) : Nat) : Int) * ((A : Int) - B) < 0 := mul_neg_of_pos_of_neg hpos (by omega)
    omega
  let t : Nat → Int := fun c => (if c = 1 then (A : Int) else 0) + (if c = q then -(B : Int) else 0)
  have hterm : ∀ c, 1 ≤ c → c ∣ q ^ (k + 1) → levelTerm p w (q ^ (k + 1)) c = .ok (t c) := by
    intro c hc hd
    have hf := hfd c hc hd
    obtain ⟨j, hj, rfl⟩ := hcases c hd
    rcases (by omega : j = 0 ∨ j = 1 ∨ 2 ≤ j) with rfl | rfl | h2
    · rw [pow_zero] at hf ⊢
      rw [levelTerm_ok p w _ 1 1 (mobius_one p) (by omega) hw hn (by omega) (by omega) hf, Nat.div_one, hA]
      simp only [t]
      rw [if_pos trivial, if_neg (by omega), one_mul, add_zero]
    · rw [pow_one] at hf ⊢
      rw [levelTerm_ok p w _ q (-1) (mobius_prime p q hq (by omega)) (by omega) hw hn (by omega) (by omega) hf, hdiv, hB]
      simp only [t]
      rw [if_neg (by omega), if_pos trivial, neg_one_mul, zero_add]
    · have hle : q ^ j ≤ q ^ (k + 1) := Nat.pow_le_pow_right hq.pos hj
      have h2j : 2 ≤ q ^ j := by have := hdiv1 j h2; omega
      rw [levelTerm_ok p w _ (q ^ j) 0 (mobius_not_squarefree p _ h2j (by omega) (not_squarefree_pow q j hq h2)) (by omega) hw hn (by omega) (by omega)
        hf, zero_mul]
      simp only [t]
      rw [if_neg (hdiv1 j h2).1, if_neg (hdiv1 j h2).2, add_zero]
  have hsum : ∀ s : Finset Nat, ∑ e ∈ s, t e = (if 1 ∈ s then (A : Int) else 0) + (if q ∈ s then -(B : Int) else 0) := by
    intro s
    simp only [t]
    rw [Finset.sum_add_distrib, Finset.sum_ite_eq', Finset.sum_ite_eq']
  have h := levelSizeImpl_ok p w (q ^ (k + 1)) 1 t hn (le_refl _) (by omega) hterm (fun c => by
    rw [hsum]
    split_ifs <;> constructor <;> omega)
  rw [hsum, if_pos (by simp; omega), if_pos (by simp only [Finset.mem_filter, Finset.mem_Icc]; exact ⟨hmem1, hdq⟩)] at h
  refine ⟨A - B, ?_, ?_, by omega⟩
  · unfold levelSize
    rw [h, Res.bind_ok, show (A : Int) + -(B : Int) = ((A - B : Nat) : Int) by omega, toUnsigned_of_nonneg (by omega)]
  · rw [← hAB, Nat.cast_sub hAB']

/-! ## Levels that are not prime powers -/

/-- `mobius` returns or diverges. -/
theorem mobius_cases (p : Profile) (n : Nat) (h1 : 1 ≤ n) (hn : n < 2 ^ 62) :
    (mobius p n = .ok (moebius n) ∧ ¬ (Squarefree n ∧ n ≠ 1 ∧ ¬ n.Prime)) ∨
      (mobius p n = .diverge ∧ Squarefree n ∧ n ≠ 1 ∧ ¬ n.Prime) := by
  by_cases h : n = 1
  · subst h; exact .inl ⟨by rw [mobius_one, moebius_apply_one], fun h => h.2.1 rfl⟩
  · by_cases hs : Squarefree n
    · by_cases hp : n.Prime
      · exact .inl ⟨by rw [mobius_prime p n hp hn, moebius_apply_prime hp], fun h => h.2.2 hp⟩
      · exact .inr ⟨mobius_diverge p n hn (by omega) hp hs, hs, h, hp⟩
    · exact .inl ⟨by rw [mobius_not_squarefree p n (by omega) hn hs, moebius_eq_zero_of_not_squarefree hs], fun h => hs h.1⟩

theorem moebius_small (n : Nat) : moebius n = 0 ∨ moebius n = 1 ∨ moebius n = -1 := by
  by_cases hs : Squarefree n
  · rw [moebius_apply_of_squarefree hs]
    exact .inr (neg_one_pow_eq_or Int _)
  · exact .inl (moebius_eq_zero_of_not_squarefree hs)

/-- A number that is neither 1 nor a prime power has a squarefree composite divisor. -/
theorem exists_bad_divisor (n : Nat) (h2 : 2 ≤ n) (hpp : ¬ IsPrimePow n) : ∃ e, e ∣ n ∧ Squarefree e ∧ e ≠ 1 ∧ ¬ e.Prime := by
  have hmf := Nat.minFac_prime (show n ≠ 1 by omega)
  obtain ⟨r, hr, hrn, hne⟩ : ∃ r, r.Prime ∧ r ∣ n ∧ r ≠ n.minFac := by
    by_contra hc
    push Not at hc
    exact hpp (isPrimePow_iff_unique_prime_dvd.2 ⟨n.minFac, ⟨hmf, n.minFac_dvd⟩, fun y hy => hc y hy.1 hy.2⟩)
  have hcop : Nat.Coprime r n.minFac := (Nat.coprime_primes hr hmf).2 hne
  refine ⟨r * n.minFac, hcop.mul_dvd_of_dvd_of_dvd hrn n.minFac_dvd, ?_, ?_, ?_⟩
  · exact (Nat.squarefree_mul hcop).2 ⟨hr.prime.squarefree, hmf.prime.squarefree⟩
  · have := Nat.le_mul_of_pos_right r hmf.pos
    have := hr.two_le
    omega
  · exact Nat.not_prime_mul hr.one_lt.ne' hmf.one_lt.ne'

theorem levelSize_diverge (p : Profile) (w n : Nat) (h2 : 2 ≤ n) (hn : n < 2 ^ 32) (hpp : ¬ IsPrimePow n)
    (hw : p = .release ∨ w ^ n < 2 ^ 63) : levelSize p w n = .diverge := by
  obtain ⟨e, hen, hs, h1, hp⟩ := exists_bad_divisor n h2 hpp
  have he1 : 1 ≤ e := Nat.pos_of_dvd_of_pos hen (by omega)
  have hle := Nat.le_of_dvd (by omega) hen
  unfold levelSize
  rw [levelSizeImpl_diverge p w n e 1 hn (by omega) (le_refl _) he1 hen ?_
    (levelTerm_diverge p w n e (mobius_diverge p e (by omega) (by omega) hp hs))]
  · rfl
  · intro c hc hce hcn
    rcases mobius_cases p c hc (by omega) with ⟨hm, _⟩ | ⟨hm, _⟩
    · left
      rcases hw with rfl | hw
      · exact levelTerm_release w n c _ hm hn (by omega) hc
      · exact ⟨_, levelTerm_ok p w n c _ hm (moebius_small c) (by simpa using pow_fit w n 1 (le_refl _) (by omega) hw) hn (by omega) hc
          (pow_fit w n _ (Nat.div_pos (by omega) hc) (Nat.div_le_self _ _) hw)⟩
    · exact .inr (levelTerm_diverge p w n c hm)

theorem levelSize_debug_panic (w n : Nat) (hn : n < 2 ^ 32) (hw : w < 2 ^ 63) (hfit : 2 ^ 63 ≤ w ^ n) :
    levelSize .debug w n = .panic := by
  unfold levelSize
  rw [levelSizeImpl_eq _ _ _ _ (by omega), if_pos (Nat.mod_one n),
    levelTerm_debug_panic w n 1 1 (mobius_one _) hw hn (le_refl _) (by rwa [Nat.div_one])]
  rfl

/-- In release a level that is 1 or a prime power returns some number, whatever the width. -/
theorem levelSize_release (w n : Nat) (h1 : 1 ≤ n) (hn : n < 2 ^ 32) (h : n = 1 ∨ IsPrimePow n) : ∃ v, levelSize .release w n = .ok v := by
  have hret : ∀ d, 1 ≤ d → d ≤ n → ∃ v, levelSizeImpl .release w n d = .ok v := by
    intro d hd hdn
    induction hk : n - d generalizing d with
    | zero =>
      obtain rfl : d = n := by omega
      rw [levelSizeImpl_eq _ _ _ _ (by omega), if_pos (Nat.mod_self d), if_neg (by omega)]
      rcases mobius_cases .release d hd (by omega) with ⟨hm, _⟩ | ⟨_, hs, h1', hp⟩
      · obtain ⟨t, ht⟩ := levelTerm_release w d d _ hm hn hd hd
        rw [ht, Res.bind_ok, Res.bind_ok]
        exact fitS_release _
      · rcases h with h | h
        · exact absurd h h1'
        · obtain ⟨q, k, hq, hk0, rfl⟩ := (isPrimePow_nat_iff d).1 h
          rcases (by omega : k = 1 ∨ 2 ≤ k) with rfl | hk2
          · exact absurd (by simpa using hq) hp
          · exact absurd hs (not_squarefree_pow q k hq hk2)
    | succ k ih =>
      obtain ⟨b, hb⟩ := ih (d + 1) (by omega) (by omega) (by omega)
      rw [levelSizeImpl_eq _ _ _ _ (by omega), if_pos (show d < n by omega), addW_ok (by omega), Res.bind_ok, hb]
      by_cases hr : n % d = 0
      · have hdvd := Nat.dvd_of_mod_eq_zero hr
        rw [if_pos hr]
        rcases mobius_cases .release d hd (by omega) with ⟨hm, _⟩ | ⟨_, hs, h1', hp⟩
        · obtain ⟨t, ht⟩ := levelTerm_release w n d _ hm hn h1 hd
          rw [ht, Res.bind_ok, Res.bind_ok]
          exact fitS_release _
        · rcases h with h | h
          · omega
          · obtain ⟨q, k, hq, hk0, rfl⟩ := (isPrimePow_nat_iff n).1 h
            obtain ⟨j, hj, rfl⟩ := (Nat.dvd_prime_pow hq).1 hdvd
            rcases (by omega : j = 0 ∨ j = 1 ∨ 2 ≤ j) with rfl | rfl | hk2
            · exact absurd (pow_zero q) h1'
            · exact absurd (by simpa using hq) hp
            · exact absurd hs (not_squarefree_pow q j hq hk2)
      · rw [if_neg hr, Res.bind_ok, Res.bind_ok]
        exact fitS_release _
  obtain ⟨v, hv⟩ := hret 1 (le_refl _) h1
  unfold levelSize
  rw [hv, Res.bind_ok]
  exact ⟨_, rfl⟩

/-! ## Summing over the levels -/

theorem sizeImpl_eq (p : Profile) (w d l : Nat) :
    sizeImpl p w d l = levelSize p w l >>= fun a =>
      (if l < d then (addW p 64 l 1 >>= fun l => sizeImpl p w d l) else .ok 0) >>= fun b => addW p 64 a b := by
  conv_lhs => rw [sizeImpl.eq_1]
  congr 1
  funext a
  split_ifs <;> simp

theorem not_primePow_six : ¬ IsPrimePow 6 := by
  intro h
  obtain ⟨q, ⟨_, _⟩, hq⟩ := isPrimePow_iff_unique_prime_dvd.1 h
  have := (hq 2 ⟨Nat.prime_two, by decide⟩).trans (hq 3 ⟨Nat.prime_three, by decide⟩).symm
  omega

theorem level_small (n : Nat) (h1 : 1 ≤ n) (h5 : n ≤ 5) : n = 1 ∨ ∃ q k, q.Prime ∧ n = q ^ (k + 1) := by
  interval_cases n
  · exact .inl rfl
  · exact .inr ⟨2, 0, Nat.prime_two, rfl⟩
  · exact .inr ⟨3, 0, Nat.prime_three, rfl⟩
  · exact .inr ⟨2, 1, Nat.prime_two, rfl⟩
  · exact .inr ⟨5, 0, Nat.prime_five, rfl⟩

theorem level_small' (n : Nat) (h1 : 1 ≤ n) (h5 : n ≤ 5) : n = 1 ∨ IsPrimePow n := by
  rcases level_small n h1 h5 with h | ⟨q, k, hq, h⟩
  · exact .inl h
  · exact .inr ((isPrimePow_nat_iff n).2 ⟨q, k + 1, hq, by omega, h.symm⟩)

theorem wittSum_one (w : Nat) : wittSum w 1 = w := by simp [wittSum]

theorem levelSize_small (p : Profile) (w n : Nat) (h1 : 1 ≤ n) (h5 : n ≤ 5) (hfit : w ^ n < 2 ^ 63) :
    ∃ v, levelSize p w n = .ok v ∧ IsWitt w n v ∧ v ≤ w ^ n := by
  rcases level_small n h1 h5 with rfl | ⟨q, k, hq, rfl⟩
  · refine ⟨w, levelSize_one p w (by simpa using hfit), ?_, by simp⟩
    unfold IsWitt
    rw [wittSum_one]; simp
  · exact levelSize_primePow p w q k hq (by omega) hfit

/-- Reaching level 6 diverges. -/
theorem sizeImpl_diverge (p : Profile) (w d l : Nat) (hl : 1 ≤ l) (h6 : l ≤ 6) (hd : 6 ≤ d) (hw : p = .release ∨ w ^ 6 < 2 ^ 63) :
    sizeImpl p w d l = .diverge := by
  induction hk : 6 - l generalizing l with
  | zero =>
    obtain rfl : l = 6 := by omega
    rw [sizeImpl_eq, levelSize_diverge p w 6 (by omega) (by omega) not_primePow_six hw]
    rfl
  | succ k ih =>
    have hret : ∃ v, levelSize p w l = .ok v := by
      rcases hw with rfl | hw
      · exact levelSize_release w l hl (by omega) (level_small' l hl (by omega))
      · obtain ⟨v, hv, _⟩ := levelSize_small p w l hl (by omega) (pow_fit w 6 l hl (by omega) hw)
        exact ⟨v, hv⟩
    obtain ⟨v, hv⟩ := hret
    rw [sizeImpl_eq, hv, Res.bind_ok, if_pos (by omega), addW_ok (by omega), Res.bind_ok, ih (l + 1) (by omega) (by omega) (by omega)]
    rfl

/-- Below level 6 the sizes are the sums of Witt's numbers. -/
theorem sizeImpl_ok (p : Profile) (w d l : Nat) (W : Nat → Nat) (hl : 1 ≤ l) (hld : l ≤ d) (h5 : d < 2 ^ 32)
    (hW : ∀ n, 1 ≤ n → n ≤ d → levelSize p w n = .ok (W n)) (hsum : ∑ n ∈ Finset.Icc 1 d, W n < 2 ^ 64) :
    sizeImpl p w d l = .ok (∑ n ∈ Finset.Icc l d, W n) := by
  induction hk : d - l generalizing l with
  | zero =>
    obtain rfl : l = d := by omega
    have hWl : W l ≤ ∑ n ∈ Finset.Icc 1 l, W n :=
      Finset.single_le_sum (f := W) (fun _ _ => Nat.zero_le _) (Finset.mem_Icc.2 ⟨hl, le_refl _⟩)
    rw [sizeImpl_eq, hW l hl (le_refl _), Res.bind_ok, if_neg (by omega), Res.bind_ok, addW_ok (by omega), Finset.Icc_self,
      Finset.sum_singleton, Nat.add_zero]
  | succ k ih =>
    have hI : Finset.Icc l d = insert l (Finset.Icc (l + 1) d) := by
      ext x
      simp only [Finset.mem_Icc, Finset.mem_insert]
      omega
    have hsub : ∑ n ∈ Finset.Icc l d, W n ≤ ∑ n ∈ Finset.Icc 1 d, W n :=
      Finset.sum_le_sum_of_subset (Finset.Icc_subset_Icc hl (le_refl _))
    rw [hI, Finset.sum_insert (by simp)] at hsub ⊢
    rw [sizeImpl_eq, hW l hl hld, Res.bind_ok, if_pos (by omega), addW_ok (by omega), Res.bind_ok, ih (l + 1) (by omega) (by omega) (by omega),
      Res.bind_ok, addW_ok (by omega)]

end Hall
end RA
