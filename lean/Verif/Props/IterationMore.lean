import Verif.Props.Iteration

/-!
# C07: how far `iter_keys` gets when the alphabet has `2^m / 3 + 1` letters

`Props/Iteration.lean` shows that the iteration never leaves the words of length two unless the number of letters is `2^m / 3 + 1`.  Here the remaining sizes.
-/

namespace RA
open Spec TensorKey TensorBasis

/-! ## One step of the iterator on raw data -/

theorem advance_low (p : Profile) (N s q j : Nat) (h1 : 1 ≤ N) (hN : N < 2 ^ 32) (hs : 1 ≤ s) (hj : j + 1 < N)
    (hd : q * 2 ^ bitsPerLetter N + 2 ^ bitsPerLetter N ≤ 2 ^ 64) :
    advance p N ⟨s, q * 2 ^ bitsPerLetter N + j⟩ = .ok (some ⟨s, q * 2 ^ bitsPerLetter N + (j + 1)⟩) := by
  have hb32 := bpl_le N h1 hN
  have hNb := lt_two_pow_bpl N h1
  have em : (q * 2 ^ bitsPerLetter N + j) % 2 ^ bitsPerLetter N = j := by
    rw [Nat.mul_comm, Nat.mul_add_mod]
    exact Nat.mod_eq_of_lt (by omega)
  have ed : (q * 2 ^ bitsPerLetter N + j) / 2 ^ bitsPerLetter N = q := by
    rw [Nat.mul_comm, Nat.mul_add_div (Nat.two_pow_pos _), Nat.div_eq_of_lt (by omega), Nat.add_zero]
  have g0 : getLetter p N ⟨s, q * 2 ^ bitsPerLetter N + j⟩ 0 = .ok (j + 1) := by
    have := getLetter_raw p N s (q * 2 ^ bitsPerLetter N + j) 0 h1 hN (by omega) (by simp only [Nat.zero_mul, Nat.pow_zero, Nat.div_one]; omega)
    simpa only [Nat.zero_mul, Nat.pow_zero, Nat.div_one, em] using this
  show advanceLoop p N (maxDepth N) (s + 1) ⟨s, _⟩ 0 = _
  rw [advanceLoop, if_neg (by show ¬ 0 = s; omega), g0, Res.bind_ok, if_neg (by omega), addW_ok (by omega), Res.bind_ok,
    setLetter_raw p N s _ 0 (j + 1 + 1) h1 hN (by omega) (by omega) (by omega) (by omega)
      (by simp only [Nat.zero_mul, Nat.pow_zero, Nat.mul_one]; omega),
    Nat.add_sub_cancel, Nat.zero_mul, Nat.add_zero, Nat.pow_zero, Nat.mod_one, Nat.add_zero, Nat.mul_one, ed, addW_ok (by omega)]
  rfl

theorem advance_top (p : Profile) (N s q : Nat) (h1 : 1 ≤ N) (hN : N < 2 ^ 32) (hs : 2 ≤ s)
    (hd : q * 2 ^ bitsPerLetter N + 2 ^ bitsPerLetter N ≤ 2 ^ 64) :
    advance p N ⟨s, q * 2 ^ bitsPerLetter N + (N - 1)⟩ = advanceLoop p N (maxDepth N) s ⟨s, q * 2 ^ bitsPerLetter N⟩ 1 := by
  have hb32 := bpl_le N h1 hN
  have hNb := lt_two_pow_bpl N h1
  have em : (q * 2 ^ bitsPerLetter N + (N - 1)) % 2 ^ bitsPerLetter N = N - 1 := by
    rw [Nat.mul_comm, Nat.mul_add_mod]
    exact Nat.mod_eq_of_lt (by omega)
  have ed : (q * 2 ^ bitsPerLetter N + (N - 1)) / 2 ^ bitsPerLetter N = q := by
    rw [Nat.mul_comm, Nat.mul_add_div (Nat.two_pow_pos _), Nat.div_eq_of_lt (by omega), Nat.add_zero]
  have g0 : getLetter p N ⟨s, q * 2 ^ bitsPerLetter N + (N - 1)⟩ 0 = .ok (N - 1 + 1) := by
    have := getLetter_raw p N s (q * 2 ^ bitsPerLetter N + (N - 1)) 0 h1 hN (by omega) (by simp only [Nat.zero_mul, Nat.pow_zero, Nat.div_one]; omega)
    simpa only [Nat.zero_mul, Nat.pow_zero, Nat.div_one, em] using this
  show advanceLoop p N (maxDepth N) (s + 1) ⟨s, _⟩ 0 = _
  rw [advanceLoop, if_neg (by show ¬ 0 = s; omega), g0, Res.bind_ok, if_pos (by omega),
    setLetter_raw p N s _ 0 1 h1 hN (by omega) (by omega) (by omega) (by omega) (by simp only [Nat.sub_self, Nat.zero_mul]; omega),
    Nat.sub_self, Nat.zero_mul, Nat.add_zero, Nat.pow_zero, Nat.mod_one, Nat.add_zero, ed, addW_ok (by omega)]
  show (addW p 32 0 1 >>= _) = _
  rw [addW_ok (by omega)]
  rfl

theorem loop_one (p : Profile) (N s q fuel : Nat) (h2 : 2 ≤ N) (hN : N < 2 ^ 32) (hs : 2 ≤ s) (hd : q * 2 ^ bitsPerLetter N < 2 ^ 64)
    (hv : q % 2 ^ bitsPerLetter N + 2 < 2 ^ 32) :
    advanceLoop p N (maxDepth N) (fuel + 1) ⟨s, q * 2 ^ bitsPerLetter N⟩ 1 =
      if q % 2 ^ bitsPerLetter N + 1 = N then advanceLoop p N (maxDepth N) fuel ⟨s, q / 2 * 2 * 2 ^ bitsPerLetter N⟩ 2
      else (addW p 64 (q / 2 * 2 * 2 ^ bitsPerLetter N) ((q % 2 ^ bitsPerLetter N + 1) * 2 ^ bitsPerLetter N)).bind fun d => .ok (some ⟨s, d⟩) := by
  have hb32 := bpl_le N (by omega) hN
  have hb2 := two_le_bpl h2
  have hB32 : 2 ^ bitsPerLetter N ≤ 2 ^ 32 := Nat.pow_le_pow_right (by omega) hb32
  have hBpos := Nat.two_pow_pos (bitsPerLetter N)
  have hev : 2 ∣ 2 ^ bitsPerLetter N := Dvd.intro_left _ (Nat.pow_pred_mul (by omega))
  have g1 : getLetter p N ⟨s, q * 2 ^ bitsPerLetter N⟩ 1 = .ok (q % 2 ^ bitsPerLetter N + 1) := by
    have := getLetter_raw p N s (q * 2 ^ bitsPerLetter N) 1 (by omega) hN (by omega)
    rw [Nat.one_mul, Nat.mul_div_cancel _ hBpos] at this
    exact this (by omega)
  have ediv : q * 2 ^ bitsPerLetter N / 2 ^ (bitsPerLetter N + 1) = q / 2 := by rw [Nat.pow_succ, Nat.mul_comm q, Nat.mul_div_mul_left _ _ hBpos]
  have emod : q * 2 ^ bitsPerLetter N % 2 ^ 1 = 0 := Nat.mod_eq_zero_of_dvd (Nat.dvd_trans (by simpa using hev) (Nat.dvd_mul_left _ q))
  have hle : q / 2 * 2 * 2 ^ bitsPerLetter N ≤ q * 2 ^ bitsPerLetter N := Nat.mul_le_mul_right _ (Nat.div_mul_le_self q 2)
  have e2 : q / 2 * 2 ^ (bitsPerLetter N + 1) = q / 2 * 2 * 2 ^ bitsPerLetter N := by rw [Nat.pow_succ]; ring
  rw [advanceLoop, if_neg (by show ¬ 1 = s; omega), g1, Res.bind_ok]
  split
  · rw [setLetter_raw p N s _ 1 1 (by omega) hN (by omega) (by omega) hd (by omega) (by simp only [Nat.sub_self, Nat.zero_mul]; omega),
      Nat.sub_self, Nat.zero_mul, ediv, emod, e2, addW_ok (by omega)]
    show (addW p 32 1 1 >>= _) = _
    rw [addW_ok (by omega)]
    rfl
  · have hxB2 : (q % 2 ^ bitsPerLetter N + 1) * 2 ^ bitsPerLetter N < 2 ^ 64 := by
      have : (q % 2 ^ bitsPerLetter N + 1) * 2 ^ bitsPerLetter N < 2 ^ 32 * 2 ^ 32 := Nat.mul_lt_mul_of_lt_of_le (by omega) hB32 (by omega)
      simpa using this
    rw [addW_ok (by omega), Res.bind_ok,
      setLetter_raw p N s _ 1 (q % 2 ^ bitsPerLetter N + 1 + 1) (by omega) hN (by omega) (by omega) hd (by omega)
        (by rw [Nat.one_mul, Nat.add_sub_cancel]; exact hxB2),
      Nat.add_sub_cancel, Nat.one_mul, ediv, emod, e2, Nat.add_zero]
    cases addW p 64 (q / 2 * 2 * 2 ^ bitsPerLetter N) ((q % 2 ^ bitsPerLetter N + 1) * 2 ^ bitsPerLetter N) <;> rfl

theorem loop_two (p : Profile) (N s q fuel : Nat) (h2 : 2 ≤ N) (hN : N < 2 ^ 32) (hs : 3 ≤ s) (hb : 3 * bitsPerLetter N ≤ 64)
    (hd : q * 2 ^ bitsPerLetter N < 2 ^ 64) (hz : q / 2 ^ bitsPerLetter N % 2 ^ bitsPerLetter N + 1 ≠ N) :
    advanceLoop p N (maxDepth N) (fuel + 1) ⟨s, q * 2 ^ bitsPerLetter N⟩ 2 =
      (addW p 64 (q / 4 * 4 * 2 ^ bitsPerLetter N) ((q / 2 ^ bitsPerLetter N % 2 ^ bitsPerLetter N + 1) * 2 ^ (2 * bitsPerLetter N))).bind
        fun d => .ok (some ⟨s, d⟩) := by
  have hb2 := two_le_bpl h2
  have hBpos := Nat.two_pow_pos (bitsPerLetter N)
  have hB21 : 2 ^ bitsPerLetter N ≤ 2 ^ 21 := Nat.pow_le_pow_right (by omega) (by omega)
  have hzlt := Nat.mod_lt (q / 2 ^ bitsPerLetter N) hBpos
  have hev : 2 ^ 2 ∣ 2 ^ bitsPerLetter N := Nat.pow_dvd_pow 2 hb2
  have e2b : 2 ^ (2 * bitsPerLetter N) = 2 ^ bitsPerLetter N * 2 ^ bitsPerLetter N := by rw [Nat.two_mul, Nat.pow_add]
  have g2 : getLetter p N ⟨s, q * 2 ^ bitsPerLetter N⟩ 2 = .ok (q / 2 ^ bitsPerLetter N % 2 ^ bitsPerLetter N + 1) := by
    have := getLetter_raw p N s (q * 2 ^ bitsPerLetter N) 2 (by omega) hN (by omega)
    rw [e2b, Nat.mul_div_mul_right _ _ hBpos] at this
    exact this (by omega)
  have ediv : q * 2 ^ bitsPerLetter N / 2 ^ (bitsPerLetter N + 2) = q / 4 := by rw [Nat.pow_add, Nat.mul_comm q, Nat.mul_div_mul_left _ _ hBpos]
  have emod : q * 2 ^ bitsPerLetter N % 2 ^ 2 = 0 := Nat.mod_eq_zero_of_dvd (Nat.dvd_trans hev (Nat.dvd_mul_left _ q))
  have e2 : q / 4 * 2 ^ (bitsPerLetter N + 2) = q / 4 * 4 * 2 ^ bitsPerLetter N := by rw [Nat.pow_add]; ring
  have hv : (q / 2 ^ bitsPerLetter N % 2 ^ bitsPerLetter N + 1) * 2 ^ (2 * bitsPerLetter N) < 2 ^ 64 := by
    have a1 : (q / 2 ^ bitsPerLetter N % 2 ^ bitsPerLetter N + 1) * 2 ^ (2 * bitsPerLetter N) ≤ 2 ^ bitsPerLetter N * 2 ^ (2 * bitsPerLetter N) :=
      Nat.mul_le_mul_right _ (by omega)
    rw [← Nat.pow_add] at a1
    have a2 : 2 ^ (bitsPerLetter N + 2 * bitsPerLetter N) ≤ 2 ^ 63 := Nat.pow_le_pow_right (by omega) (by omega)
    omega
  rw [advanceLoop, if_neg (by show ¬ 2 = s; omega), g2, Res.bind_ok, if_neg hz, addW_ok (by omega), Res.bind_ok,
    setLetter_raw p N s _ 2 (q / 2 ^ bitsPerLetter N % 2 ^ bitsPerLetter N + 1 + 1) (by omega) hN (by omega) (by omega) hd (by omega)
      (by rw [Nat.add_sub_cancel]; exact hv),
    Nat.add_sub_cancel, ediv, emod, e2, Nat.add_zero]
  cases addW p 64 (q / 4 * 4 * 2 ^ bitsPerLetter N) ((q / 2 ^ bitsPerLetter N % 2 ^ bitsPerLetter N + 1) * 2 ^ (2 * bitsPerLetter N)) <;> rfl

theorem loop_end (p : Profile) (N d fuel : Nat) (h1 : 1 ≤ N) (hN : N < 2 ^ 32) (hd : d < 2 ^ 64) :
    advanceLoop p N (maxDepth N) (fuel + 1) ⟨2, d⟩ 2 = if maxDepth N = 2 then .ok none else .ok (some ⟨3, d⟩) := by
  have hm := two_le_maxDepth N h1 hN
  have hb := maxDepth_mul_le N
  have hb1 := bpl_pos N
  rw [advanceLoop, if_pos rfl]
  split
  · rename_i h
    rw [if_pos h.symm]
  · rename_i h
    have h3 : 3 * bitsPerLetter N ≤ 64 := Nat.le_trans (Nat.mul_le_mul_right _ (by omega)) hb
    rw [if_neg (fun e => h e.symm)]
    unfold pushFront pushFrontRaw letterMask
    rw [decide_eq_true (show (TensorKey.mk 2 d).size < maxDepth N by show 2 < maxDepth N; omega), decide_eq_true (show 1 ≤ 1 ∧ 1 ≤ N by omega),
      debugAssert_true, Res.bind_ok, Res.bind_ok, subW_ok (by omega), Res.bind_ok, makeMask_ok _ _ _ (by omega) (by omega) (by omega), Res.bind_ok,
      mulW_ok (by show 2 * bitsPerLetter N < 2 ^ 32; omega), Res.bind_ok, Nat.sub_self, Nat.zero_and]
    have : shlW p 64 0 (2 * bitsPerLetter N) = .ok 0 := by
      unfold shlW
      rw [if_pos (by omega), Nat.zero_shiftLeft]
    show ((shlW p 64 0 (2 * bitsPerLetter N) >>= _) >>= _) = _
    rw [this, Res.bind_ok, addW_ok (by show d + 0 < _; omega), Res.bind_ok, addW_ok (by show 2 + 1 < _; omega)]
    rfl

/-! ## Words of length three: what happens above the last letter -/

/-- What a carry out of the last letter does to the two letters above it, for words of length three; `none` if all letters would be the largest. -/
def upperStep (N B r : Nat) : Option Nat :=
  if r % B + 1 = N then
    if r / B + 1 = N then none else some ((r / 4 * 4 + (r / B + 1) * B) % (B * B))
  else some ((r / 2 * 2 + (r % B + 1)) % (B * B))

/-- `n` carries. -/
def upperSteps (N B : Nat) : Nat → Nat → Option Nat
  | 0, r => some r
  | n + 1, r => (upperStep N B r).bind (upperSteps N B n)

theorem upperSteps_add (N B a : Nat) : ∀ (b r : Nat), upperSteps N B (a + b) r = (upperSteps N B a r).bind (upperSteps N B b) := by
  induction a with
  | zero => intro b r; rw [Nat.zero_add]; rfl
  | succ a ih =>
    intro b r
    rw [show a + 1 + b = a + b + 1 by omega, upperSteps, upperSteps]
    cases upperStep N B r with
    | none => rfl
    | some r' => exact ih b r'

/-- The iteration never gets past the three letters. -/
def Safe (N B r : Nat) : Prop := ∀ n, upperSteps N B n r ≠ none

theorem Safe.step {N B r : Nat} (h : Safe N B r) : ∃ r', upperStep N B r = some r' ∧ Safe N B r' := by
  cases e : upperStep N B r with
  | none =>
    exact absurd (by rw [upperSteps, e]; rfl) (h 1)
  | some r' =>
    refine ⟨r', rfl, fun n hn => h (n + 1) ?_⟩
    rw [upperSteps, e]
    exact hn

/-- A cycle is safe, and so is what leads into one. -/
theorem safe_of_cycle {N B r c T P : Nat} (hP : 0 < P) (h1 : upperSteps N B T r = some c) (h2 : upperSteps N B P c = some c) : Safe N B r := by
  have hc : ∀ t, upperSteps N B (P * t) c = some c := by
    intro t
    induction t with
    | zero => rfl
    | succ t ih => rw [Nat.mul_succ, upperSteps_add, ih]; exact h2
  intro n hn
  have : upperSteps N B (T + P * n) r = some c := by rw [upperSteps_add, h1]; exact hc n
  have hle : n ≤ P * n := Nat.le_mul_of_pos_left n hP
  rw [show T + P * n = n + (T + P * n - n) by omega, upperSteps_add, hn] at this
  cases this

/-- The states with three letters: the last letter is a letter, the two above it are safe. -/
def Stuck3 (N : Nat) (k : TensorKey) : Prop :=
  ∃ q j, k = ⟨3, q * 2 ^ bitsPerLetter N + j⟩ ∧ j < N ∧ q * 2 ^ bitsPerLetter N + 2 ^ bitsPerLetter N ≤ 2 ^ 64 ∧
    Safe N (2 ^ bitsPerLetter N) (q % (2 ^ bitsPerLetter N * 2 ^ bitsPerLetter N))

/-- A sum that is a multiple of `B = 2 ^ b` stays one when it wraps, and the two letters above the last are those of the exact sum. -/
theorem addW_upper (p : Profile) (b X x y : Nat) (hb : 3 * b ≤ 64) (h : x + y = X * 2 ^ b) (f : Nat → Res (Option TensorKey)) :
    (∃ q, (addW p 64 x y).bind f = f (q * 2 ^ b) ∧ q * 2 ^ b + 2 ^ b ≤ 2 ^ 64 ∧ q % (2 ^ b * 2 ^ b) = X % (2 ^ b * 2 ^ b) ∧ (p = .debug → q = X)) ∨
      (p = .debug ∧ (addW p 64 x y).bind f = .panic) := by
  have e64 : (2:Nat) ^ 64 = 2 ^ (64 - b) * 2 ^ b := by rw [← Nat.pow_add]; congr 1; omega
  have key : ∀ q, q < 2 ^ (64 - b) → q * 2 ^ b + 2 ^ b ≤ 2 ^ 64 := by
    intro q hq
    rw [e64, ← Nat.succ_mul]
    exact Nat.mul_le_mul_right _ hq
  have hlt : ∀ q, q * 2 ^ b < 2 ^ 64 → q < 2 ^ (64 - b) := by
    intro q hq
    rw [e64] at hq
    exact Nat.lt_of_mul_lt_mul_right hq
  have hdvd : 2 ^ b * 2 ^ b ∣ 2 ^ (64 - b) := by
    rw [← Nat.pow_add]
    exact Nat.pow_dvd_pow 2 (by omega)
  unfold addW fitW
  rw [h]
  by_cases hov : X * 2 ^ b < 2 ^ 64
  · rw [if_pos hov]
    exact .inl ⟨X, rfl, key X (hlt X hov), rfl, fun _ => rfl⟩
  · rw [if_neg hov]
    cases p
    · exact .inr ⟨rfl, rfl⟩
    · refine .inl ⟨X % 2 ^ (64 - b), ?_, key _ (Nat.mod_lt _ (Nat.two_pow_pos _)), Nat.mod_mod_of_dvd _ hdvd, nofun⟩
      rw [← Nat.mul_mod_mul_right, ← e64]
      rfl

theorem advance_stuck3 (p : Profile) (N : Nat) (h2 : 2 ≤ N) (hN : N < 2 ^ 32) (hb : 3 * bitsPerLetter N ≤ 64) (k : TensorKey) (hk : Stuck3 N k) :
    (∃ k', advance p N k = .ok (some k') ∧ Stuck3 N k' ∧ (p = .debug → k.data < k'.data)) ∨ (p = .debug ∧ advance p N k = .panic) := by
  obtain ⟨q, j, rfl, hj, hd, hs⟩ := hk
  by_cases hjN : j + 1 < N
  · exact .inl ⟨_, advance_low p N 3 q j (by omega) hN (by omega) hjN hd, ⟨q, j + 1, rfl, hjN, hd, hs⟩, fun _ => Nat.lt_succ_self _⟩
  obtain rfl : j = N - 1 := by omega
  rw [advance_top p N 3 q (by omega) hN (by omega) hd]
  have hb2 := two_le_bpl h2
  have hB21 : 2 ^ bitsPerLetter N ≤ 2 ^ 21 := Nat.pow_le_pow_right (by omega) (by omega)
  have hBpos := Nat.two_pow_pos (bitsPerLetter N)
  have hvlt := Nat.mod_lt q hBpos
  rw [loop_one p N 3 q 2 h2 hN (by omega) (by omega) (by omega)]
  have e2b : 2 ^ (2 * bitsPerLetter N) = 2 ^ bitsPerLetter N * 2 ^ bitsPerLetter N := by rw [Nat.two_mul, Nat.pow_add]
  have above : ∀ X, q + 1 ≤ X → q * 2 ^ bitsPerLetter N + (N - 1) < X * 2 ^ bitsPerLetter N + 0 := by
    intro X hX
    have := Nat.mul_le_mul_right (2 ^ bitsPerLetter N) hX
    have := lt_two_pow_bpl N (by omega)
    rw [Nat.succ_mul] at *
    omega
  obtain ⟨r', hr', hs'⟩ := hs.step
  -- the two letters above the last one
  have hmodB : q % (2 ^ bitsPerLetter N * 2 ^ bitsPerLetter N) % 2 ^ bitsPerLetter N = q % 2 ^ bitsPerLetter N :=
    Nat.mod_mod_of_dvd _ (Dvd.intro _ rfl)
  have hdivB : q % (2 ^ bitsPerLetter N * 2 ^ bitsPerLetter N) / 2 ^ bitsPerLetter N = q / 2 ^ bitsPerLetter N % 2 ^ bitsPerLetter N :=
    Nat.mod_mul_right_div_self _ _ _
  unfold upperStep at hr'
  rw [hmodB, hdivB] at hr'
  have h4 : ∃ c, 2 ^ bitsPerLetter N * 2 ^ bitsPerLetter N = 4 * c := by
    obtain ⟨c, hc⟩ : 2 ^ 2 ∣ 2 ^ bitsPerLetter N := Nat.pow_dvd_pow 2 hb2
    exact ⟨c * 2 ^ bitsPerLetter N, by conv_lhs => lhs; rw [hc]
                                       rw [Nat.mul_assoc]⟩
  have hsplit := Nat.div_add_mod q (2 ^ bitsPerLetter N * 2 ^ bitsPerLetter N)
  have hhalf : ∀ y, (q / 2 * 2 + y) % (2 ^ bitsPerLetter N * 2 ^ bitsPerLetter N) =
      (q % (2 ^ bitsPerLetter N * 2 ^ bitsPerLetter N) / 2 * 2 + y) % (2 ^ bitsPerLetter N * 2 ^ bitsPerLetter N) := by
    intro y
    obtain ⟨c, hc⟩ := h4
    rw [hc] at hsplit ⊢
    have : q / 2 * 2 = 4 * c * (q / (4 * c)) + q % (4 * c) / 2 * 2 := by
      rw [Nat.mul_assoc] at hsplit ⊢
      generalize c * (q / (4 * c)) = u at *
      omega
    rw [this, Nat.add_assoc, Nat.mul_add_mod]
  have hquarter : ∀ y, (q / 4 * 4 + y) % (2 ^ bitsPerLetter N * 2 ^ bitsPerLetter N) =
      (q % (2 ^ bitsPerLetter N * 2 ^ bitsPerLetter N) / 4 * 4 + y) % (2 ^ bitsPerLetter N * 2 ^ bitsPerLetter N) := by
    intro y
    obtain ⟨c, hc⟩ := h4
    rw [hc] at hsplit ⊢
    have : q / 4 * 4 = 4 * c * (q / (4 * c)) + q % (4 * c) / 4 * 4 := by
      rw [Nat.mul_assoc] at hsplit ⊢
      generalize c * (q / (4 * c)) = u at *
      omega
    rw [this, Nat.add_assoc, Nat.mul_add_mod]
  split at hr'
  · rename_i hv
    rw [if_pos hv]
    split at hr'
    · cases hr'
    rename_i hz
    have hr := (Option.some.inj hr').symm
    have hle : q / 2 * 2 * 2 ^ bitsPerLetter N ≤ q * 2 ^ bitsPerLetter N := Nat.mul_le_mul_right _ (Nat.div_mul_le_self q 2)
    have hB2 : 2 ∣ 2 ^ bitsPerLetter N := Dvd.intro_left _ (Nat.pow_pred_mul (by omega))
    have ez : q / 2 * 2 / 2 ^ bitsPerLetter N = q / 2 ^ bitsPerLetter N := by
      obtain ⟨c, hc⟩ := hB2
      rw [hc, Nat.mul_comm (q / 2), Nat.mul_div_mul_left _ _ (by omega), Nat.div_div_eq_div_mul]
    have e4 : q / 2 * 2 / 4 * 4 = q / 4 * 4 := by omega
    rw [loop_two p N 3 (q / 2 * 2) 1 h2 hN (by omega) hb (by omega) (by rw [ez]; exact hz), ez, e4, e2b]
    rcases addW_upper p (bitsPerLetter N) (q / 4 * 4 + (q / 2 ^ bitsPerLetter N % 2 ^ bitsPerLetter N + 1) * 2 ^ bitsPerLetter N)
      (q / 4 * 4 * 2 ^ bitsPerLetter N) ((q / 2 ^ bitsPerLetter N % 2 ^ bitsPerLetter N + 1) * (2 ^ bitsPerLetter N * 2 ^ bitsPerLetter N)) hb
      (by ring) (fun d => .ok (some ⟨3, d⟩)) with ⟨q', e, hq1, hq2, hq3⟩ | h
    · refine .inl ⟨_, e, ⟨q', 0, rfl, by omega, hq1, ?_⟩, fun hp => ?_⟩
      · rw [hq2, hquarter, ← hr]
        exact hs'
      · rw [hq3 hp]
        refine above _ ?_
        have : 2 ^ 2 ≤ 2 ^ bitsPerLetter N := Nat.pow_le_pow_right (by omega) hb2
        have := Nat.mul_le_mul_right (2 ^ bitsPerLetter N) (Nat.le_add_left 1 (q / 2 ^ bitsPerLetter N % 2 ^ bitsPerLetter N))
        omega
    · exact .inr h
  · rename_i hv
    rw [if_neg hv]
    have hr := (Option.some.inj hr').symm
    rcases addW_upper p (bitsPerLetter N) (q / 2 * 2 + (q % 2 ^ bitsPerLetter N + 1))
      (q / 2 * 2 * 2 ^ bitsPerLetter N) ((q % 2 ^ bitsPerLetter N + 1) * 2 ^ bitsPerLetter N) hb
      (by ring) (fun d => .ok (some ⟨3, d⟩)) with ⟨q', e, hq1, hq2, hq3⟩ | h
    · refine .inl ⟨_, e, ⟨q', 0, rfl, by omega, hq1, ?_⟩, fun hp => ?_⟩
      · rw [hq2, hhalf, ← hr]
        exact hs'
      · rw [hq3 hp]
        refine above _ ?_
        have hev : 2 ∣ 2 ^ bitsPerLetter N := Dvd.intro_left _ (Nat.pow_pred_mul (by omega))
        have : q % 2 ^ bitsPerLetter N % 2 = q % 2 := Nat.mod_mod_of_dvd _ hev
        omega
    · exact .inr h

/-! ## Alphabets of `2^m / 3 + 1` letters -/

theorem bpl_third {m : Nat} (hm : 3 ≤ m) : bitsPerLetter (2 ^ m / 3 + 1) = m - 1 := by
  obtain ⟨c, rfl⟩ : ∃ c, m = c + 3 := ⟨m - 3, by omega⟩
  have hpos := Nat.two_pow_pos c
  have h := constLogn_spec (2 ^ (c + 3) / 3 + 1) (Nat.le_add_left 1 _)
  have e3 : 2 ^ (c + 3) = 2 ^ c * 8 := by rw [Nat.pow_add]
  unfold bitsPerLetter
  have lo : c + 1 < constLogn (2 ^ (c + 3) / 3 + 1) + 1 := by
    rw [← Nat.pow_lt_pow_iff_right (a := 2) (by omega)]
    refine Nat.lt_of_le_of_lt ?_ h.2
    rw [Nat.pow_succ, e3]
    omega
  have hi : constLogn (2 ^ (c + 3) / 3 + 1) < c + 2 := by
    rw [← Nat.pow_lt_pow_iff_right (a := 2) (by omega)]
    refine Nat.lt_of_le_of_lt h.1 ?_
    rw [e3, show 2 ^ (c + 2) = 2 ^ c * 4 from Nat.pow_add 2 c 2]
    omega
  omega

/-- The states from which words of length three are enumerated, for every such alphabet with `max_depth` at least three. -/
theorem thirds_safe (m : Nat) (h3 : 3 ≤ m) (h22 : m ≤ 22) : Safe (2 ^ m / 3 + 1) (2 ^ (m - 1)) (2 ^ m / 3 / 2 * 2) := by
  have key : ∀ m, m < 23 → 3 ≤ m → (upperSteps (2 ^ m / 3 + 1) (2 ^ (m - 1)) 600 (2 ^ m / 3 / 2 * 2)).any
      (fun c => decide (upperSteps (2 ^ m / 3 + 1) (2 ^ (m - 1)) m c = some c)) = true := by
    decide +kernel
  have h := key m (by omega) h3
  cases e : upperSteps (2 ^ m / 3 + 1) (2 ^ (m - 1)) 600 (2 ^ m / 3 / 2 * 2) with
  | none => rw [e] at h; cases h
  | some c =>
    rw [e] at h
    exact safe_of_cycle (by omega) e (of_decide_eq_true h)

theorem third_lt {m : Nat} (hm : m ≤ 33) : 2 ^ m / 3 + 1 < 2 ^ 32 := by
  have : 2 ^ m ≤ 2 ^ 33 := Nat.pow_le_pow_right (by omega) hm
  omega

theorem maxDepth_third {m : Nat} (h3 : 3 ≤ m) (h33 : m ≤ 33) :
    (m ≤ 22 → 3 ≤ maxDepth (2 ^ m / 3 + 1)) ∧ (23 ≤ m → maxDepth (2 ^ m / 3 + 1) = 2) := by
  unfold maxDepth sizeBits
  rw [bpl_third h3]
  revert h3
  have key : ∀ m, m < 34 → 3 ≤ m → (m ≤ 22 → 3 ≤ (64 - constLogn ((64 - 1) / (m - 1))) / (m - 1)) ∧
      (23 ≤ m → (64 - constLogn ((64 - 1) / (m - 1))) / (m - 1) = 2) := by
    decide +kernel
  exact key m (by omega)

/-- The items with two letters: for each `i` from 1 to `m`, the words whose first letter is `2^i / 3 + 1`. -/
theorem advance_third (p : Profile) (m : Nat) (h3 : 3 ≤ m) (h33 : m ≤ 33) (i j : Nat) (hi : 1 ≤ i) (him : i ≤ m) (hj : j < 2 ^ m / 3 + 1) :
    advance p (2 ^ m / 3 + 1) ⟨2, 2 ^ i / 3 * 2 ^ (m - 1) + j⟩ =
      if j + 1 < 2 ^ m / 3 + 1 then .ok (some ⟨2, 2 ^ i / 3 * 2 ^ (m - 1) + (j + 1)⟩)
      else if i < m then .ok (some ⟨2, 2 ^ (i + 1) / 3 * 2 ^ (m - 1) + 0⟩)
      else if maxDepth (2 ^ m / 3 + 1) = 2 then .ok none
      else .ok (some ⟨3, 2 ^ m / 3 / 2 * 2 * 2 ^ (m - 1) + 0⟩) := by
  have hN := third_lt h33
  have hb := bpl_third h3
  have hpi : 2 ^ i ≤ 2 ^ m := Nat.pow_le_pow_right (by omega) him
  have hm8 : 2 ^ 3 ≤ 2 ^ m := Nat.pow_le_pow_right (by omega) h3
  have hmm : 2 ^ m = 2 * 2 ^ (m - 1) := by rw [Nat.mul_comm, ← Nat.pow_succ]; congr 1; omega
  have hB32 : 2 ^ (m - 1) ≤ 2 ^ 32 := Nat.pow_le_pow_right (by omega) (by omega)
  have hbig : ∀ q, q < 2 ^ 32 → q * 2 ^ (m - 1) + 2 ^ (m - 1) ≤ 2 ^ 64 := by
    intro q hq
    rw [← Nat.succ_mul]
    exact Nat.le_trans (Nat.mul_le_mul hq hB32) (by decide)
  have hd := hbig (2 ^ i / 3) (by omega)
  split
  · rename_i h
    have := advance_low p (2 ^ m / 3 + 1) 2 (2 ^ i / 3) j (by omega) hN (by omega) h (by rw [hb]; exact hd)
    rw [hb] at this
    exact this
  · rename_i h
    obtain rfl : j = 2 ^ m / 3 + 1 - 1 := by omega
    have e := advance_top p (2 ^ m / 3 + 1) 2 (2 ^ i / 3) (by omega) hN (by omega) (by rw [hb]; exact hd)
    have hmod : 2 ^ i / 3 % 2 ^ (m - 1) = 2 ^ i / 3 := Nat.mod_eq_of_lt (by omega)
    have el := loop_one p (2 ^ m / 3 + 1) 2 (2 ^ i / 3) 1 (by omega) hN (by omega) (by rw [hb]; omega) (by rw [hb, hmod]; omega)
    rw [hb, hmod] at el
    rw [hb] at e
    rw [e, el]
    have hle : 2 ^ i / 3 / 2 * 2 * 2 ^ (m - 1) ≤ 2 ^ i / 3 * 2 ^ (m - 1) := Nat.mul_le_mul_right _ (Nat.div_mul_le_self _ 2)
    by_cases him' : i < m
    · have hne : 2 ^ i / 3 + 1 ≠ 2 ^ m / 3 + 1 := by
        have : 2 ^ (i + 1) ≤ 2 ^ m := Nat.pow_le_pow_right (by omega) him'
        rw [Nat.pow_succ] at this
        have h2i : 2 ^ 1 ≤ 2 ^ i := Nat.pow_le_pow_right (by omega) hi
        omega
      have hst := third_step hi
      have hpi' : 2 ^ (i + 1) ≤ 2 ^ m := Nat.pow_le_pow_right (by omega) him'
      have hd' := hbig (2 ^ (i + 1) / 3) (by omega)
      have esum : 2 ^ i / 3 / 2 * 2 * 2 ^ (m - 1) + (2 ^ i / 3 + 1) * 2 ^ (m - 1) = 2 ^ (i + 1) / 3 * 2 ^ (m - 1) := by
        rw [← Nat.add_mul, ← hst]
        congr 1
        omega
      rw [if_neg hne, if_pos him', addW_ok (by rw [esum]; omega), esum]
      rfl
    · obtain rfl : i = m := by omega
      have ee := loop_end p (2 ^ i / 3 + 1) (2 ^ i / 3 / 2 * 2 * 2 ^ (i - 1)) 0 (by omega) hN (by omega)
      rw [if_pos rfl, if_neg him', ee]
      rfl

theorem nth_zero_eq {p : Profile} {N : Nat} {k k' : TensorKey} (h : BasisIter.nth p N 0 (.startingFrom N k) = .ok (some k')) : k' = k := by
  rw [BasisIter.nth, next_some] at h
  cases hadv : advance p N k <;> rw [hadv] at h <;> cases h
  rfl

/-- The items of the iteration with two letters. -/
def thirdItem (m t : Nat) : TensorKey := ⟨2, 2 ^ (t / (2 ^ m / 3 + 1) + 1) / 3 * 2 ^ (m - 1) + t % (2 ^ m / 3 + 1)⟩

theorem thirdItem_advance (p : Profile) (m : Nat) (h3 : 3 ≤ m) (h33 : m ≤ 33) (t : Nat) (ht : t + 1 < m * (2 ^ m / 3 + 1)) :
    advance p (2 ^ m / 3 + 1) (thirdItem m t) = .ok (some (thirdItem m (t + 1))) := by
  have hpos : 0 < 2 ^ m / 3 + 1 := Nat.succ_pos _
  have hj := Nat.mod_lt t hpos
  have him : t / (2 ^ m / 3 + 1) < m := (Nat.div_lt_iff_lt_mul hpos).2 (by omega)
  have := advance_third p m h3 h33 (t / (2 ^ m / 3 + 1) + 1) (t % (2 ^ m / 3 + 1)) (Nat.succ_le_succ (Nat.zero_le _)) him hj
  unfold thirdItem
  rw [this]
  have hdm := Nat.div_add_mod t (2 ^ m / 3 + 1)
  generalize 2 ^ m / 3 + 1 = N at *
  split
  · rename_i h
    have e1 : (t + 1) / N = t / N := by
      conv_lhs => rw [← hdm, Nat.add_assoc, Nat.mul_add_div hpos, Nat.div_eq_of_lt h, Nat.add_zero]
    have e2 : (t + 1) % N = t % N + 1 := by
      conv_lhs => rw [← hdm, Nat.add_assoc, Nat.mul_add_mod, Nat.mod_eq_of_lt h]
    rw [e1, e2]
  · rename_i h
    have e0 : t + 1 = N * (t / N + 1) := by rw [Nat.mul_succ]; omega
    have e1 : (t + 1) / N = t / N + 1 := by rw [e0, Nat.mul_div_cancel_left _ hpos]
    have e2 : (t + 1) % N = 0 := by rw [e0, Nat.mul_mod_right]
    rw [e1, e2, if_pos]
    by_contra hc
    have : t / N + 1 = m := by omega
    rw [e0, this, Nat.mul_comm] at ht
    exact Nat.lt_irrefl _ ht

theorem third_chain (p : Profile) (m : Nat) (h3 : 3 ≤ m) (h33 : m ≤ 33) :
    (∀ n, n ≤ 2 ^ m / 3 + 1 → ∃ k, BasisIter.nth p (2 ^ m / 3 + 1) n (.new (2 ^ m / 3 + 1)) = .ok (some k) ∧ k.size ≤ 1) ∧
    (∀ t r, t < m * (2 ^ m / 3 + 1) → BasisIter.nth p (2 ^ m / 3 + 1) (2 ^ m / 3 + 1 + 1 + (t + r)) (.new (2 ^ m / 3 + 1)) =
      BasisIter.nth p (2 ^ m / 3 + 1) r (.startingFrom (2 ^ m / 3 + 1) (thirdItem m t))) := by
  have hN := third_lt h33
  have hm8 : 2 ^ 3 ≤ 2 ^ m := Nat.pow_le_pow_right (by omega) h3
  have hchain2 : ∀ t r, t < m * (2 ^ m / 3 + 1) → BasisIter.nth p (2 ^ m / 3 + 1) (t + r) (.startingFrom (2 ^ m / 3 + 1) (thirdItem m 0)) =
      BasisIter.nth p (2 ^ m / 3 + 1) r (.startingFrom (2 ^ m / 3 + 1) (thirdItem m t)) := by
    intro t r ht
    have := nth_chain p (2 ^ m / 3 + 1) (thirdItem m) r t 0 (fun i _ hi => thirdItem_advance p m h3 h33 i (by omega))
    rwa [Nat.zero_add] at this
  have e0 : thirdItem m 0 = ⟨2, 0⟩ := by
    unfold thirdItem
    rw [Nat.zero_div, Nat.zero_mod]
    simp
  have h3N : 3 ≤ 2 ^ m / 3 + 1 := by omega
  generalize 2 ^ m / 3 + 1 = N at *
  have hgood : ∀ i, i < 4 * N → advance p N (keyOf N (indexWord N i)) = .ok (some (keyOf N (indexWord N (i + 1)))) := by
    intro i hi
    have hlen : (indexWord N i).length ≤ maxDepth N := by
      have h2 := two_le_maxDepth N (by omega) hN
      have hg : 4 * N < geomSum N (2 + 1) := by simp only [geomSum]; nlinarith
      have hgm : geomSum N (2 + 1) ≤ geomSum N (maxDepth N + 1) := geomSum_mono (by omega)
      exact (indexWord_length_le i _ (by omega)).2 (by omega)
    have := advance_good p N (by omega) hN _ (validWord_indexWord (by omega) i) hlen (good_lt_four (by omega) hi)
    rwa [wordIndex_indexWord] at this
  have hchain : ∀ a r, a ≤ N + 1 → BasisIter.nth p N (a + r) (.new N) = BasisIter.nth p N r (.startingFrom N (keyOf N (indexWord N a))) := by
    intro a r ha
    have := nth_chain p N (fun i => keyOf N (indexWord N i)) r a 0 (fun i _ hi => hgood i (by omega))
    simp only [Nat.zero_add, indexWord_zero, keyOf_nil] at this
    exact this
  constructor
  · intro n hn
    have := hchain n 0 (by omega)
    rw [Nat.add_zero] at this
    rw [this]
    refine ⟨_, nth_zero_of_advance p N _ _ (hgood n (by omega)), ?_⟩
    show (indexWord N n).length ≤ 1
    refine (indexWord_length_le n 1 (by omega)).2 ?_
    simp only [geomSum, Nat.pow_zero, Nat.pow_one]
    omega
  · intro t r ht
    rw [hchain (N + 1) (t + r) (Nat.le_refl _), ← hchain2 t r ht, e0]
    have e : indexWord N (N + 1) = [1, 1] := by
      have : wordIndex N [1, 1] = N + 1 := by simp [wordIndex_cons]
      rw [← this, indexWord_wordIndex (by omega)]
      intro x hx; simp at hx; omega
    rw [e, show keyOf N [1, 1] = ⟨2, 0⟩ by simp [keyOf, wordData_cons]]

/-- C07 for the largest of these alphabets, where `max_depth` is 2: the iteration ends, after `1 + N + m N` of the `1 + N + N^2` keys. -/
theorem C07_thirds_end (p : Profile) (m : Nat) (h23 : 23 ≤ m) (h33 : m ≤ 33) (n : Nat) :
    (n < 1 + (2 ^ m / 3 + 1) + m * (2 ^ m / 3 + 1) → ∃ k, BasisIter.nth p (2 ^ m / 3 + 1) n (.new (2 ^ m / 3 + 1)) = .ok (some k)) ∧
    (1 + (2 ^ m / 3 + 1) + m * (2 ^ m / 3 + 1) ≤ n → BasisIter.nth p (2 ^ m / 3 + 1) n (.new (2 ^ m / 3 + 1)) = .ok none) := by
  obtain ⟨hlow, hch⟩ := third_chain p m (by omega) h33
  have hmd := (maxDepth_third (m := m) (by omega) h33).2 h23
  have hadv := thirdItem_advance p m (by omega) h33
  have hlast : advance p (2 ^ m / 3 + 1) (thirdItem m (m * (2 ^ m / 3 + 1) - 1)) = .ok none := by
    have hpos : 0 < 2 ^ m / 3 + 1 := Nat.succ_pos _
    have e1 : (m * (2 ^ m / 3 + 1) - 1) / (2 ^ m / 3 + 1) = m - 1 := by
      obtain ⟨c, rfl⟩ : ∃ c, m = c + 1 := ⟨m - 1, by omega⟩
      generalize 2 ^ (c + 1) / 3 + 1 = N at *
      rw [Nat.succ_mul, Nat.add_sub_assoc hpos, Nat.mul_comm, Nat.mul_add_div hpos, Nat.div_eq_of_lt (by omega)]
      omega
    have e2 : (m * (2 ^ m / 3 + 1) - 1) % (2 ^ m / 3 + 1) = 2 ^ m / 3 := by
      obtain ⟨c, rfl⟩ : ∃ c, m = c + 1 := ⟨m - 1, by omega⟩
      generalize 2 ^ (c + 1) / 3 = N at *
      rw [Nat.succ_mul, Nat.add_sub_assoc (by omega), Nat.mul_comm, Nat.mul_add_mod, Nat.mod_eq_of_lt (by omega)]
      omega
    unfold thirdItem
    rw [e1, e2, show m - 1 + 1 = m by omega]
    have := advance_third p m (by omega) h33 m (2 ^ m / 3) (by omega) (Nat.le_refl _) (by omega)
    rw [this, if_neg (by omega), if_neg (by omega), if_pos hmd]
  have hpos : 0 < m * (2 ^ m / 3 + 1) := Nat.mul_pos (by omega) (Nat.succ_pos _)
  generalize m * (2 ^ m / 3 + 1) = T at *
  generalize 2 ^ m / 3 + 1 = N at *
  constructor
  · intro hn
    rcases Nat.lt_or_ge n (N + 1) with h | h
    · obtain ⟨k, hk, _⟩ := hlow n (by omega)
      exact ⟨k, hk⟩
    · have := hch (n - (N + 1)) 0 (by omega)
      rw [show N + 1 + (n - (N + 1) + 0) = n by omega] at this
      rw [this]
      refine ⟨thirdItem m (n - (N + 1)), ?_⟩
      by_cases hl : n - (N + 1) + 1 < T
      · exact nth_zero_of_advance p N _ _ (hadv _ hl)
      · rw [show n - (N + 1) = T - 1 by omega]
        exact nth_zero_of_advance p N _ _ hlast
  · intro hn
    have := hch (T - 1) (n - (N + 1 + T) + 1) (by omega)
    rw [show N + 1 + (T - 1 + (n - (N + 1 + T) + 1)) = n by omega, nth_succ_of_advance p N _ _ _ hlast, nth_none] at this
    exact this

theorem nth_stuck3 (p : Profile) (N : Nat) (h2 : 2 ≤ N) (hN : N < 2 ^ 32) (hb : 3 * bitsPerLetter N ≤ 64) (n : Nat) (k : TensorKey)
    (hk : Stuck3 N k) : (∃ k', BasisIter.nth p N n (.startingFrom N k) = .ok (some k') ∧ k'.size = 3 ∧ k'.data < 2 ^ 64 ∧ (p = .debug → n ≤ k'.data)) ∨
      (p = .debug ∧ BasisIter.nth p N n (.startingFrom N k) = .panic) := by
  suffices h : (∃ k', BasisIter.nth p N n (.startingFrom N k) = .ok (some k') ∧ Stuck3 N k' ∧ (p = .debug → k.data + n ≤ k'.data)) ∨
      (p = .debug ∧ BasisIter.nth p N n (.startingFrom N k) = .panic) by
    rcases h with ⟨k', e, ⟨q, j, rfl, hj, hq, _⟩, h3⟩ | h
    · have := lt_two_pow_bpl N (by omega)
      exact .inl ⟨_, e, rfl, by show q * 2 ^ bitsPerLetter N + j < 2 ^ 64; omega, fun hp => by have := h3 hp; omega⟩
    · exact .inr h
  induction n generalizing k with
  | zero =>
    rcases advance_stuck3 p N h2 hN hb k hk with ⟨k', hadv, _⟩ | ⟨hp, hadv⟩
    · exact .inl ⟨k, nth_zero_of_advance p N k _ hadv, hk, fun _ => Nat.le_refl _⟩
    · refine .inr ⟨hp, ?_⟩
      rw [BasisIter.nth, next_some, hadv]
      rfl
  | succ n ih =>
    rcases advance_stuck3 p N h2 hN hb k hk with ⟨k', hadv, hk', hlt⟩ | ⟨hp, hadv⟩
    · rw [nth_succ_of_advance p N n k _ hadv]
      rcases ih k' hk' with ⟨k2, c1, c2, c3⟩ | h
      · exact .inl ⟨k2, c1, c2, fun hp => by have := hlt hp; have := c3 hp; omega⟩
      · exact .inr h
    · refine .inr ⟨hp, ?_⟩
      rw [BasisIter.nth, next_some, hadv]
      rfl

theorem nth_thirds_stuck (p : Profile) (m : Nat) (h3 : 3 ≤ m) (h22 : m ≤ 22) (n : Nat) :
    (∃ k, BasisIter.nth p (2 ^ m / 3 + 1) n (.new (2 ^ m / 3 + 1)) = .ok (some k) ∧ k.size ≤ 3 ∧
      (k.size = 3 ↔ 1 + (2 ^ m / 3 + 1) + m * (2 ^ m / 3 + 1) ≤ n) ∧
      (1 + (2 ^ m / 3 + 1) + m * (2 ^ m / 3 + 1) ≤ n → k.data < 2 ^ 64 ∧ (p = .debug → n - (1 + (2 ^ m / 3 + 1) + m * (2 ^ m / 3 + 1)) ≤ k.data))) ∨
    (p = .debug ∧ BasisIter.nth p (2 ^ m / 3 + 1) n (.new (2 ^ m / 3 + 1)) = .panic) := by
  obtain ⟨hlow, hch⟩ := third_chain p m (by omega) (by omega)
  have hmd := (maxDepth_third (m := m) (by omega) (by omega)).1 h22
  have hadv := thirdItem_advance p m (by omega) (by omega)
  have hb := bpl_third h3
  have hsafe := thirds_safe m h3 h22
  have hN := third_lt (m := m) (by omega)
  have hm8 : 2 ^ 3 ≤ 2 ^ m := Nat.pow_le_pow_right (by omega) h3
  have hmm : 2 ^ m = 2 * 2 ^ (m - 1) := by rw [Nat.mul_comm, ← Nat.pow_succ]; congr 1; omega
  have hlast : advance p (2 ^ m / 3 + 1) (thirdItem m (m * (2 ^ m / 3 + 1) - 1)) = .ok (some ⟨3, 2 ^ m / 3 / 2 * 2 * 2 ^ (m - 1) + 0⟩) := by
    have hpos : 0 < 2 ^ m / 3 + 1 := Nat.succ_pos _
    have e1 : (m * (2 ^ m / 3 + 1) - 1) / (2 ^ m / 3 + 1) = m - 1 := by
      obtain ⟨c, rfl⟩ : ∃ c, m = c + 1 := ⟨m - 1, by omega⟩
      generalize 2 ^ (c + 1) / 3 + 1 = N at *
      rw [Nat.succ_mul, Nat.add_sub_assoc hpos, Nat.mul_comm, Nat.mul_add_div hpos, Nat.div_eq_of_lt (by omega)]
      omega
    have e2 : (m * (2 ^ m / 3 + 1) - 1) % (2 ^ m / 3 + 1) = 2 ^ m / 3 := by
      obtain ⟨c, rfl⟩ : ∃ c, m = c + 1 := ⟨m - 1, by omega⟩
      generalize 2 ^ (c + 1) / 3 = N at *
      rw [Nat.succ_mul, Nat.add_sub_assoc (by omega), Nat.mul_comm, Nat.mul_add_mod, Nat.mod_eq_of_lt (by omega)]
      omega
    unfold thirdItem
    rw [e1, e2, show m - 1 + 1 = m by omega]
    have := advance_third p m (by omega) (by omega) m (2 ^ m / 3) (by omega) (Nat.le_refl _) (by omega)
    rw [this, if_neg (by omega), if_neg (by omega), if_neg (by omega)]
  have hstuck : Stuck3 (2 ^ m / 3 + 1) ⟨3, 2 ^ m / 3 / 2 * 2 * 2 ^ (m - 1) + 0⟩ := by
    have hle : 2 ^ m / 3 / 2 * 2 < 2 ^ (m - 1) := by omega
    have hB : 2 ^ (m - 1) ≤ 2 ^ 21 := Nat.pow_le_pow_right (by omega) (by omega)
    refine ⟨_, 0, by rw [hb], by omega, ?_, ?_⟩
    · rw [hb, ← Nat.succ_mul]
      exact Nat.le_trans (Nat.mul_le_mul hle hB) (Nat.le_trans (Nat.mul_le_mul hB (Nat.le_refl _)) (by decide))
    · rw [hb, Nat.mod_eq_of_lt]
      · exact hsafe
      · exact Nat.lt_of_lt_of_le hle (Nat.le_mul_of_pos_left _ (Nat.two_pow_pos _))
  have hnth := nth_stuck3 p (2 ^ m / 3 + 1) (by omega) hN (by rw [hb]; omega)
  have hpos : 0 < m * (2 ^ m / 3 + 1) := Nat.mul_pos (by omega) (Nat.succ_pos _)
  have hsize : ∀ t, (thirdItem m t).size = 2 := fun _ => rfl
  generalize m * (2 ^ m / 3 + 1) = T at *
  generalize 2 ^ m / 3 + 1 = N at *
  rcases Nat.lt_or_ge n (N + 1) with h | h
  · obtain ⟨k, hk, hs⟩ := hlow n (by omega)
    exact .inl ⟨k, hk, by omega, by omega, by omega⟩
  · rcases Nat.lt_or_ge n (N + 1 + T) with h' | h'
    · left
      have := hch (n - (N + 1)) 0 (by omega)
      rw [show N + 1 + (n - (N + 1) + 0) = n by omega] at this
      rw [this]
      have hs := hsize (n - (N + 1))
      refine ⟨thirdItem m (n - (N + 1)), ?_, by omega, by omega, by omega⟩
      by_cases hl : n - (N + 1) + 1 < T
      · exact nth_zero_of_advance p N _ _ (hadv _ hl)
      · rw [show n - (N + 1) = T - 1 by omega]
        exact nth_zero_of_advance p N _ _ hlast
    · have := hch (T - 1) (n - (N + 1 + T) + 1) (by omega)
      rw [show N + 1 + (T - 1 + (n - (N + 1 + T) + 1)) = n by omega, nth_succ_of_advance p N _ _ _ hlast] at this
      rw [this]
      rcases hnth (n - (N + 1 + T)) _ hstuck with ⟨k, hk, hs⟩ | hp
      · exact .inl ⟨k, hk, by omega, by omega, fun _ => ⟨hs.2.1, fun hp => by have := hs.2.2 hp; omega⟩⟩
      · exact .inr hp

/-- C07 for the other such alphabets (3, 6, 11, 22, … letters, `max_depth` from 30 down to 3): the iteration never ends and never produces a word of four or
more letters; item `1 + N + m N` is the first one of three letters.  A debug build may stop with an overflow panic instead. -/
theorem C07_thirds_stuck (p : Profile) (m : Nat) (h3 : 3 ≤ m) (h22 : m ≤ 22) (n : Nat) :
    (∃ k, BasisIter.nth p (2 ^ m / 3 + 1) n (.new (2 ^ m / 3 + 1)) = .ok (some k) ∧ k.size ≤ 3 ∧
      (k.size = 3 ↔ 1 + (2 ^ m / 3 + 1) + m * (2 ^ m / 3 + 1) ≤ n)) ∨
    (p = .debug ∧ BasisIter.nth p (2 ^ m / 3 + 1) n (.new (2 ^ m / 3 + 1)) = .panic) := by
  rcases nth_thirds_stuck p m h3 h22 n with ⟨k, hk, h, h', _⟩ | h
  · exact .inl ⟨k, hk, h, h'⟩
  · exact .inr h

/-- C07, for every alphabet of three or more letters: `iter_keys()` never produces a word of more than three letters, although `max_depth` may be 30. -/
theorem C07_never_past_degree_three (p : Profile) (N : Nat) (h3 : 3 ≤ N) (hN : N < 2 ^ 32) (n : Nat) :
    (∃ o, BasisIter.nth p N n (.new N) = .ok o ∧ ∀ k, o = some k → k.size ≤ 3) ∨ (p = .debug ∧ BasisIter.nth p N n (.new N) = .panic) := by
  by_cases hth : ∀ m, N ≠ 2 ^ m / 3 + 1
  · rcases C07_never_past_degree_two p N (by omega) hN hth n with ⟨k, hk, hs⟩ | h
    · exact .inl ⟨_, hk, fun k' e => by cases e; omega⟩
    · exact .inr h
  · obtain ⟨m, hm⟩ : ∃ m, N = 2 ^ m / 3 + 1 := by
      by_contra hc
      exact hth fun m h => hc ⟨m, h⟩
    have hm3 : 3 ≤ m := by
      by_contra hc
      have : 2 ^ m ≤ 2 ^ 2 := Nat.pow_le_pow_right (by omega) (by omega)
      omega
    have hm33 : m ≤ 33 := by
      by_contra hc
      have : 2 ^ 34 ≤ 2 ^ m := Nat.pow_le_pow_right (by omega) (by omega)
      omega
    subst hm
    rcases Nat.lt_or_ge m 23 with h | h
    · rcases C07_thirds_stuck p m hm3 (by omega) n with ⟨k, hk, hs, _⟩ | h
      · exact .inl ⟨_, hk, fun k' e => by cases e; omega⟩
      · exact .inr h
    · left
      obtain ⟨hlow, hch⟩ := third_chain p m hm3 hm33
      obtain ⟨ha, hb⟩ := C07_thirds_end p m h hm33 n
      rcases Nat.lt_or_ge n (1 + (2 ^ m / 3 + 1) + m * (2 ^ m / 3 + 1)) with hn | hn
      · obtain ⟨k, hk⟩ := ha hn
        refine ⟨_, hk, fun k' e => ?_⟩
        cases e
        rcases Nat.lt_or_ge n (2 ^ m / 3 + 1 + 1) with h1 | h1
        · obtain ⟨k', hk', hs⟩ := hlow n (by omega)
          rw [hk'] at hk
          cases hk
          omega
        · have e := hch (n - (2 ^ m / 3 + 1 + 1)) 0 (by omega)
          rw [show 2 ^ m / 3 + 1 + 1 + (n - (2 ^ m / 3 + 1 + 1) + 0) = n by omega, hk] at e
          rw [nth_zero_eq e.symm]
          show 2 ≤ 3
          omega
      · exact ⟨_, hb hn, fun k' e => by cases e⟩

/-- Three letters: 30 would be the longest word, three is the longest ever produced. -/
example : maxDepth 3 = 30 ∧ 3 = 2 ^ 3 / 3 + 1 := by decide +kernel

example := C07_thirds_stuck .release 3 (by omega) (by omega) 1000000000

example := (C07_thirds_end .debug 33 (by omega) (by omega) 100000000000).2 (by decide)

end RA
