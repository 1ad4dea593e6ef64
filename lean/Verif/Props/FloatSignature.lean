import Mathlib.Data.Nat.Choose.Cast
import Verif.Props.FloatExp
import Verif.Props.Signature

/-!
# Accuracy of signatures of paths of floating-point numbers (C90)
-/

namespace RA
open Spec TensorKey TensorBasis DenseAlg Series WordFn Fl

section
variable {F : FloatFmt} {p : Profile} {N : Nat}

theorem conv_le_valid (A g g' : List Nat → Rat) (w : List Nat) (hw : ValidWord N w) (hA : ∀ v, 0 ≤ A v) (h : ∀ v, ValidWord N v → v.length ≤ w.length → g v ≤ g' v) :
    conv A g w ≤ conv A g' w := by
  rw [conv_eq_sum, conv_eq_sum]
  refine List.sum_le_sum fun k _ => mul_le_mul_of_nonneg_left (h _ (fun l hl => hw l (List.mem_of_mem_drop hl)) (by simp)) (hA _)

theorem conv_const_left (c : Rat) (w : List Nat) : conv (fun _ => 1) (fun _ => c) w = (w.length + 1) * c := by
  rw [conv_eq_sum]
  simp

/-- The sums over the prefixes of the powers. -/
theorem prefix_pow (X : WordFn Rat) (n : Nat) (B : Rat) (hB : 0 ≤ B) (hS : ∀ v, ValidWord N v → v.length ≤ n → conv (fun w => |X w|) (fun _ => 1) v ≤ B) (k : Nat) (v : List Nat)
    (hv : ValidWord N v) (hl : v.length ≤ n) : conv (fun w => (absW X ^ k) w) (fun _ => 1) v ≤ B ^ k := by
  induction k generalizing v with
  | zero =>
    refine le_of_eq ?_
    rw [pow_zero, pow_zero]
    exact conv_unit_left (fun _ => 1) v
  | succ k ih =>
    have e : (fun w => (absW X ^ (k + 1)) w) = conv (fun w => |X w|) (fun w => (absW X ^ k) w) := by
      rw [pow_succ']
      rfl
    rw [e, conv_assoc, pow_succ]
    refine (conv_le_valid (fun w => |X w|) _ (fun _ => B ^ k * 1) v hv (fun u => abs_nonneg _) fun u hu hlu => ?_).trans ?_
    · rw [mul_one]
      exact ih u hu (by omega)
    · rw [conv_smul_right (B ^ k) (fun w => |X w|) (fun _ => 1)]
      exact mul_le_mul_of_nonneg_left (hS v hv hl) (pow_nonneg hB k)

/-- The sums over the prefixes of the exponential of the magnitudes. -/
theorem prefix_exp (X : WordFn Rat) (n : Nat) (B : Rat) (hB : 0 ≤ B) (hS : ∀ v, ValidWord N v → v.length ≤ n → conv (fun w => |X w|) (fun _ => 1) v ≤ B) (D : Nat) (v : List Nat)
    (hv : ValidWord N v) (hl : v.length ≤ n) : conv (fun w => expTo Rat D (absW X) w) (fun _ => 1) v ≤ expTo Rat D B := by
  have e : conv (fun w => expTo Rat D (absW X) w) (fun _ => 1) v = ∑ k ∈ Finset.range (D + 1), ((k.factorial : Rat)⁻¹) * conv (fun w => (absW X ^ k) w) (fun _ => 1) v := by
    set O : WordFn Rat := fun _ => 1
    have h1 : conv (fun w => expTo Rat D (absW X) w) (fun _ => 1) v = (expTo Rat D (absW X) * O) v := rfl
    rw [h1]
    unfold expTo
    rw [Finset.sum_mul, WordFn.sum_apply]
    refine Finset.sum_congr rfl fun k _ => ?_
    rw [smul_mul_assoc, WordFn.smul_apply]
    rfl
  rw [e]
  unfold expTo
  exact Finset.sum_le_sum fun k _ => mul_le_mul_of_nonneg_left (prefix_pow X n B hB hS k v hv hl) (by positivity)

theorem expTo_nonneg (D : Nat) (X : WordFn Rat) (w : List Nat) : 0 ≤ expTo Rat D (absW X) w := by
  rw [expTo_apply]
  exact Finset.sum_nonneg fun k _ => mul_nonneg (by positivity) (absPow_nonneg X k w)

/-- The exact signature of a list of tensors. -/
def sigW (D : Nat) (xs : List (WordFn Rat)) : WordFn Rat := (xs.map fun X => expTo Rat D X).prod

theorem sigW_nonneg (D : Nat) (xs : List (WordFn Rat)) (w : List Nat) : 0 ≤ sigW D (xs.map absW) w := by
  induction xs generalizing w with
  | nil =>
    show 0 ≤ (1 : WordFn Rat) w
    rw [WordFn.one_apply]
    split_ifs <;> norm_num
  | cons X xs ih =>
    have : sigW D ((X :: xs).map absW) w = conv (fun v => expTo Rat D (absW X) v) (fun v => sigW D (xs.map absW) v) w := rfl
    rw [this]
    exact (conv_mono (f' := fun v => expTo Rat D (absW X) v) (g' := fun v => sigW D (xs.map absW) v) w (fun u => ⟨expTo_nonneg D X u, le_refl _⟩) (fun u => ⟨ih u, le_refl _⟩)).1

/-- The bound of the sums with underflow. -/
def sigQ (A e : Rat) : Nat → Rat
  | 0 => 1
  | m + 1 => A * sigQ A e m + e

theorem sigQ_le (A e : Rat) (hA : 1 ≤ A) (he : 0 ≤ e) (m : Nat) : sigQ A e m ≤ A ^ m * (1 + m * e) := by
  induction m with
  | zero => simp [sigQ]
  | succ m ih =>
    have h1 := mul_le_mul_of_nonneg_left ih (by linarith : 0 ≤ A)
    have h3 : e ≤ A ^ (m + 1) * e := by
      have := mul_le_mul_of_nonneg_right (one_le_pow₀ (n := m + 1) hA) he
      linarith
    show A * sigQ A e m + e ≤ _
    push_cast
    rw [pow_succ'] at h3 ⊢
    linarith

theorem sigQ_ge (A b e : Rat) (hb : 0 ≤ b) (hA : b ≤ A) (he : 0 ≤ e) (m : Nat) : b ^ m ≤ sigQ A e m := by
  induction m with
  | zero => simp [sigQ]
  | succ m ih =>
    show _ ≤ A * sigQ A e m + e
    have := mul_le_mul hA ih (pow_nonneg hb m) (hb.trans hA)
    rw [pow_succ']
    linarith

theorem conv_nonneg_of {f g : List Nat → Rat} (w : List Nat) (hf : ∀ u, 0 ≤ f u) (hg : ∀ u, 0 ≤ g u) : 0 ≤ conv f g w :=
  (conv_mono (f' := f) (g' := g) w (fun u => ⟨hf u, le_refl _⟩) (fun u => ⟨hg u, le_refl _⟩)).1

def sigFn (D : Nat) (xs : List (WordFn Rat)) : List Nat → Rat := fun w => sigW D xs w

theorem sigFn_nil (D : Nat) : sigFn D [] = unitFn := rfl

theorem sigFn_cons (D : Nat) (X : WordFn Rat) (xs : List (WordFn Rat)) : sigFn D (X :: xs) = conv (fun v => expTo Rat D X v) (sigFn D xs) := rfl

/-- The exact signature of the magnitudes is bounded by the power of the bound of the exponentials. -/
theorem sigFn_le (n D : Nat) (B : Rat) (hB : 0 ≤ B) (xs : List (WordFn Rat))
    (hS : ∀ X ∈ xs, ∀ v, ValidWord N v → v.length ≤ n → conv (fun w => |X w|) (fun _ => 1) v ≤ B) (w : List Nat) (hw : ValidWord N w) (hl : w.length ≤ n) :
    sigFn D (xs.map absW) w ≤ expTo Rat D B ^ xs.length := by
  induction xs generalizing w with
  | nil =>
    rw [List.map_nil, sigFn_nil, List.length_nil, pow_zero]
    unfold unitFn
    split_ifs <;> norm_num
  | cons X xs ih =>
    have hb0 : 0 ≤ expTo Rat D B := Finset.sum_nonneg fun k _ => by
      have := pow_nonneg hB k
      rw [smul_eq_mul]
      positivity
    rw [List.map_cons, sigFn_cons, List.length_cons, pow_succ]
    refine (conv_le_valid (N := N) _ _ (fun _ => expTo Rat D B ^ xs.length * 1) w hw (fun v => expTo_nonneg D X v) fun v hv hlv => ?_).trans ?_
    · rw [mul_one]
      exact ih (fun X' hX' => hS X' (List.mem_cons_of_mem _ hX')) v hv (by omega)
    · rw [conv_smul_right (expTo Rat D B ^ xs.length) (fun v => expTo Rat D (absW X) v) (fun _ => 1)]
      exact mul_le_mul_of_nonneg_left (prefix_exp X n B hB (hS X List.mem_cons_self) D w hw hl) (pow_nonneg hb0 _)

theorem conv_shift (E M : List Nat → Rat) (δ ε : Rat) (w : List Nat) :
    conv (fun v => E v + δ) (fun v => M v + ε) w = conv E M w + ε * conv E (fun _ => 1) w + δ * conv (fun _ => 1) (fun v => M v + ε) w := by
  rw [conv_add_left E (fun _ => δ) (fun v => M v + ε), conv_add_right E M (fun _ => ε)]
  have h1 := conv_smul_right ε E (fun _ => 1) w
  have h2 := conv_smul_left δ (fun _ => 1) (fun v => M v + ε) w
  rw [mul_one] at h1 h2
  rw [h1, h2]

/-- The bound of a product of two tensors known up to a power of `1 + u` and a constant. -/
theorem mul_bound_two (F : FloatFmt) (n K L : Nat) (E M : List Nat → Rat) (δ ε β Q : Rat) (w : List Nat) (hw : ValidWord N w) (hl : w.length ≤ n) (hδ : 0 ≤ δ) (hε : 0 ≤ ε)
    (hE : ∀ v, 0 ≤ E v) (hM : ∀ v, 0 ≤ M v) (hS : conv E (fun _ => 1) w ≤ β) (hQ : ∀ v, ValidWord N v → v.length ≤ n → M v + ε ≤ Q) :
    (1 + relErr F) ^ (w.length + 2) * conv (fun v => (1 + relErr F) ^ K * (E v + δ)) (fun v => (1 + relErr F) ^ L * (M v + ε)) w +
      ((w.length + 1 : Nat) : Rat) * (1 + relErr F) ^ (w.length + 1) * absErr F ≤
    (1 + relErr F) ^ (K + L + n + 2) * (conv E M w + (ε * β + (n + 1) * δ * Q + (n + 1) * absErr F)) := by
  have hu := relErr_pos F
  have hη := absErr_pos F
  have hpow : ∀ i j : Nat, i ≤ j → (1 + relErr F) ^ i ≤ (1 + relErr F) ^ j := fun i j h => pow_le_pow_right₀ (by linarith) h
  have hln : (w.length : Rat) ≤ n := by exact_mod_cast hl
  rw [conv_smul_left ((1 + relErr F) ^ K) (fun v => E v + δ), conv_smul_right ((1 + relErr F) ^ L) _ (fun v => M v + ε), conv_shift]
  have hQ0 : 0 ≤ Q := (add_nonneg (hM []) hε).trans (hQ [] valid_nil (by simp))
  have h1 : conv (fun _ => 1) (fun v => M v + ε) w ≤ (n + 1) * Q := by
    refine (conv_le_valid (N := N) (fun _ => 1) _ (fun _ => Q) w hw (fun _ => by norm_num) fun v hv hlv => hQ v hv (by omega)).trans ?_
    rw [conv_const_left]
    exact mul_le_mul_of_nonneg_right (by linarith) hQ0
  have h2 := mul_le_mul_of_nonneg_left h1 hδ
  have h3 := mul_le_mul_of_nonneg_left hS hε
  have c0 := conv_nonneg_of w hE hM
  have c1 := conv_nonneg_of w hE (g := fun _ => 1) (fun _ => by norm_num)
  have c2 := conv_nonneg_of w (f := fun _ => 1) (g := fun v => M v + ε) (fun _ => by norm_num) (fun v => add_nonneg (hM v) hε)
  set c := conv E M w
  have h4 : c + ε * conv E (fun _ => 1) w + δ * conv (fun _ => 1) (fun v => M v + ε) w ≤ c + (ε * β + (n + 1) * δ * Q) := by
    have : δ * ((n + 1) * Q) = (n + 1) * δ * Q := by ring
    linarith
  have h0 : 0 ≤ c + ε * conv E (fun _ => 1) w + δ * conv (fun _ => 1) (fun v => M v + ε) w := by positivity
  have a1 : (1 + relErr F) ^ (w.length + 2) * ((1 + relErr F) ^ K * ((1 + relErr F) ^ L * (c + ε * conv E (fun _ => 1) w + δ * conv (fun _ => 1) (fun v => M v + ε) w))) ≤
      (1 + relErr F) ^ (K + L + n + 2) * (c + (ε * β + (n + 1) * δ * Q)) := by
    rw [← mul_assoc, ← mul_assoc, ← pow_add, ← pow_add]
    exact mul_le_mul (hpow _ _ (by omega)) h4 h0 (by positivity)
  have a2 : ((w.length + 1 : Nat) : Rat) * (1 + relErr F) ^ (w.length + 1) * absErr F ≤ (1 + relErr F) ^ (K + L + n + 2) * ((n + 1) * absErr F) := by
    have b1 := mul_le_mul (show ((w.length + 1 : Nat) : Rat) ≤ (n : Rat) + 1 by push_cast; linarith) (hpow (w.length + 1) (K + L + n + 2) (by omega)) (by positivity) (by positivity)
    have b2 := mul_le_mul_of_nonneg_right b1 hη.le
    linarith
  linarith

theorem expTo_one_le (D : Nat) (B : Rat) (hB : 0 ≤ B) : (1 : Rat) ≤ expTo Rat D B := by
  unfold expTo
  rw [Finset.sum_range_succ']
  have : 0 ≤ ∑ k ∈ Finset.range D, (((k + 1).factorial : Rat)⁻¹) • B ^ (k + 1) := Finset.sum_nonneg fun k _ => by
    have := pow_nonneg hB (k + 1)
    rw [smul_eq_mul]
    positivity
  simpa using this

/-- The exponent of `1 + u` for each increment. -/
def sigK (D n : Nat) : Nat := D * (n + 4) + n + 2

/-- The factor of each increment in the bound of the sums with underflow. -/
def sigA (F : FloatFmt) (D n : Nat) (B : Rat) : Rat := expTo Rat D B * (1 + (n + 1) * (n + 2) * absErr F)

theorem sig_near (hF : F = .f32 ∨ F = .f64) (p : Profile) (h2 : 2 ≤ N) (hN : N < 2 ^ 32) (n D : Nat) (hn : n ≤ D) (hD : 1 ≤ D) (hp : N ^ (D + 1) < 2 ^ 64) (B : Rat) (hB : 0 ≤ B)
    (xs : List (Dense Fl)) (hx : ∀ x ∈ xs, (∃ d, 1 ≤ d ∧ FullTo N x d) ∧ (∀ y ∈ x.data, y.Valid F) ∧
      ∀ v, ValidWord N v → v.length ≤ n → conv (magFn F N x) (fun _ => 1) v ≤ B) :
    ∃ r dr, signature (floatCoeff F) p N D xs = .ok r ∧
      NearTo F N n r dr (sigFn D (xs.map (fval F N))) (sigFn D ((xs.map (fval F N)).map absW))
        (fun v => (1 + relErr F) ^ (xs.length * sigK D n) * (sigFn D ((xs.map (fval F N)).map absW) v +
          (sigQ (sigA F D n B) ((n + 1) * absErr F) xs.length - expTo Rat D B ^ xs.length))) ∧
      ((∀ x ∈ xs, FinTo F N n x) → (1 + relErr F) ^ (xs.length * sigK D n) * (D * sigQ (sigA F D n B) ((n + 1) * absErr F) xs.length) ≤ maxNum F → FinTo F N n r) := by
  have hu := relErr_pos F
  have hη := absErr_pos F
  have h1u : (1 : Rat) ≤ 1 + relErr F := by linarith
  have hone : ∀ k : Nat, (1 : Rat) ≤ (1 + relErr F) ^ k := fun k => one_le_pow₀ h1u
  have hpow : ∀ i j : Nat, i ≤ j → (1 + relErr F) ^ i ≤ (1 + relErr F) ^ j := fun i j h => pow_le_pow_right₀ h1u h
  have hβ := expTo_one_le D B hB
  set β := expTo Rat D B with hβdef
  have hA : β ≤ sigA F D n B := by
    unfold sigA
    rw [← hβdef]
    have : 0 ≤ β * ((n + 1) * (n + 2) * absErr F) := by positivity
    linarith
  set A := sigA F D n B with hAdef
  have hA2 : A = β + (n + 1) * ((n + 2) * absErr F * β) := by
    rw [hAdef, sigA, ← hβdef]
    ring
  have he : 0 ≤ ((n : Rat) + 1) * absErr F := by positivity
  induction xs with
  | nil =>
    obtain ⟨u, eu, nu, fu⟩ := near_unit (F := F) hF p h2 hN n
    refine ⟨u, 0, eu, ?_, fun _ _ => fu⟩
    rw [List.map_nil, List.map_nil, sigFn_nil, List.length_nil, Nat.zero_mul, pow_zero, pow_zero]
    refine nu.mono (fun w => ?_) (fun w _ _ => ?_)
    all_goals simp [sigQ]
  | cons x xs ih =>
    obtain ⟨⟨d, hd, hxd⟩, hxv, hxs⟩ := hx x List.mem_cons_self
    obtain ⟨g, dg, eg, ng, fg⟩ := ih fun x' hx' => hx x' (List.mem_cons_of_mem _ hx')
    obtain ⟨e, de, ee, ⟨hde, hde1⟩, ne, fe⟩ := expHorner_near hF p h2 hN n D hn hp x d hd hxd hxv B hB hxs D le_rfl
    rw [expPart_all] at ne
    have hE : ∀ X : WordFn Rat, expFn D D X = fun w => expTo Rat D X w := fun X => by
      funext w
      unfold expFn
      rw [expPart_all]
    rw [hE, hE, ← hβdef] at ne
    rw [← hβdef] at fe
    obtain ⟨r, er, nr, fr⟩ := near_mul (fmt_ok' hF) p h2 n D hn hp ne ng (by have := hde1 hD; omega)
    set m := xs.length with hm
    set Q := sigQ A ((n + 1) * absErr F) m with hQ
    set ε := Q - β ^ m with hε
    set δ := ((n : Rat) + 2) * absErr F * β with hδ
    have hQβ : β ^ m ≤ Q := sigQ_ge A β _ (by linarith) hA he m
    have hε0 : 0 ≤ ε := by linarith
    have hδ0 : 0 ≤ δ := by positivity
    set X := fval F N x with hX
    set Xs := xs.map (fval F N) with hXs
    have hlen : Xs.length = m := by simp [hXs, hm]
    have hsS : ∀ Y ∈ Xs, ∀ v, ValidWord N v → v.length ≤ n → conv (fun w => |Y w|) (fun _ => 1) v ≤ B := by
      intro Y hY v hv hl
      obtain ⟨y, hy, rfl⟩ := List.mem_map.1 hY
      exact (hx y (List.mem_cons_of_mem _ hy)).2.2 v hv hl
    have hM0 : ∀ v, 0 ≤ sigFn D (Xs.map absW) v := fun v => sigW_nonneg D Xs v
    have hMQ : ∀ v, ValidWord N v → v.length ≤ n → sigFn D (Xs.map absW) v + ε ≤ Q := by
      intro v hv hl
      have := sigFn_le n D B hB Xs hsS v hv hl
      rw [hlen, ← hβdef] at this
      linarith
    have hQs : sigQ A ((n + 1) * absErr F) (m + 1) = A * Q + (n + 1) * absErr F := rfl
    have hb : ∀ w, ValidWord N w → w.length ≤ n → _ := fun w hw hl =>
      mul_bound_two (N := N) F n (D * (n + 4)) (m * sigK D n) (fun v => expTo Rat D (absW X) v) (sigFn D (Xs.map absW)) δ ε β Q w hw hl hδ0 hε0 (fun v => expTo_nonneg D X v) hM0
        (prefix_exp X n B hB hxs D w hw hl) hMQ
    have hk : D * (n + 4) + m * sigK D n + n + 2 = (m + 1) * sigK D n := by
      unfold sigK
      ring
    have hδε : ε * β + (n + 1) * δ * Q + (n + 1) * absErr F = (sigQ A ((n + 1) * absErr F) (m + 1) - β ^ (m + 1)) := by
      rw [hQs, hA2, hε, pow_succ]
      ring
    rw [hk, hδε] at hb
    have hQ1 : β ^ (m + 1) ≤ sigQ A ((n + 1) * absErr F) (m + 1) := sigQ_ge A β _ (by linarith) hA he (m + 1)
    have hMc : ∀ v, 0 ≤ sigFn D ((X :: Xs).map absW) v := fun v => sigW_nonneg D (X :: Xs) v
    refine ⟨r, min D (de + dg), ?_, ?_, fun ff hr => ?_⟩
    · unfold signature tensorExp
      rw [ee, Res.bind_ok, eg, Res.bind_ok, er]
    · rw [List.map_cons, List.length_cons, List.map_cons, sigFn_cons, sigFn_cons]
      refine nr.mono (fun w => ?_) (fun w hw hl => hb w hw hl)
      have := hMc w
      rw [List.map_cons, sigFn_cons] at this
      have a4 := mul_le_mul_of_nonneg_right (hone ((m + 1) * sigK D n)) (add_nonneg this (sub_nonneg.2 hQ1))
      linarith
    · rw [List.length_cons] at hr
      have hD1 : (1 : Rat) ≤ D := by exact_mod_cast hD
      have hQ0 : 1 ≤ Q := (one_le_pow₀ hβ).trans hQβ
      have hA1 : 1 ≤ A := hβ.trans hA
      have hQ10 : 1 ≤ sigQ A ((n + 1) * absErr F) (m + 1) := (one_le_pow₀ hβ).trans hQ1
      have hQA : A * Q ≤ sigQ A ((n + 1) * absErr F) (m + 1) := by
        rw [hQs]
        linarith
      refine fr (fe (ff x List.mem_cons_self) fun w hw hl => ?_) (fg (fun x' hx' => ff x' (List.mem_cons_of_mem _ hx')) ?_) fun w hw hl => ?_
      · have c1 : expTo Rat D (absW X) w ≤ β := by
          have := sigFn_le (N := N) n D B hB [X] (fun Y hY => by rw [List.mem_singleton.1 hY]; exact hxs) w hw hl
          rw [List.map_cons, sigFn_cons, List.length_singleton, pow_one, List.map_nil, sigFn_nil, conv_unit_right] at this
          exact this
        have c2 : expTo Rat D (absW X) w + δ ≤ sigQ A ((n + 1) * absErr F) (m + 1) := by
          have q0 : 0 ≤ (n : Rat) * δ := by positivity
          have := mul_le_mul_of_nonneg_left hQ0 (by linarith : 0 ≤ A)
          linarith
        refine le_trans ?_ hr
        refine mul_le_mul (hpow _ _ ?_) (mul_le_mul_of_nonneg_left c2 (by linarith)) (mul_nonneg (by linarith) (add_nonneg (expTo_nonneg D X w) hδ0)) (by positivity)
        unfold sigK
        nlinarith
      · refine le_trans ?_ hr
        have c2 : Q ≤ sigQ A ((n + 1) * absErr F) (m + 1) := by
          have := mul_le_mul_of_nonneg_right hA1 (by linarith : 0 ≤ Q)
          linarith
        refine mul_le_mul (hpow _ _ ?_) (mul_le_mul_of_nonneg_left c2 (by linarith)) (mul_nonneg (by linarith) (by linarith)) (by positivity)
        exact Nat.mul_le_mul_right _ (by omega)
      · refine (hb w hw hl).trans (le_trans ?_ hr)
        refine mul_le_mul_of_nonneg_left ?_ (by positivity)
        have c1 := sigFn_le (N := N) n D B hB (X :: Xs) (fun Y hY => by
          rcases List.mem_cons.1 hY with rfl | h
          · exact hxs
          · exact hsS Y h) w hw hl
        rw [List.map_cons, sigFn_cons, List.length_cons, hlen, ← hβdef] at c1
        have c2 := mul_le_mul_of_nonneg_right hD1 (by linarith : 0 ≤ sigQ A ((n + 1) * absErr F) (m + 1))
        linarith

variable (F p N)

/-- C90.  The signature of a list of tensors, the product of their exponentials up to degree `D`, computed in floating point: it returns, and every finite coefficient is
within a relative error, of the signature of the magnitudes, and an underflow term of the exact signature of the values stored. -/
theorem C90_signature_accuracy (hF : F = .f32 ∨ F = .f64) (h2 : 2 ≤ N) (hN : N < 2 ^ 32) (D : Nat) (hD : 1 ≤ D) (hp : N ^ (D + 1) < 2 ^ 64) (xs : List (Dense Fl))
    (hx : ∀ x ∈ xs, (∃ d, 1 ≤ d ∧ FullTo N x d) ∧ ∀ y ∈ x.data, y.Valid F) :
    ∃ r, signature (floatCoeff F) p N D xs = .ok r ∧ ∀ w, ValidWord N w → w.length ≤ D → (coef (floatCoeff F) N r w).isFin = true →
      ∀ B : Rat, 0 ≤ B → (∀ x ∈ xs, ∀ v, ValidWord N v → v.length ≤ w.length → ∑ k ∈ Finset.range (v.length + 1), |fval F N x (v.take k)| ≤ B) →
      |(coef (floatCoeff F) N r w).val - (xs.map fun x => ∑ k ∈ Finset.range (D + 1), ((k.factorial : Rat)⁻¹) • fval F N x ^ k).prod w| ≤
        ((1 + relErr F) ^ (xs.length * (D * (w.length + 4) + w.length + 2)) - 1) *
          (xs.map fun x => ∑ k ∈ Finset.range (D + 1), ((k.factorial : Rat)⁻¹) • absW (fval F N x) ^ k).prod w +
        (1 + relErr F) ^ (xs.length * (D * (w.length + 4) + w.length + 2)) * ((∑ k ∈ Finset.range (D + 1), ((k.factorial : Rat)⁻¹) * B ^ k) ^ xs.length *
          ((1 + (w.length + 1) * (w.length + 2) * absErr F) ^ xs.length * (1 + xs.length * ((w.length + 1) * absErr F)) - 1)) := by
  have key : ∀ w : List Nat, w.length ≤ D → ∀ B : Rat, 0 ≤ B →
      (∀ x ∈ xs, ∀ v, ValidWord N v → v.length ≤ w.length → ∑ k ∈ Finset.range (v.length + 1), |fval F N x (v.take k)| ≤ B) → _ := fun w hl B hB hS =>
    sig_near hF p h2 hN w.length D hl hD hp B hB xs fun x hxs => ⟨(hx x hxs).1, (hx x hxs).2, fun v hv hlv => (conv_prefix (fval F N x) v).le.trans (hS x hxs v hv hlv)⟩
  obtain ⟨r, _, er, _⟩ := key [] (Nat.zero_le _) ((xs.map fun x => |fval F N x []|).sum) (List.sum_nonneg fun y hy => by
      obtain ⟨x, _, rfl⟩ := List.mem_map.1 hy
      exact abs_nonneg _) (fun x hxs v _ hlv => by
    rw [List.length_eq_zero_iff.1 (Nat.le_zero.1 hlv)]
    refine le_trans (by simp) (List.single_le_sum (l := xs.map fun x => |fval F N x []|) (fun y hy => ?_) _ (List.mem_map.2 ⟨x, hxs, rfl⟩))
    obtain ⟨x', _, rfl⟩ := List.mem_map.1 hy
    exact abs_nonneg _)
  refine ⟨r, er, fun w hw hl hf B hB hS => ?_⟩
  obtain ⟨r', _, er', nr, _⟩ := key w hl B hB hS
  cases er'.symm.trans er
  have h := nr.err w hw le_rfl hf
  have e1 : sigFn D (xs.map (fval F N)) w = (xs.map fun x => ∑ k ∈ Finset.range (D + 1), ((k.factorial : Rat)⁻¹) • fval F N x ^ k).prod w := by
    unfold sigFn sigW
    rw [List.map_map]
    rfl
  have e2 : sigFn D ((xs.map (fval F N)).map absW) w = (xs.map fun x => ∑ k ∈ Finset.range (D + 1), ((k.factorial : Rat)⁻¹) • absW (fval F N x) ^ k).prod w := by
    unfold sigFn sigW
    rw [List.map_map, List.map_map]
    rfl
  rw [e1, e2] at h
  refine h.trans ?_
  have hη := absErr_pos F
  have hβ := expTo_one_le D B hB
  have hA : 1 ≤ sigA F D w.length B := by
    unfold sigA
    have : 0 ≤ ((w.length : Rat) + 1) * (w.length + 2) * absErr F := by positivity
    have := mul_le_mul hβ (show (1 : Rat) ≤ 1 + (w.length + 1) * (w.length + 2) * absErr F by linarith) (by norm_num) (by linarith)
    linarith
  have hq := sigQ_le (sigA F D w.length B) ((w.length + 1) * absErr F) hA (by positivity) xs.length
  have hA2 : sigA F D w.length B ^ xs.length = expTo Rat D B ^ xs.length * (1 + (w.length + 1) * (w.length + 2) * absErr F) ^ xs.length := by
    unfold sigA
    rw [mul_pow]
  rw [hA2] at hq
  rw [show (∑ k ∈ Finset.range (D + 1), ((k.factorial : Rat)⁻¹) * B ^ k) = expTo Rat D B from rfl]
  have hu := relErr_pos F
  have hm := mul_le_mul_of_nonneg_left hq (show 0 ≤ (1 + relErr F) ^ (xs.length * sigK D w.length) by positivity)
  unfold sigK at hm ⊢
  linarith

/-- C90.  The signature does not overflow when there is room for `D` times the bound of the products of the exponentials. -/
theorem C90_signature_finite (hF : F = .f32 ∨ F = .f64) (h2 : 2 ≤ N) (hN : N < 2 ^ 32) (D : Nat) (hD : 1 ≤ D) (hp : N ^ (D + 1) < 2 ^ 64) (xs : List (Dense Fl))
    (hx : ∀ x ∈ xs, (∃ d, 1 ≤ d ∧ FullTo N x d) ∧ ∀ y ∈ x.data, y.Valid F) (hfin : ∀ x ∈ xs, ∀ y ∈ x.data, y.isFin = true) (B : Rat) (hB : 0 ≤ B)
    (hS : ∀ x ∈ xs, ∀ v, ValidWord N v → v.length ≤ D → ∑ k ∈ Finset.range (v.length + 1), |fval F N x (v.take k)| ≤ B)
    (hroom : (1 + relErr F) ^ (xs.length * (D * (D + 4) + D + 2)) * (D * ((∑ k ∈ Finset.range (D + 1), ((k.factorial : Rat)⁻¹) * B ^ k) ^ xs.length *
      ((1 + (D + 1) * (D + 2) * absErr F) ^ xs.length * (1 + xs.length * ((D + 1) * absErr F))))) ≤ maxNum F) :
    ∃ r, signature (floatCoeff F) p N D xs = .ok r ∧ ∀ w, ValidWord N w → w.length ≤ D → (coef (floatCoeff F) N r w).isFin = true := by
  obtain ⟨r, _, er, _, fr⟩ := sig_near hF p h2 hN D D le_rfl hD hp B hB xs fun x hxs => ⟨(hx x hxs).1, (hx x hxs).2, fun v hv hlv =>
    (conv_prefix (fval F N x) v).le.trans (hS x hxs v hv hlv)⟩
  refine ⟨r, er, fun w hw hl => fr (fun x hxs => finTo_of D x (hfin x hxs)) (le_trans ?_ hroom) w hw hl⟩
  have hη := absErr_pos F
  have hβ := expTo_one_le D B hB
  have hu := relErr_pos F
  have hA : 1 ≤ sigA F D D B := by
    unfold sigA
    have : 0 ≤ ((D : Rat) + 1) * (D + 2) * absErr F := by positivity
    have := mul_le_mul hβ (show (1 : Rat) ≤ 1 + (D + 1) * (D + 2) * absErr F by linarith) (by norm_num) (by linarith)
    linarith
  have hq := sigQ_le (sigA F D D B) ((D + 1) * absErr F) hA (by positivity) xs.length
  have hA2 : sigA F D D B ^ xs.length = expTo Rat D B ^ xs.length * (1 + (D + 1) * (D + 2) * absErr F) ^ xs.length := by
    unfold sigA
    rw [mul_pow]
  rw [hA2, mul_assoc] at hq
  exact mul_le_mul_of_nonneg_left (mul_le_mul_of_nonneg_left hq (by positivity)) (by positivity)

variable {F p N} in
/-- The signature of a path of letters decays factorially. -/
theorem sigFn_decay (D : Nat) (B : Rat) (hB : 0 ≤ B) (Xs : List (WordFn Rat)) (hX : ∀ X ∈ Xs, (∀ w : List Nat, w.length ≠ 1 → X w = 0) ∧ ∀ l, 1 ≤ l → l ≤ N → |X [l]| ≤ B)
    (w : List Nat) (hw : ValidWord N w) (hl : w.length ≤ D) : sigFn D (Xs.map absW) w ≤ (Xs.length * B) ^ w.length / w.length.factorial := by
  induction Xs generalizing w with
  | nil =>
    rw [List.map_nil, sigFn_nil, List.length_nil]
    unfold unitFn
    split_ifs with h
    · subst h
      simp
    · have : w.length ≠ 0 := fun h' => h (List.length_eq_zero_iff.1 h')
      simp [this]
  | cons X Xs ih =>
    obtain ⟨h1, h3⟩ := hX X List.mem_cons_self
    rw [List.map_cons, sigFn_cons, conv_eq_sum, List.length_cons]
    have hb : ((Xs.length + 1 : Nat) * B) ^ w.length / w.length.factorial =
        ((List.range (w.length + 1)).map fun k => (B ^ k / k.factorial) * ((Xs.length * B) ^ (w.length - k) / (w.length - k).factorial)).sum := by
      have e1 : ((Xs.length + 1 : Nat) : Rat) * B = B + Xs.length * B := by push_cast; ring
      have e2 : ((List.range (w.length + 1)).map fun k => (B ^ k / k.factorial) * ((Xs.length * B) ^ (w.length - k) / (w.length - k).factorial)).sum =
        ∑ k ∈ Finset.range (w.length + 1), (B ^ k / k.factorial) * ((Xs.length * B) ^ (w.length - k) / (w.length - k).factorial) := rfl
      rw [e1, add_pow, e2, div_eq_mul_inv, Finset.sum_mul]
      refine Finset.sum_congr rfl fun k hk => ?_
      have hk' : k ≤ w.length := by
        have := Finset.mem_range.1 hk
        omega
      rw [Nat.cast_choose Rat hk']
      have a1 : (w.length.factorial : Rat) ≠ 0 := by exact_mod_cast w.length.factorial_ne_zero
      have a2 : (k.factorial : Rat) ≠ 0 := by exact_mod_cast k.factorial_ne_zero
      have a3 : ((w.length - k).factorial : Rat) ≠ 0 := by exact_mod_cast (w.length - k).factorial_ne_zero
      field_simp
    rw [hb]
    refine List.sum_le_sum fun k hk => ?_
    rw [List.mem_range] at hk
    have hvt : ValidWord N (w.take k) := fun l hl => hw l (List.mem_of_mem_take hl)
    have hvd : ValidWord N (w.drop k) := fun l hl => hw l (List.mem_of_mem_drop hl)
    have g1 := ih (fun X' hX' => hX X' (List.mem_cons_of_mem _ hX')) (w.drop k) hvd (by rw [List.length_drop]; omega)
    rw [List.length_drop] at g1
    have g2 : expTo Rat D (absW X) (w.take k) ≤ B ^ k / k.factorial := by
      have e := exp_linear_apply D _ (abs_linear _ h1) (w.take k) (by rw [List.length_take]; omega)
      have e' : expTo Rat D (absW X) (w.take k) = (∑ k ∈ Finset.range (D + 1), ((k.factorial : Rat)⁻¹) • absW X ^ k) (w.take k) := rfl
      rw [e', e, prod_abs]
      have hlk : (w.take k).length = k := by rw [List.length_take]; omega
      have := linear_bound (w.take k) X B fun l hl => h3 l (hvt l hl).1 (hvt l hl).2
      rw [hlk] at this ⊢
      exact div_le_div_of_nonneg_right this (by positivity)
    exact mul_le_mul g2 g1 (sigW_nonneg D Xs _) (by positivity)

/-- C90.  The signature of a path whose increments are combinations of letters with coefficients of at most `B`: the error at a word of length `n` is a relative error
of `(m B)^n / n!`, `m` the number of increments, and an underflow term. -/
theorem C90_signature_linear (hF : F = .f32 ∨ F = .f64) (h2 : 2 ≤ N) (hN : N < 2 ^ 32) (D : Nat) (hD : 1 ≤ D) (hp : N ^ (D + 1) < 2 ^ 64) (xs : List (Dense Fl)) (B : Rat) (hB : 0 ≤ B)
    (hx : ∀ x ∈ xs, FullTo N x 1 ∧ (∀ y ∈ x.data, y.Valid F) ∧ (coef (floatCoeff F) N x []).val = 0 ∧ ∀ l, 1 ≤ l → l ≤ N → |(coef (floatCoeff F) N x [l]).val| ≤ B) :
    ∃ r, signature (floatCoeff F) p N D xs = .ok r ∧ ∀ w, ValidWord N w → w.length ≤ D → (coef (floatCoeff F) N r w).isFin = true →
      |(coef (floatCoeff F) N r w).val - (xs.map fun x => ∑ k ∈ Finset.range (D + 1), ((k.factorial : Rat)⁻¹) • fval F N x ^ k).prod w| ≤
        ((1 + relErr F) ^ (xs.length * (D * (w.length + 4) + w.length + 2)) - 1) * ((xs.length * B) ^ w.length / w.length.factorial) +
        (1 + relErr F) ^ (xs.length * (D * (w.length + 4) + w.length + 2)) * ((∑ k ∈ Finset.range (D + 1), ((k.factorial : Rat)⁻¹) * B ^ k) ^ xs.length *
          ((1 + (w.length + 1) * (w.length + 2) * absErr F) ^ xs.length * (1 + xs.length * ((w.length + 1) * absErr F)) - 1)) := by
  have hu := relErr_pos F
  have hlin : ∀ x ∈ xs, (∀ w : List Nat, w.length ≠ 1 → fval F N x w = 0) ∧ ∀ l, 1 ≤ l → l ≤ N → |fval F N x [l]| ≤ B := by
    intro x hxs
    obtain ⟨g1, g2, g3, g4⟩ := hx x hxs
    refine ⟨fval_linear F N x g1 g3, fun l h1 h3 => ?_⟩
    rw [fval_word x [l] (by intro m hm; rw [List.mem_singleton] at hm; rw [hm]; exact ⟨h1, h3⟩)]
    exact g4 l h1 h3
  obtain ⟨r, er, h⟩ := C90_signature_accuracy F p N hF h2 hN D hD hp xs fun x hxs => ⟨⟨1, le_rfl, (hx x hxs).1⟩, (hx x hxs).2.1⟩
  refine ⟨r, er, fun w hw hl hf => (h w hw hl hf B hB fun x hxs v hv _ => prefix_linear N _ (hlin x hxs).1 B hB (hlin x hxs).2 v hv).trans ?_⟩
  have e2 : sigFn D ((xs.map (fval F N)).map absW) w = (xs.map fun x => ∑ k ∈ Finset.range (D + 1), ((k.factorial : Rat)⁻¹) • absW (fval F N x) ^ k).prod w := by
    unfold sigFn sigW
    rw [List.map_map, List.map_map]
    rfl
  have hd := sigFn_decay D B hB (xs.map (fval F N)) (fun X hX => by
    obtain ⟨x, hxs, rfl⟩ := List.mem_map.1 hX
    exact hlin x hxs) w hw hl
  rw [e2, List.length_map] at hd
  have h1 : (1 : Rat) ≤ (1 + relErr F) ^ (xs.length * (D * (w.length + 4) + w.length + 2)) := one_le_pow₀ (by linarith)
  have := mul_le_mul_of_nonneg_left hd (sub_nonneg.2 h1)
  linarith

/-- C90.  The signature of a path whose increments are combinations of letters with coefficients of at most `B` does not overflow when there is room. -/
theorem C90_signature_linear_finite (hF : F = .f32 ∨ F = .f64) (h2 : 2 ≤ N) (hN : N < 2 ^ 32) (D : Nat) (hD : 1 ≤ D) (hp : N ^ (D + 1) < 2 ^ 64) (xs : List (Dense Fl)) (B : Rat) (hB : 0 ≤ B)
    (hx : ∀ x ∈ xs, FullTo N x 1 ∧ (∀ y ∈ x.data, y.Valid F) ∧ (coef (floatCoeff F) N x []).val = 0 ∧ ∀ l, 1 ≤ l → l ≤ N → |(coef (floatCoeff F) N x [l]).val| ≤ B)
    (hfin : ∀ x ∈ xs, ∀ y ∈ x.data, y.isFin = true)
    (hroom : (1 + relErr F) ^ (xs.length * (D * (D + 4) + D + 2)) * (D * ((∑ k ∈ Finset.range (D + 1), ((k.factorial : Rat)⁻¹) * B ^ k) ^ xs.length *
      ((1 + (D + 1) * (D + 2) * absErr F) ^ xs.length * (1 + xs.length * ((D + 1) * absErr F))))) ≤ maxNum F) :
    ∃ r, signature (floatCoeff F) p N D xs = .ok r ∧ ∀ w, ValidWord N w → w.length ≤ D → (coef (floatCoeff F) N r w).isFin = true := by
  refine C90_signature_finite F p N hF h2 hN D hD hp xs (fun x hxs => ⟨⟨1, le_rfl, (hx x hxs).1⟩, (hx x hxs).2.1⟩) hfin B hB (fun x hxs v hv _ => ?_) hroom
  obtain ⟨g1, g2, g3, g4⟩ := hx x hxs
  refine prefix_linear N _ (fval_linear F N x g1 g3) B hB (fun l h1 h3 => ?_) v hv
  rw [fval_word x [l] (by intro m hm; rw [List.mem_singleton] at hm; rw [hm]; exact ⟨h1, h3⟩)]
  exact g4 l h1 h3

end

/-! ## Concrete cases -/

/-- The increment `2 e_1 + 5 e_2`. -/
def exInc2 : Dense Fl := .ofVec [.zero false, .fin 2, .fin 5]

theorem exInc2_ok : FullTo 2 exInc2 1 ∧ (∀ y ∈ exInc2.data, y.Valid .f32) ∧ (∀ y ∈ exInc2.data, y.isFin = true) ∧ (coef (floatCoeff .f32) 2 exInc2 []).val = 0 ∧
    ∀ l, 1 ≤ l → l ≤ 2 → |(coef (floatCoeff .f32) 2 exInc2 [l]).val| ≤ 7 := by
  refine ⟨⟨rfl, by decide⟩, ?_, ?_, rfl, ?_⟩
  · intro y hy
    simp only [exInc2, Dense.ofVec, List.mem_cons, List.not_mem_nil, or_false] at hy
    rcases hy with rfl | rfl | rfl
    · trivial
    · exact ⟨by norm_num, 2, 0, by decide, by decide, by decide, by norm_num⟩
    · exact ⟨by norm_num, 5, 0, by decide, by decide, by decide, by norm_num⟩
  · intro y hy
    simp only [exInc2, Dense.ofVec, List.mem_cons, List.not_mem_nil, or_false] at hy
    rcases hy with rfl | rfl | rfl <;> rfl
  · intro l h1 h2
    obtain rfl | rfl : l = 1 ∨ l = 2 := by omega
    · norm_num [coef, stored, exInc2, Dense.ofVec, wordIndex, Fl.val, geomSum]
    · norm_num [coef, stored, exInc2, Dense.ofVec, wordIndex, Fl.val, geomSum]

/-- The exact signature of the two increments at `12`: `3 * (-7) / 2 + 3 * 5 + 2 * 5 / 2`. -/
theorem exSig_val : ([exInc, exInc2].map fun x => ∑ k ∈ Finset.range 3, ((k.factorial : Rat)⁻¹) • fval .f32 2 x ^ k).prod [1, 2] = 19 / 2 := by
  obtain ⟨e1, _, _, e4, _⟩ := exInc_ok
  obtain ⟨f1, _, _, f4, _⟩ := exInc2_ok
  have v1 : ValidWord 2 [1] := by decide
  have v2 : ValidWord 2 [2] := by decide
  have a1 : fval .f32 2 exInc [1] = 3 ∧ fval .f32 2 exInc [2] = -7 := by
    rw [fval_word exInc [1] v1, fval_word exInc [2] v2]
    norm_num [coef, stored, exInc, Dense.ofVec, wordIndex, Fl.val, geomSum]
  have a2 : fval .f32 2 exInc2 [1] = 2 ∧ fval .f32 2 exInc2 [2] = 5 := by
    rw [fval_word exInc2 [1] v1, fval_word exInc2 [2] v2]
    norm_num [coef, stored, exInc2, Dense.ofVec, wordIndex, Fl.val, geomSum]
  have h1 := fun w hl => exp_linear_apply 2 (fval .f32 2 exInc) (fval_linear .f32 2 exInc e1 e4) w hl
  have h2 := fun w hl => exp_linear_apply 2 (fval .f32 2 exInc2) (fval_linear .f32 2 exInc2 f1 f4) w hl
  rw [List.map_cons, List.map_cons, List.map_nil, List.prod_cons, List.prod_cons, List.prod_nil, mul_one]
  show conv (fun v => (∑ k ∈ Finset.range 3, ((k.factorial : Rat)⁻¹) • fval .f32 2 exInc ^ k) v) (fun v => (∑ k ∈ Finset.range 3, ((k.factorial : Rat)⁻¹) • fval .f32 2 exInc2 ^ k) v)
    [1, 2] = 19 / 2
  rw [conv_eq_sum, show List.range ([1, 2].length + 1) = [0, 1, 2] from rfl]
  simp only [List.map_cons, List.map_nil, List.sum_cons, List.sum_nil, List.take_zero, List.drop_zero, List.take_succ_cons, List.drop_succ_cons]
  rw [h1 [] (by simp), h1 [1] (by simp), h1 [1, 2] (by simp), h2 [] (by simp), h2 [2] (by simp), h2 [1, 2] (by simp)]
  simp only [List.map_cons, List.map_nil, List.prod_cons, List.prod_nil, a1.1, a1.2, a2.1, a2.2]
  norm_num [Nat.factorial]

/-- C90 on the path with the increments `3 e_1 - 7 e_2` and `2 e_1 + 5 e_2` in `f32` up to degree two: the coefficient at `12` is finite and within `2e-4` of `19/2`. -/
example : ∃ r, signature (floatCoeff .f32) .debug 2 2 [exInc, exInc2] = .ok r ∧ (coef (floatCoeff .f32) 2 r [1, 2]).isFin = true ∧
    |(coef (floatCoeff .f32) 2 r [1, 2]).val - 19 / 2| ≤ 2 / 10000 := by
  obtain ⟨e1, e2, e3, e4, e5⟩ := exInc_ok
  obtain ⟨f1, f2, f3, f4, f5⟩ := exInc2_ok
  have hx : ∀ x ∈ [exInc, exInc2], FullTo 2 x 1 ∧ (∀ y ∈ x.data, y.Valid .f32) ∧ (coef (floatCoeff .f32) 2 x []).val = 0 ∧
      ∀ l, 1 ≤ l → l ≤ 2 → |(coef (floatCoeff .f32) 2 x [l]).val| ≤ 7 := by
    intro x hx
    simp only [List.mem_cons, List.not_mem_nil, or_false] at hx
    rcases hx with rfl | rfl
    · exact ⟨e1, e2, e4, e5⟩
    · exact ⟨f1, f2, f4, f5⟩
  have hf : ∀ x ∈ [exInc, exInc2], ∀ y ∈ x.data, y.isFin = true := by
    intro x hx
    simp only [List.mem_cons, List.not_mem_nil, or_false] at hx
    rcases hx with rfl | rfl
    · exact e3
    · exact f3
  obtain ⟨r, er, h⟩ := C90_signature_linear .f32 .debug 2 (.inl rfl) (by omega) (by omega) 2 (by omega) (by decide) [exInc, exInc2] 7 (by norm_num) hx
  obtain ⟨r', er', h'⟩ := C90_signature_linear_finite .f32 .debug 2 (.inl rfl) (by omega) (by omega) 2 (by omega) (by decide) [exInc, exInc2] 7 (by norm_num) hx hf (by
    rw [ex_errs.1, ex_errs.2]
    norm_num [maxNum, FloatFmt.f32, Finset.sum_range_succ, Nat.factorial])
  cases er'.symm.trans er
  have hw : ValidWord 2 [1, 2] := by decide
  refine ⟨r, er, h' _ hw (by decide), ?_⟩
  have := h [1, 2] hw (by decide) (h' _ hw (by decide))
  rw [exSig_val, ex_errs.1, ex_errs.2] at this
  refine this.trans ?_
  norm_num [Finset.sum_range_succ, Nat.factorial]

end RA
