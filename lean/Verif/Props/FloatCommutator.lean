import Verif.Props.FloatAlgebra

/-!
# Commutators of tensors with floating-point coefficients (C76, C77)
-/

namespace RA
open Spec TensorKey TensorBasis DenseAlg Fl

/-! ## Negation -/

theorem neg_round (F : FloatFmt) (s : Bool) (q : Rat) : Fl.neg (Fl.round F s q) = Fl.round F (!s) (-q) := by
  unfold Fl.round
  by_cases h0 : q = 0
  · subst h0
    rw [if_pos rfl, neg_zero, if_pos rfl]
    rfl
  · rw [if_neg h0, if_neg (neg_ne_zero.2 h0)]
    simp only [abs_neg, Left.neg_neg_iff]
    rcases lt_or_gt_of_ne h0 with h | h
    · rw [decide_eq_true h, decide_eq_false (not_lt.2 h.le), if_pos h, if_neg (not_lt.2 h.le)]
      split_ifs <;> simp [Fl.neg]
    · rw [decide_eq_true h, decide_eq_false (not_lt.2 h.le), if_neg (not_lt.2 h.le), if_pos h]
      split_ifs <;> simp [Fl.neg]

theorem neg_val (x : Fl) : (Fl.neg x).val = -x.val := by cases x <;> simp [Fl.neg, Fl.val]

theorem neg_isFin (x : Fl) : (Fl.neg x).isFin = x.isFin := by cases x <;> rfl

theorem neg_sign (F : FloatFmt) (x : Fl) (hx : x.Valid F) (hn : x ≠ .nan) : (Fl.neg x).sign = !x.sign := by
  cases x with
  | nan => exact absurd rfl hn
  | inf s => rfl
  | zero s => rfl
  | fin q =>
    have h0 : q ≠ 0 := hx.1
    show decide (-q < 0) = !decide (q < 0)
    rcases lt_or_gt_of_ne h0 with h | h
    · simp [h, h.le]
    · simp [h, h.le]

theorem neg_mul_left (F : FloatFmt) (x y : Fl) (hx : x.Valid F) (hy : y.Valid F) : Fl.neg (Fl.mul F x y) = Fl.mul F (Fl.neg x) y := by
  by_cases hn : x = .nan
  · subst hn; rfl
  have hs := neg_sign F x hx hn
  by_cases hfx : x.isFin = true
  · by_cases hfy : y.isFin = true
    · rw [mul_round F x y hfx hfy, mul_round F _ y (by rw [neg_isFin]; exact hfx) hfy, neg_round, hs, neg_val, neg_mul]
      congr 1
      cases x.sign <;> cases y.sign <;> rfl
    · cases x <;> cases y <;> first | (exact absurd rfl hfy) | (cases hfx; done) | rfl | skip
      rename_i q t
      show Fl.inf (!(xor (Fl.fin q).sign t)) = Fl.inf (xor (Fl.neg (.fin q)).sign t)
      rw [hs]
      cases (Fl.fin q).sign <;> cases t <;> rfl
  · cases x with
    | nan => exact absurd rfl hn
    | zero s => exact absurd rfl hfx
    | fin q => exact absurd rfl hfx
    | inf s =>
      cases y with
      | nan => rfl
      | zero t => rfl
      | inf t => cases s <;> cases t <;> rfl
      | fin q =>
        show Fl.inf (!(xor s (Fl.fin q).sign)) = Fl.inf (xor (!s) (Fl.fin q).sign)
        cases s <;> cases (Fl.fin q).sign <;> rfl

/-- Pairs with the first entry negated. -/
def negPairs (l : List (Fl × Fl)) : List (Fl × Fl) := l.map fun e => (Fl.neg e.1, e.2)

theorem exactSum_append (l m : List (Fl × Fl)) : exactSum (l ++ negPairs m) = exactSum l - exactSum m := by
  unfold exactSum negPairs
  rw [List.map_append, List.sum_append, List.map_map]
  have : ∀ m : List (Fl × Fl), (List.map ((fun e : Fl × Fl => e.1.val * e.2.val) ∘ fun e => (Fl.neg e.1, e.2)) m).sum =
      -(m.map fun e => e.1.val * e.2.val).sum := by
    intro m
    induction m with
    | nil => simp
    | cons e m ih =>
      rw [List.map_cons, List.sum_cons, List.map_cons, List.sum_cons, ih]
      show (Fl.neg e.1).val * e.2.val + _ = _
      rw [neg_val]
      ring
  rw [this, sub_eq_add_neg]

theorem magSum_append (l m : List (Fl × Fl)) : magSum (l ++ negPairs m) = magSum l + magSum m := by
  unfold magSum negPairs
  rw [List.map_append, List.sum_append, List.map_map]
  congr 2
  apply List.map_congr_left
  intro e _
  show |(Fl.neg e.1).val| * |e.2.val| = _
  rw [neg_val, abs_neg]

/-! ## Commutators -/

section
variable (F : FloatFmt) (p : Profile) (N : Nat)

theorem comm_coef (h2 : 2 ≤ N) (a b : Dense Fl) (da db D : Nat) (ha : FullTo N a da) (hb : FullTo N b db) (hM : 1 ≤ min D (da + db))
    (hp : N ^ (min D (da + db) + 1) < 2 ^ 64) (hva : ∀ x ∈ a.data, x.Valid F) (hvb : ∀ x ∈ b.data, x.Valid F) :
    ∃ r, (DenseAlg.ops (floatCoeff F) p N).commutator (floatCoeff F) a b (some D) = .ok r ∧ FullTo N r (min D (da + db)) ∧
      ∀ w, ValidWord N w → w.length ≤ min D (da + db) → coef (floatCoeff F) N r w =
        flSum F (storedPairs (stored N a) (stored N b) w ++ negPairs (storedPairs (stored N b) (stored N a) w)) := by
  have hc : db + da = da + db := Nat.add_comm _ _
  obtain ⟨r1, e1, f1, g1⟩ := C33_multiply (floatCoeff F) p N h2 a b da db D (ha.hasDegree h2) (hb.hasDegree h2) hM hp
    ⟨by rw [ha.1]; exact geomSum_mono (by omega), by rw [hb.1]; exact geomSum_mono (by omega)⟩
  obtain ⟨r, e2, f2, g2⟩ := C36_sub_mul (floatCoeff F) p N h2 r1 b a _ db da D (f1.hasDegree h2) (hb.hasDegree h2) (ha.hasDegree h2)
    (by rw [hc]; exact hp) ⟨by rw [hb.1]; exact geomSum_mono (by omega), by rw [ha.1]; exact geomSum_mono (by omega)⟩ (Or.inr (by rw [f1.1, hc]))
  refine ⟨r, ?_, ⟨by rw [f2, f1.1, hc]; exact Nat.max_self _, hp⟩, fun w hw hl => ?_⟩
  · show (do
      let r ← (DenseAlg.ops (floatCoeff F) p N).multiply a b (some D)
      (DenseAlg.ops (floatCoeff F) p N).subMul (floatCoeff F) r b a (some D)) = _
    rw [e1]
    exact e2
  · unfold coef
    rw [g2 w hw, if_pos (by rw [hc]; exact hl), g1 w hw, if_pos hl, Option.getD_some, Option.getD_some, splitProducts_pairs, splitProducts_pairs]
    unfold flSum negPairs
    rw [List.map_append, List.foldl_append, List.map_map]
    have : (storedPairs (stored N b) (stored N a) w).map (fun e => (floatCoeff F).uminus ((floatCoeff F).mul e.1 e.2)) =
        (storedPairs (stored N b) (stored N a) w).map ((fun e : Fl × Fl => Fl.mul F e.1 e.2) ∘ fun e => (Fl.neg e.1, e.2)) := by
      apply List.map_congr_left
      intro e he
      obtain ⟨u, v, _, h1, h3⟩ := (mem_storedPairs _ _ _ _).1 he
      exact neg_mul_left F e.1 e.2 (hvb _ (List.mem_of_getElem? h1)) (hva _ (List.mem_of_getElem? h3))
    rw [this]
    rfl

theorem comm_length (a b : Dense Fl) (w : List Nat) :
    (storedPairs (stored N a) (stored N b) w ++ negPairs (storedPairs (stored N b) (stored N a) w)).length ≤ 2 * (w.length + 1) := by
  have h1 := storedPairs_length (stored N a) (stored N b) w
  have h2 := storedPairs_length (stored N b) (stored N a) w
  rw [List.length_append, negPairs, List.length_map]
  omega

theorem comm_exact (a b : Dense Fl) (w : List Nat) :
    exactSum (storedPairs (stored N a) (stored N b) w ++ negPairs (storedPairs (stored N b) (stored N a) w)) =
      exactCoef F N a b w - exactCoef F N b a w := by
  rw [exactSum_append]
  exact congrArg₂ (· - ·) (pairs_sum Fl.val _ _ w rfl) (pairs_sum Fl.val _ _ w rfl)

theorem comm_mag (a b : Dense Fl) (w : List Nat) :
    magSum (storedPairs (stored N a) (stored N b) w ++ negPairs (storedPairs (stored N b) (stored N a) w)) = magCoef F N a b w + magCoef F N b a w := by
  rw [magSum_append]
  exact congrArg₂ (· + ·) (pairs_sum (fun x => |x.val|) _ _ w (by simp [Fl.val])) (pairs_sum (fun x => |x.val|) _ _ w (by simp [Fl.val]))

theorem err_mono (k n : Nat) (h : k ≤ n) (M : Rat) (hM : 0 ≤ M) :
    ((1 + relErr F) ^ (k + 1) - 1) * M + k * (1 + relErr F) ^ k * absErr F ≤
      ((1 + relErr F) ^ (n + 1) - 1) * M + n * (1 + relErr F) ^ n * absErr F := by
  have hu := relErr_pos F
  have hη := absErr_pos F
  have p1 : (1 + relErr F) ^ (k + 1) ≤ (1 + relErr F) ^ (n + 1) := pow_le_pow_right₀ (by linarith) (by omega)
  have p2 : (1 + relErr F) ^ k ≤ (1 + relErr F) ^ n := pow_le_pow_right₀ (by linarith) (by omega)
  have p3 : (k : Rat) ≤ n := by exact_mod_cast h
  have p4 : (k : Rat) * (1 + relErr F) ^ k ≤ n * (1 + relErr F) ^ n := mul_le_mul p3 p2 (by positivity) (by positivity)
  have p5 := mul_le_mul_of_nonneg_right p4 hη.le
  have p6 := mul_le_mul_of_nonneg_right (sub_le_sub_right p1 1) hM
  linarith

/-- The room for the rounding errors of a commutator at a word. -/
def commErr (a b : Dense Fl) (w : List Nat) : Rat :=
  ((1 + relErr F) ^ (2 * (w.length + 1) + 1) - 1) * (magCoef F N a b w + magCoef F N b a w) +
    (2 * (w.length + 1) : Nat) * (1 + relErr F) ^ (2 * (w.length + 1)) * absErr F

/-- C76.  `commutator` of two tensors of floating-point numbers returns, and each finite coefficient of `[a, b]` is near the exact value
`Σ (a_u b_v - b_u a_v)`: the error is at most `((1+ε)^(2n+1) - 1) Σ (|a_u| |b_v| + |b_u| |a_v|) + 2n (1+ε)^(2n) η` for `n = |w| + 1`. -/
theorem C76_commutator_accuracy (hF : F = .f32 ∨ F = .f64) (h2 : 2 ≤ N) (a b : Dense Fl) (da db D : Nat) (ha : FullTo N a da) (hb : FullTo N b db)
    (hM : 1 ≤ min D (da + db)) (hp : N ^ (min D (da + db) + 1) < 2 ^ 64) (hva : ∀ x ∈ a.data, x.Valid F) (hvb : ∀ x ∈ b.data, x.Valid F) :
    ∃ r, (DenseAlg.ops (floatCoeff F) p N).commutator (floatCoeff F) a b (some D) = .ok r ∧ FullTo N r (min D (da + db)) ∧
      ∀ w, ValidWord N w → w.length ≤ min D (da + db) → (coef (floatCoeff F) N r w).isFin = true →
        (∀ u v x y, u ++ v = w → stored N a u = some x → stored N b v = some y → x.isFin = true ∧ y.isFin = true) ∧
        |(coef (floatCoeff F) N r w).val - (exactCoef F N a b w - exactCoef F N b a w)| ≤ commErr F N a b w := by
  obtain ⟨r, h1, h3, h4⟩ := comm_coef F p N h2 a b da db D ha hb hM hp hva hvb
  refine ⟨r, h1, h3, fun w hw hl hfin => ?_⟩
  rw [h4 w hw hl] at hfin ⊢
  obtain ⟨g1, g2⟩ := flSum_err F (fmt_ok' hF) _ hfin
  refine ⟨fun u v x y huv hx hy => g1 (x, y) (List.mem_append_left _ ((mem_storedPairs _ _ _ _).2 ⟨u, v, huv, hx, hy⟩)), ?_⟩
  rw [comm_exact F] at g2
  refine g2.trans ((err_mono F _ _ (comm_length N a b w) _ (magSum_nonneg _)).trans ?_)
  rw [comm_mag F]
  exact le_refl _

/-- C76.  The coefficient is finite if all coefficients of the operands are and the magnitudes leave room for the rounding errors. -/
theorem C76_no_overflow (hF : F = .f32 ∨ F = .f64) (h2 : 2 ≤ N) (a b r : Dense Fl) (da db D : Nat) (ha : FullTo N a da) (hb : FullTo N b db)
    (hM : 1 ≤ min D (da + db)) (hp : N ^ (min D (da + db) + 1) < 2 ^ 64) (hva : ∀ x ∈ a.data, x.Valid F ∧ x.isFin = true)
    (hvb : ∀ x ∈ b.data, x.Valid F ∧ x.isFin = true)
    (hr : (DenseAlg.ops (floatCoeff F) p N).commutator (floatCoeff F) a b (some D) = .ok r) (w : List Nat) (hw : ValidWord N w)
    (hl : w.length ≤ min D (da + db)) (hm : magCoef F N a b w + magCoef F N b a w + commErr F N a b w ≤ maxNum F) :
    (coef (floatCoeff F) N r w).isFin = true := by
  obtain ⟨r', h1, h3, h4⟩ := comm_coef F p N h2 a b da db D ha hb hM hp (fun x hx => (hva x hx).1) (fun x hx => (hvb x hx).1)
  obtain rfl : r = r' := Res.ok.inj (hr.symm.trans h1)
  rw [h4 w hw hl]
  apply flSum_fin F (fmt_ok' hF)
  · intro e he
    rcases List.mem_append.1 he with he | he
    · obtain ⟨u, v, _, h1, h3⟩ := (mem_storedPairs _ _ _ _).1 he
      exact ⟨(hva _ (List.mem_of_getElem? h1)).2, (hvb _ (List.mem_of_getElem? h3)).2⟩
    · obtain ⟨e', he', rfl⟩ := List.mem_map.1 he
      obtain ⟨u, v, _, h1, h3⟩ := (mem_storedPairs _ _ _ _).1 he'
      exact ⟨by show (Fl.neg e'.1).isFin = true; rw [neg_isFin]; exact (hvb _ (List.mem_of_getElem? h1)).2, (hva _ (List.mem_of_getElem? h3)).2⟩
  · refine le_trans ?_ hm
    have := err_mono F _ _ (comm_length N a b w) _ (magSum_nonneg (storedPairs (stored N a) (stored N b) w ++ negPairs (storedPairs (stored N b) (stored N a) w)))
    rw [comm_mag F] at this ⊢
    unfold commErr
    linarith

/-- C76.  Commutators of tensors with integer coefficients are exact as long as `Σ (|a_u| |b_v| + |b_u| |a_v|)` is at most `2^24` (`f32`) or `2^53`
(`f64`). -/
theorem C76_integers_exact (hF : F = .f32 ∨ F = .f64) (h2 : 2 ≤ N) (a b r : Dense Fl) (da db D : Nat) (ha : FullTo N a da) (hb : FullTo N b db)
    (hM : 1 ≤ min D (da + db)) (hp : N ^ (min D (da + db) + 1) < 2 ^ 64)
    (hia : ∀ x ∈ a.data, x.Valid F ∧ x.isFin = true ∧ ∃ n : Int, x.val = n) (hib : ∀ x ∈ b.data, x.Valid F ∧ x.isFin = true ∧ ∃ n : Int, x.val = n)
    (hr : (DenseAlg.ops (floatCoeff F) p N).commutator (floatCoeff F) a b (some D) = .ok r) (w : List Nat) (hw : ValidWord N w)
    (hl : w.length ≤ min D (da + db)) (hm32 : F = .f32 → magCoef F N a b w + magCoef F N b a w ≤ 2 ^ 24)
    (hm64 : F = .f64 → magCoef F N a b w + magCoef F N b a w ≤ 2 ^ 53) :
    (coef (floatCoeff F) N r w).isFin = true ∧ (coef (floatCoeff F) N r w).val = exactCoef F N a b w - exactCoef F N b a w := by
  obtain ⟨r', h1, h3, h4⟩ := comm_coef F p N h2 a b da db D ha hb hM hp (fun x hx => (hia x hx).1) (fun x hx => (hib x hx).1)
  obtain rfl : r = r' := Res.ok.inj (hr.symm.trans h1)
  rw [h4 w hw hl]
  have hm : magSum (storedPairs (stored N a) (stored N b) w ++ negPairs (storedPairs (stored N b) (stored N a) w)) ≤ 2 ^ F.prec := by
    rw [comm_mag F]
    rcases hF with rfl | rfl
    · exact hm32 rfl
    · exact hm64 rfl
  have h := flSum_int F (fmt_ok' hF) (by rcases hF with rfl | rfl <;> decide) (by rcases hF with rfl | rfl <;> decide) _ (by
      intro e he
      rcases List.mem_append.1 he with he | he
      · obtain ⟨u, v, _, h1, h3⟩ := (mem_storedPairs _ _ _ _).1 he
        have f1 := (hia _ (List.mem_of_getElem? h1)).2
        have f2 := (hib _ (List.mem_of_getElem? h3)).2
        exact ⟨f1.1, f2.1, f1.2, f2.2⟩
      · obtain ⟨e', he', rfl⟩ := List.mem_map.1 he
        obtain ⟨u, v, _, h1, h3⟩ := (mem_storedPairs _ _ _ _).1 he'
        have f1 := (hib _ (List.mem_of_getElem? h1)).2
        have f2 := (hia _ (List.mem_of_getElem? h3)).2
        obtain ⟨n, hn⟩ := f1.2
        refine ⟨by show (Fl.neg e'.1).isFin = true; rw [neg_isFin]; exact f1.1, f2.1, ⟨-n, ?_⟩, f2.2⟩
        show (Fl.neg e'.1).val = _
        rw [neg_val, hn]
        push_cast
        rfl) hm
  rw [← comm_exact F]
  exact ⟨h.1, h.2.1⟩

/-! ## Antisymmetry -/

/-- C77, full statement: `[a, b] = -[b, a]`, and `[a, a] = 0`, in floating-point arithmetic, wherever all numbers are finite. -/
def C77_antisymmetry_full : Prop :=
  ∀ (a b x y : Dense Fl) (da db D : Nat), FullTo N a da → FullTo N b db → (∀ e ∈ a.data, e.Valid F ∧ e.isFin = true) →
    (∀ e ∈ b.data, e.Valid F ∧ e.isFin = true) → (DenseAlg.ops (floatCoeff F) p N).commutator (floatCoeff F) a b (some D) = .ok x →
    (DenseAlg.ops (floatCoeff F) p N).commutator (floatCoeff F) b a (some D) = .ok y → ∀ w, ValidWord N w → w.length ≤ min D (da + db) →
    (coef (floatCoeff F) N x w).isFin = true → (coef (floatCoeff F) N y w).isFin = true →
      Fl.eq (coef (floatCoeff F) N x w) (Fl.neg (coef (floatCoeff F) N y w)) = true ∧ (a = b → (coef (floatCoeff F) N x w).val = 0)

/-- The tensor `1 + e1 + 2^-60 e1 e1`. -/
def selfA (N : Nat) : Dense Fl :=
  .ofVec (.fin 1 :: .fin 1 :: List.replicate (N - 1) (.zero false) ++ .fin (1 / 2 ^ 60) :: List.replicate (N ^ 2 - 1) (.zero false))

theorem selfA_full (h2 : 2 ≤ N) (hp : N ^ 3 < 2 ^ 64) : FullTo N (selfA N) 2 := by
  refine ⟨?_, hp⟩
  have : 1 ≤ N ^ 2 := Nat.one_le_pow _ _ (by omega)
  simp only [selfA, Dense.size, Dense.ofVec, List.length_append, List.length_cons, List.length_replicate]
  show _ = geomSum N 3
  simp only [geomSum, pow_zero, pow_one]
  have e : N ^ 2 = N * N := by ring
  rw [e] at this ⊢
  omega

theorem selfA_valid (hF : F = .f32 ∨ F = .f64) (e : Fl) (he : e ∈ (selfA N).data) : e.Valid F ∧ e.isFin = true := by
  have h1 : (Fl.fin 1).Valid F := (C50_closed F hF .nan .nan trivial trivial 0).2.2.2.2.2.2.2.1
  have h2 : (Fl.fin (1 / 2 ^ 60)).Valid F := by
    refine ⟨by norm_num, 1, -60, ?_, ?_, ?_, by norm_num⟩
    all_goals (rcases hF with rfl | rfl <;> decide)
  simp only [selfA, Dense.ofVec, List.mem_append, List.mem_cons, List.mem_replicate] at he
  rcases he with (rfl | rfl | ⟨_, rfl⟩) | rfl | ⟨_, rfl⟩
  · exact ⟨h1, rfl⟩
  · exact ⟨h1, rfl⟩
  · exact ⟨trivial, rfl⟩
  · exact ⟨h2, rfl⟩
  · exact ⟨trivial, rfl⟩

theorem selfA_stored (h2 : 2 ≤ N) : stored N (selfA N) [] = some (.fin 1) ∧ stored N (selfA N) [1] = some (.fin 1) ∧
    stored N (selfA N) [1, 1] = some (.fin (1 / 2 ^ 60)) := by
  have e0 : wordIndex N [1] = 1 := by simp [wordIndex]
  refine ⟨rfl, by unfold stored; rw [e0]; rfl, ?_⟩
  have e : wordIndex N [1, 1] = N + 1 := by
    simp [wordIndex]
  unfold stored
  rw [e]
  show (Fl.fin 1 :: Fl.fin 1 :: List.replicate (N - 1) (.zero false) ++ _)[N + 1]? = _
  rw [List.getElem?_append_right (by simp; omega)]
  have : N + 1 - (Fl.fin 1 :: Fl.fin 1 :: List.replicate (N - 1) (.zero false)).length = 0 := by
    simp; omega
  rw [this]
  rfl

theorem selfA_sum (hF : F = .f32 ∨ F = .f64) (h2 : 2 ≤ N) :
    flSum F (storedPairs (stored N (selfA N)) (stored N (selfA N)) [1, 1] ++ negPairs (storedPairs (stored N (selfA N)) (stored N (selfA N)) [1, 1])) =
      .fin (-(1 / 2 ^ 60)) := by
  obtain ⟨s0, s1, s2⟩ := selfA_stored N h2
  have hsp : storedPairs (stored N (selfA N)) (stored N (selfA N)) [1, 1] =
      [(.fin (1 / 2 ^ 60), .fin 1), (.fin 1, .fin 1), (.fin 1, .fin (1 / 2 ^ 60))] := by
    have : splits [1, 1] = [([1, 1], []), ([1], [1]), ([], [1, 1])] := rfl
    unfold storedPairs
    rw [this]
    simp only [List.filterMap_cons, s0, s1, s2, List.filterMap_nil]
  rw [hsp]
  rcases hF with rfl | rfl <;> decide +kernel

/-- C77.  It is false: for `a = 1 + e1 + 2^-60 e1 e1` the coefficient of `e1 e1` in `[a, a]` is `-2^-60`. -/
theorem C77_antisymmetry_refuted (hF : F = .f32 ∨ F = .f64) (h2 : 2 ≤ N) (hp : N ^ 3 < 2 ^ 64) : ¬ C77_antisymmetry_full F p N := by
  intro h
  have hfull := selfA_full N h2 hp
  obtain ⟨x, e1, _, e3⟩ := comm_coef F p N h2 (selfA N) (selfA N) 2 2 2 hfull hfull (by decide) hp (fun e he => (selfA_valid F N hF e he).1)
    (fun e he => (selfA_valid F N hF e he).1)
  have hw : ValidWord N [1, 1] := by
    intro l hl
    simp only [List.mem_cons, List.not_mem_nil, or_false, or_self] at hl
    omega
  have hc := e3 [1, 1] hw (by decide)
  rw [selfA_sum F N hF h2] at hc
  have := (h _ _ x x 2 2 2 hfull hfull (selfA_valid F N hF) (selfA_valid F N hF) e1 e1 [1, 1] hw (by decide) (by rw [hc]; rfl) (by rw [hc]; rfl)).2 rfl
  rw [hc] at this
  norm_num [Fl.val] at this

/-- Valid finite numbers with equal values compare equal. -/
theorem eq_of_val (F : FloatFmt) (x y : Fl) (hx : x.Valid F) (hy : y.Valid F) (fx : x.isFin = true) (fy : y.isFin = true) (h : x.val = y.val) :
    Fl.eq x y = true := by
  cases x <;> cases y <;> first | rfl | (cases fx; done) | (cases fy; done) | skip
  · exact absurd h.symm hy.1
  · exact absurd h hx.1
  · exact decide_eq_true (congrArg Fl.fin h)

/-- C77.  What holds in general: `[a, b] + [b, a]` is zero up to twice the rounding error of C76. -/
theorem C77_antisymmetry_error_partial (hF : F = .f32 ∨ F = .f64) (h2 : 2 ≤ N) (a b x y : Dense Fl) (da db D : Nat) (ha : FullTo N a da)
    (hb : FullTo N b db) (hM : 1 ≤ min D (da + db)) (hp : N ^ (min D (da + db) + 1) < 2 ^ 64) (hva : ∀ e ∈ a.data, e.Valid F)
    (hvb : ∀ e ∈ b.data, e.Valid F) (hx : (DenseAlg.ops (floatCoeff F) p N).commutator (floatCoeff F) a b (some D) = .ok x)
    (hy : (DenseAlg.ops (floatCoeff F) p N).commutator (floatCoeff F) b a (some D) = .ok y) (w : List Nat) (hw : ValidWord N w)
    (hl : w.length ≤ min D (da + db)) (fx : (coef (floatCoeff F) N x w).isFin = true) (fy : (coef (floatCoeff F) N y w).isFin = true) :
    |(coef (floatCoeff F) N x w).val + (coef (floatCoeff F) N y w).val| ≤ 2 * commErr F N a b w := by
  have hc : db + da = da + db := Nat.add_comm _ _
  obtain ⟨x', x1, _, x3⟩ := C76_commutator_accuracy F p N hF h2 a b da db D ha hb hM hp hva hvb
  obtain ⟨y', y1, _, y3⟩ := C76_commutator_accuracy F p N hF h2 b a db da D hb ha (by rw [hc]; exact hM) (by rw [hc]; exact hp) hvb hva
  obtain rfl : x = x' := Res.ok.inj (hx.symm.trans x1)
  obtain rfl : y = y' := Res.ok.inj (hy.symm.trans y1)
  have g1 := (x3 w hw hl fx).2
  have g2 := (y3 w hw (by rw [hc]; exact hl) fy).2
  have e : commErr F N b a w = commErr F N a b w := by unfold commErr; rw [add_comm (magCoef F N b a w)]
  rw [e] at g2
  rw [abs_le] at g1 g2 ⊢
  constructor <;> linarith [g1.1, g1.2, g2.1, g2.2]

/-- C77.  Integer coefficients within the bounds of C76. -/
theorem C77_antisymmetry_integers_partial (hF : F = .f32 ∨ F = .f64) (h2 : 2 ≤ N) (a b x y : Dense Fl) (da db D : Nat) (ha : FullTo N a da)
    (hb : FullTo N b db) (hM : 1 ≤ min D (da + db)) (hp : N ^ (min D (da + db) + 1) < 2 ^ 64)
    (hia : ∀ x ∈ a.data, x.Valid F ∧ x.isFin = true ∧ ∃ n : Int, x.val = n) (hib : ∀ x ∈ b.data, x.Valid F ∧ x.isFin = true ∧ ∃ n : Int, x.val = n)
    (hx : (DenseAlg.ops (floatCoeff F) p N).commutator (floatCoeff F) a b (some D) = .ok x)
    (hy : (DenseAlg.ops (floatCoeff F) p N).commutator (floatCoeff F) b a (some D) = .ok y) (w : List Nat) (hw : ValidWord N w)
    (hl : w.length ≤ min D (da + db)) (hm32 : F = .f32 → magCoef F N a b w + magCoef F N b a w ≤ 2 ^ 24)
    (hm64 : F = .f64 → magCoef F N a b w + magCoef F N b a w ≤ 2 ^ 53) :
    Fl.eq (coef (floatCoeff F) N x w) (Fl.neg (coef (floatCoeff F) N y w)) = true ∧ (a = b → (coef (floatCoeff F) N x w).val = 0) := by
  have hc : db + da = da + db := Nat.add_comm _ _
  have hM' : 1 ≤ min D (db + da) := by rw [hc]; exact hM
  have hp' : N ^ (min D (db + da) + 1) < 2 ^ 64 := by rw [hc]; exact hp
  have hl' : w.length ≤ min D (db + da) := by rw [hc]; exact hl
  have g1 := C76_integers_exact F p N hF h2 a b x da db D ha hb hM hp hia hib hx w hw hl hm32 hm64
  have g2 := C76_integers_exact F p N hF h2 b a y db da D hb ha hM' hp' hib hia hy w hw hl' (fun h => by rw [add_comm]; exact hm32 h)
    (fun h => by rw [add_comm]; exact hm64 h)
  have v : ∀ (a b r : Dense Fl) (da db : Nat), FullTo N a da → FullTo N b db → 1 ≤ min D (da + db) → N ^ (min D (da + db) + 1) < 2 ^ 64 →
      (∀ x ∈ a.data, x.Valid F ∧ x.isFin = true ∧ ∃ n : Int, x.val = n) → (∀ x ∈ b.data, x.Valid F ∧ x.isFin = true ∧ ∃ n : Int, x.val = n) →
      (DenseAlg.ops (floatCoeff F) p N).commutator (floatCoeff F) a b (some D) = .ok r → w.length ≤ min D (da + db) →
      (coef (floatCoeff F) N r w).Valid F := by
    intro a b r da db ha hb hM hp hia hib hr hl
    obtain ⟨r', h1, _, h4⟩ := comm_coef F p N h2 a b da db D ha hb hM hp (fun x hx => (hia x hx).1) (fun x hx => (hib x hx).1)
    obtain rfl : r = r' := Res.ok.inj (hr.symm.trans h1)
    rw [h4 w hw hl]
    exact flSum_valid F (fmt_ok' hF) _
  refine ⟨eq_of_val F _ _ (v a b x da db ha hb hM hp hia hib hx hl) (neg_valid F _ (v b a y db da hb ha hM' hp' hib hia hy hl')) g1.1
    (by rw [neg_isFin]; exact g2.1) ?_, ?_⟩
  · rw [neg_val, g1.2, g2.2, neg_sub]
  · rintro rfl
    rw [g1.2, sub_self]

theorem round_val_neg (F : FloatFmt) (s t : Bool) (q : Rat) : (Fl.round F s (-q)).val = -(Fl.round F t q).val := by
  rw [← neg_val, neg_round]
  by_cases h : q = 0
  · subst h
    unfold Fl.round
    rw [neg_zero, if_pos rfl, if_pos rfl]
    rfl
  · unfold Fl.round
    rw [if_neg (neg_ne_zero.2 h), if_neg (neg_ne_zero.2 h)]

/-- Sums of products that are all zero are zero. -/
theorem flSum_zero (F : FloatFmt) (l : List (Fl × Fl)) (h : ∀ e ∈ l, e.1.isFin = true ∧ e.2.isFin = true ∧ (e.1.val = 0 ∨ e.2.val = 0)) :
    (flSum F l).isFin = true ∧ (flSum F l).val = 0 := by
  induction l using List.reverseRecOn with
  | nil => exact ⟨rfl, rfl⟩
  | append_singleton l e ih =>
    rw [flSum_snoc]
    obtain ⟨i1, i2⟩ := ih fun e he => h e (List.mem_append_left _ he)
    obtain ⟨h1, h3, h4⟩ := h e (List.mem_append_right _ (List.mem_singleton.2 rfl))
    have hz : e.1.val * e.2.val = 0 := by rcases h4 with h | h <;> rw [h] <;> ring
    have hm : Fl.mul F e.1 e.2 = .zero (xor e.1.sign e.2.sign) := by
      rw [mul_round F _ _ h1 h3, hz]
      unfold Fl.round
      rw [if_pos rfl]
    rw [hm]
    obtain ⟨s, hs⟩ := add_round F (flSum F l) (.zero (xor e.1.sign e.2.sign)) i1 rfl
    have hz2 : (flSum F l).val + (Fl.zero (xor e.1.sign e.2.sign)).val = 0 := by rw [i2]; exact add_zero _
    rw [hs, hz2]
    unfold Fl.round
    rw [if_pos rfl]
    exact ⟨rfl, rfl⟩

/-- C77.  Linear combinations of letters: for tensors of degree one without constant term the commutator is antisymmetric, whatever the finite numbers. -/
theorem C77_antisymmetry_letters_partial (hF : F = .f32 ∨ F = .f64) (h2 : 2 ≤ N) (a b x y : Dense Fl) (D : Nat) (ha : FullTo N a 1)
    (hb : FullTo N b 1) (hD : 1 ≤ D) (hp : N ^ 3 < 2 ^ 64) (hva : ∀ e ∈ a.data, e.Valid F ∧ e.isFin = true)
    (hvb : ∀ e ∈ b.data, e.Valid F ∧ e.isFin = true) (hza : (coef (floatCoeff F) N a []).val = 0) (hzb : (coef (floatCoeff F) N b []).val = 0)
    (hx : (DenseAlg.ops (floatCoeff F) p N).commutator (floatCoeff F) a b (some D) = .ok x)
    (hy : (DenseAlg.ops (floatCoeff F) p N).commutator (floatCoeff F) b a (some D) = .ok y) (w : List Nat) (hw : ValidWord N w)
    (hl : w.length ≤ min D (1 + 1)) (fx : (coef (floatCoeff F) N x w).isFin = true) :
    Fl.eq (coef (floatCoeff F) N x w) (Fl.neg (coef (floatCoeff F) N y w)) = true ∧ (a = b → (coef (floatCoeff F) N x w).val = 0) := by
  have hp' : N ^ (min D (1 + 1) + 1) < 2 ^ 64 := pow_lt64_mono h2 (by omega) hp
  obtain ⟨x', x1, _, x3⟩ := comm_coef F p N h2 a b 1 1 D ha hb (by omega) hp' (fun e he => (hva e he).1) (fun e he => (hvb e he).1)
  obtain ⟨y', y1, _, y3⟩ := comm_coef F p N h2 b a 1 1 D hb ha (by omega) hp' (fun e he => (hvb e he).1) (fun e he => (hva e he).1)
  obtain rfl : x = x' := Res.ok.inj (hx.symm.trans x1)
  obtain rfl : y = y' := Res.ok.inj (hy.symm.trans y1)
  have kx := x3 w hw hl
  have ky := y3 w hw hl
  have vx : (coef (floatCoeff F) N x w).Valid F := by rw [kx]; exact flSum_valid F (fmt_ok' hF) _
  have vy : (coef (floatCoeff F) N y w).Valid F := by rw [ky]; exact flSum_valid F (fmt_ok' hF) _
  suffices key : (coef (floatCoeff F) N y w).isFin = true ∧ (coef (floatCoeff F) N x w).val = -(coef (floatCoeff F) N y w).val by
    refine ⟨eq_of_val F _ _ vx (neg_valid F _ vy) fx (by rw [neg_isFin]; exact key.1) (by rw [neg_val]; exact key.2), ?_⟩
    rintro rfl
    obtain rfl : x = y := Res.ok.inj (hx.symm.trans hy)
    linarith [key.2]
  have zero_pairs : ∀ (a b : Dense Fl), (∀ e ∈ a.data, e.Valid F ∧ e.isFin = true) → (∀ e ∈ b.data, e.Valid F ∧ e.isFin = true) →
      (coef (floatCoeff F) N a []).val = 0 → (coef (floatCoeff F) N b []).val = 0 → w.length ≤ 1 →
      ∀ e ∈ storedPairs (stored N a) (stored N b) w, e.1.isFin = true ∧ e.2.isFin = true ∧ (e.1.val = 0 ∨ e.2.val = 0) := by
    intro a b hva hvb hza hzb hl e he
    obtain ⟨u, v, huv, h1, h3⟩ := (mem_storedPairs _ _ _ _).1 he
    refine ⟨(hva _ (List.mem_of_getElem? h1)).2, (hvb _ (List.mem_of_getElem? h3)).2, ?_⟩
    have hlen := congrArg List.length huv
    rw [List.length_append] at hlen
    rcases u with _ | ⟨l, u⟩
    · left
      rw [coef, h1] at hza
      exact hza
    · rcases v with _ | ⟨m, v⟩
      · right
        rw [coef, h3] at hzb
        exact hzb
      · simp only [List.length_cons] at hlen
        omega
  have neg_zero_pairs : ∀ l : List (Fl × Fl), (∀ e ∈ l, e.1.isFin = true ∧ e.2.isFin = true ∧ (e.1.val = 0 ∨ e.2.val = 0)) →
      ∀ e ∈ negPairs l, e.1.isFin = true ∧ e.2.isFin = true ∧ (e.1.val = 0 ∨ e.2.val = 0) := by
    intro l h e he
    obtain ⟨e', he', rfl⟩ := List.mem_map.1 he
    obtain ⟨h1, h3, h4⟩ := h e' he'
    refine ⟨by show (Fl.neg e'.1).isFin = true; rw [neg_isFin]; exact h1, h3, ?_⟩
    show (Fl.neg e'.1).val = 0 ∨ _
    rw [neg_val, neg_eq_zero]
    exact h4
  by_cases hl1 : w.length ≤ 1
  · have hab := zero_pairs a b hva hvb hza hzb hl1
    have hba := zero_pairs b a hvb hva hzb hza hl1
    have sx := flSum_zero F (storedPairs (stored N a) (stored N b) w ++ negPairs (storedPairs (stored N b) (stored N a) w)) (by
      intro e he
      rcases List.mem_append.1 he with he | he
      · exact hab e he
      · exact neg_zero_pairs _ hba e he)
    have sy := flSum_zero F (storedPairs (stored N b) (stored N a) w ++ negPairs (storedPairs (stored N a) (stored N b) w)) (by
      intro e he
      rcases List.mem_append.1 he with he | he
      · exact hba e he
      · exact neg_zero_pairs _ hab e he)
    rw [← kx] at sx
    rw [← ky] at sy
    exact ⟨sy.1, by rw [sx.2, sy.2, neg_zero]⟩
  · obtain ⟨l, m, rfl⟩ : ∃ l m, w = [l, m] := by
      match w, hl1, hl with
      | [l, m], _, _ => exact ⟨l, m, rfl⟩
      | [], h, _ => exact absurd (by simp) h
      | [_], h, _ => exact absurd (by simp) h
      | _ :: _ :: _ :: _, _, h => simp only [List.length_cons] at h; omega
    have hbig : ∀ c : Dense Fl, FullTo N c 1 → stored N c [l, m] = none := by
      intro c hc
      apply List.getElem?_eq_none
      have h1 := hc.1
      have h3 := (wordIndex_bounds hw).1
      unfold Dense.size at h1
      rw [h1]
      exact h3
    have hone : ∀ (c : Dense Fl) (k : Nat), FullTo N c 1 → ValidWord N [k] → ∃ e, stored N c [k] = some e ∧ e ∈ c.data := by
      intro c k hc hk
      have h1 := hc.1
      have h3 := (wordIndex_bounds hk).2
      unfold Dense.size at h1
      have h5 : wordIndex N [k] < c.data.length := by rw [h1]; exact h3
      exact ⟨_, List.getElem?_eq_getElem h5, List.getElem_mem h5⟩
    have hwl : ValidWord N [l] := fun k hk => hw k (by simp at hk; simp [hk])
    have hwm : ValidWord N [m] := fun k hk => hw k (by simp at hk; simp [hk])
    obtain ⟨al, al1, al2⟩ := hone a l ha hwl
    obtain ⟨am, am1, am2⟩ := hone a m ha hwm
    obtain ⟨bl, bl1, bl2⟩ := hone b l hb hwl
    obtain ⟨bm, bm1, bm2⟩ := hone b m hb hwm
    have hsp : splits [l, m] = [([l, m], []), ([l], [m]), ([], [l, m])] := rfl
    have pab : storedPairs (stored N a) (stored N b) [l, m] = [(al, bm)] := by
      unfold storedPairs
      rw [hsp]
      simp only [List.filterMap_cons, List.filterMap_nil, hbig a ha, hbig b hb, al1, bm1]
      cases stored N a [] <;> rfl
    have pba : storedPairs (stored N b) (stored N a) [l, m] = [(bl, am)] := by
      unfold storedPairs
      rw [hsp]
      simp only [List.filterMap_cons, List.filterMap_nil, hbig a ha, hbig b hb, bl1, am1]
      cases stored N b [] <;> rfl
    have sx : coef (floatCoeff F) N x [l, m] = Fl.add F (Fl.add F (.zero false) (Fl.mul F al bm)) (Fl.neg (Fl.mul F bl am)) := by
      rw [kx, pab, pba, neg_mul_left F bl am (hvb _ bl2).1 (hva _ am2).1]
      rfl
    have sy : coef (floatCoeff F) N y [l, m] = Fl.add F (Fl.add F (.zero false) (Fl.mul F bl am)) (Fl.neg (Fl.mul F al bm)) := by
      rw [ky, pab, pba, neg_mul_left F al bm (hva _ al2).1 (hvb _ bm2).1]
      rfl
    have vP := mul_valid F (fmt_ok' hF) al bm
    have vQ := mul_valid F (fmt_ok' hF) bl am
    rw [sx] at fx ⊢
    rw [sy]
    generalize Fl.mul F al bm = P at *
    generalize Fl.mul F bl am = Q at *
    have f1 := add_fin_inv F _ _ fx
    have fP := (add_fin_inv F _ _ f1.1).2
    have fQ : Q.isFin = true := by rw [← neg_isFin]; exact f1.2
    have z : ∀ R : Fl, R.isFin = true → R.Valid F → (Fl.add F (.zero false) R).isFin = true ∧ (Fl.add F (.zero false) R).val = R.val := by
      intro R hR hv
      obtain ⟨s, hs⟩ := add_round F (.zero false) R rfl hR
      have e : (Fl.zero false).val + R.val = R.val := zero_add _
      rw [hs, e]
      apply round_val_num F (fmt_ok' hF)
      cases R with
      | fin q => exact hv.2
      | _ => exact numOf_zero F (fmt_ok' hF)
    obtain ⟨zP, zP'⟩ := z P fP vP
    obtain ⟨zQ, zQ'⟩ := z Q fQ vQ
    obtain ⟨s, hs⟩ := add_round F (Fl.add F (.zero false) P) (Fl.neg Q) zP (by rw [neg_isFin]; exact fQ)
    obtain ⟨t, ht⟩ := add_round F (Fl.add F (.zero false) Q) (Fl.neg P) zQ (by rw [neg_isFin]; exact fP)
    rw [hs] at fx
    rw [hs, ht, zP', zQ', neg_val, neg_val]
    rw [zP', neg_val] at fx
    have e : Q.val + -P.val = -(P.val + -Q.val) := by ring
    rw [e]
    refine ⟨?_, by rw [round_val_neg F t s, neg_neg]⟩
    have : (Fl.neg (Fl.round F s (P.val + -Q.val))).isFin = true := by rw [neg_isFin]; exact fx
    rw [neg_round] at this
    by_cases h0 : P.val + -Q.val = 0
    · rw [h0]
      unfold Fl.round
      rw [neg_zero, if_pos rfl]
      rfl
    · unfold Fl.round at this ⊢
      rw [if_neg (neg_ne_zero.2 h0)] at this ⊢
      exact this

end

/-! ## Examples -/

/-- Tensors over two letters with integer coefficients: `3 - 7 e2` and `-2 + 5 e1 + 8 e2`. -/
def exI : Dense Fl := .ofVec [.fin 3, .zero true, .fin (-7)]

theorem int_valid (n : Int) (h0 : n ≠ 0) (h : |n| < 2 ^ 24) (F : FloatFmt) (hF : F = .f32 ∨ F = .f64) : (Fl.fin n).Valid F := by
  refine ⟨by exact_mod_cast h0, n, 0, ?_, ?_, ?_, by simp⟩
  · rcases hF with rfl | rfl
    · exact h
    · exact h.trans (by decide)
  all_goals (rcases hF with rfl | rfl <;> decide)

theorem exI_ok (F : FloatFmt) (hF : F = .f32 ∨ F = .f64) (x : Fl) (hx : x ∈ exI.data) : x.Valid F ∧ x.isFin = true ∧ ∃ n : Int, x.val = n := by
  simp only [exI, Dense.ofVec, List.mem_cons, List.not_mem_nil, or_false] at hx
  rcases hx with rfl | rfl | rfl
  · exact ⟨by simpa using int_valid 3 (by decide) (by decide) F hF, rfl, 3, by simp [Fl.val]⟩
  · exact ⟨trivial, rfl, 0, by simp [Fl.val]⟩
  · exact ⟨by simpa using int_valid (-7) (by decide) (by decide) F hF, rfl, -7, by simp [Fl.val]⟩

theorem exB_ok (F : FloatFmt) (hF : F = .f32 ∨ F = .f64) (x : Fl) (hx : x ∈ exB.data) : x.Valid F ∧ x.isFin = true ∧ ∃ n : Int, x.val = n := by
  simp only [exB, Dense.ofVec, List.mem_cons, List.not_mem_nil, or_false] at hx
  rcases hx with rfl | rfl | rfl
  · exact ⟨by simpa using int_valid (-2) (by decide) (by decide) F hF, rfl, -2, by simp [Fl.val]⟩
  · exact ⟨by simpa using int_valid 5 (by decide) (by decide) F hF, rfl, 5, by simp [Fl.val]⟩
  · exact ⟨by simpa using int_valid 8 (by decide) (by decide) F hF, rfl, 8, by simp [Fl.val]⟩

theorem exI_mag (F : FloatFmt) : magCoef F 2 exI exB [2, 1] + magCoef F 2 exB exI [2, 1] = 35 := by
  norm_num [magCoef, conv, coef, stored, exI, exB, Dense.ofVec, wordIndex, Fl.val, geomSum, floatCoeff]

/-- The coefficient of `e2 e1` in the commutator is `-35`. -/
theorem exI_comm : ∃ x y, (DenseAlg.ops (floatCoeff .f32) .debug 2).commutator (floatCoeff .f32) exI exB (some 2) = .ok x ∧
    (DenseAlg.ops (floatCoeff .f32) .debug 2).commutator (floatCoeff .f32) exB exI (some 2) = .ok y ∧
    (coef (floatCoeff .f32) 2 x [2, 1]).isFin = true ∧ (coef (floatCoeff .f32) 2 y [2, 1]).isFin = true ∧ (coef (floatCoeff .f32) 2 x [2, 1]).val = -35 ∧
    Fl.eq (coef (floatCoeff .f32) 2 x [2, 1]) (Fl.neg (coef (floatCoeff .f32) 2 y [2, 1])) = true := by
  have fI : FullTo 2 exI 1 := ⟨rfl, by decide⟩
  have fB : FullTo 2 exB 1 := ⟨rfl, by decide⟩
  have oI := exI_ok .f32 (.inl rfl)
  have oB := exB_ok .f32 (.inl rfl)
  obtain ⟨x, hx, _⟩ := comm_coef .f32 .debug 2 (by omega) exI exB 1 1 2 fI fB (by decide) (by decide) (fun x h => (oI x h).1) (fun x h => (oB x h).1)
  obtain ⟨y, hy, _⟩ := comm_coef .f32 .debug 2 (by omega) exB exI 1 1 2 fB fI (by decide) (by decide) (fun x h => (oB x h).1) (fun x h => (oI x h).1)
  have e1 := C76_integers_exact .f32 .debug 2 (.inl rfl) (by omega) exI exB x 1 1 2 fI fB (by decide) (by decide) oI oB hx [2, 1] (by decide) (by decide)
    (fun _ => by rw [exI_mag]; norm_num) (by intro h; cases h)
  have e2 := C76_integers_exact .f32 .debug 2 (.inl rfl) (by omega) exB exI y 1 1 2 fB fI (by decide) (by decide) oB oI hy [2, 1] (by decide) (by decide)
    (fun _ => by rw [add_comm, exI_mag]; norm_num) (by intro h; cases h)
  have e3 := C77_antisymmetry_integers_partial .f32 .debug 2 (.inl rfl) (by omega) exI exB x y 1 1 2 fI fB (by decide) (by decide) oI oB hx hy [2, 1]
    (by decide) (by decide) (fun _ => by rw [exI_mag]; norm_num) (by intro h; cases h)
  refine ⟨x, y, hx, hy, e1.1, e2.1, e1.2.trans ?_, e3.1⟩
  norm_num [exactCoef, conv, coef, stored, exI, exB, Dense.ofVec, wordIndex, Fl.val, geomSum, floatCoeff]

/-- The hypotheses of the error bounds hold for it. -/
example : ∃ x y, |(coef (floatCoeff .f32) 2 x [2, 1]).val + (coef (floatCoeff .f32) 2 y [2, 1]).val| ≤ 2 * commErr .f32 2 exI exB [2, 1] ∧
    |(coef (floatCoeff .f32) 2 x [2, 1]).val - (exactCoef .f32 2 exI exB [2, 1] - exactCoef .f32 2 exB exI [2, 1])| ≤ commErr .f32 2 exI exB [2, 1] := by
  have fI : FullTo 2 exI 1 := ⟨rfl, by decide⟩
  have fB : FullTo 2 exB 1 := ⟨rfl, by decide⟩
  have oI := exI_ok .f32 (.inl rfl)
  have oB := exB_ok .f32 (.inl rfl)
  obtain ⟨x, y, hx, hy, f1, f2, _⟩ := exI_comm
  obtain ⟨x', hx', _, h⟩ := C76_commutator_accuracy .f32 .debug 2 (.inl rfl) (by omega) exI exB 1 1 2 fI fB (by decide) (by decide)
    (fun x h => (oI x h).1) (fun x h => (oB x h).1)
  obtain rfl : x = x' := Res.ok.inj (hx.symm.trans hx')
  exact ⟨x, y, C77_antisymmetry_error_partial .f32 .debug 2 (.inl rfl) (by omega) exI exB x y 1 1 2 fI fB (by decide) (by decide)
    (fun x h => (oI x h).1) (fun x h => (oB x h).1) hx hy [2, 1] (by decide) (by decide) f1 f2, (h [2, 1] (by decide) (by decide) f1).2⟩

/-- There is room for the errors. -/
example : magCoef .f32 2 exI exB [2, 1] + magCoef .f32 2 exB exI [2, 1] + commErr .f32 2 exI exB [2, 1] ≤ maxNum .f32 := by
  unfold commErr
  rw [exI_mag, ex_errs.1, ex_errs.2]
  norm_num [maxNum, FloatFmt.f32]

/-- Combinations of letters: `[7 e1 + e2 / 2, -e1 + 3 e2]`. -/
example : ∃ x y, (DenseAlg.ops (floatCoeff .f64) .release 2).commutator (floatCoeff .f64) (.ofVec [.zero false, .fin 7, .fin (1 / 2)])
      (.ofVec [.zero true, .fin (-1), .fin 3]) (some 5) = .ok x ∧
    (DenseAlg.ops (floatCoeff .f64) .release 2).commutator (floatCoeff .f64) (.ofVec [.zero true, .fin (-1), .fin 3])
      (.ofVec [.zero false, .fin 7, .fin (1 / 2)]) (some 5) = .ok y ∧
    coef (floatCoeff .f64) 2 x [1, 2] = .fin (43 / 2) ∧
    Fl.eq (coef (floatCoeff .f64) 2 x [1, 2]) (Fl.neg (coef (floatCoeff .f64) 2 y [1, 2])) = true := by
  have v : ∀ n : Int, n ≠ 0 → |n| < 2 ^ 24 → (Fl.fin n).Valid .f64 := fun n h0 h => int_valid n h0 h .f64 (.inr rfl)
  have hh : (Fl.fin (1 / 2)).Valid .f64 := ⟨by norm_num, 1, -1, by decide, by decide, by decide, by norm_num⟩
  have fa : FullTo 2 (Dense.ofVec [Fl.zero false, .fin 7, .fin (1 / 2)]) 1 := ⟨rfl, by decide⟩
  have fb : FullTo 2 (Dense.ofVec [Fl.zero true, .fin (-1), .fin 3]) 1 := ⟨rfl, by decide⟩
  have oa : ∀ x ∈ (Dense.ofVec [Fl.zero false, .fin 7, .fin (1 / 2)]).data, x.Valid .f64 ∧ x.isFin = true := by
    intro x hx
    simp only [Dense.ofVec, List.mem_cons, List.not_mem_nil, or_false] at hx
    rcases hx with rfl | rfl | rfl
    · exact ⟨trivial, rfl⟩
    · exact ⟨by simpa using v 7 (by decide) (by decide), rfl⟩
    · exact ⟨hh, rfl⟩
  have ob : ∀ x ∈ (Dense.ofVec [Fl.zero true, .fin (-1), .fin 3]).data, x.Valid .f64 ∧ x.isFin = true := by
    intro x hx
    simp only [Dense.ofVec, List.mem_cons, List.not_mem_nil, or_false] at hx
    rcases hx with rfl | rfl | rfl
    · exact ⟨trivial, rfl⟩
    · exact ⟨by simpa using v (-1) (by decide) (by decide), rfl⟩
    · exact ⟨by simpa using v 3 (by decide) (by decide), rfl⟩
  obtain ⟨x, hx, _, gx⟩ := comm_coef .f64 .release 2 (by omega) _ _ 1 1 5 fa fb (by decide) (by decide) (fun x h => (oa x h).1) (fun x h => (ob x h).1)
  obtain ⟨y, hy, _, gy⟩ := comm_coef .f64 .release 2 (by omega) _ _ 1 1 5 fb fa (by decide) (by decide) (fun x h => (ob x h).1) (fun x h => (oa x h).1)
  have hc : coef (floatCoeff .f64) 2 x [1, 2] = .fin (43 / 2) := by
    rw [gx [1, 2] (by decide) (by decide)]
    decide +kernel
  exact ⟨x, y, hx, hy, hc, (C77_antisymmetry_letters_partial .f64 .release 2 (.inr rfl) (by omega) _ _ x y 5 fa fb (by omega) (by decide) oa ob rfl rfl hx hy
    [1, 2] (by decide) (by decide) (by rw [hc]; rfl)).1⟩

end RA
