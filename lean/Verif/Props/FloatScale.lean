import Verif.Props.FloatCommutator
import Verif.Props.CoeffRel

/-!
# Signs and powers of two go through floating-point products unchanged (C84)
-/

namespace RA
open Spec TensorKey TensorBasis DenseAlg Fl

/-- The same value up to the sign of a zero. -/
def Fl.Same (x y : Fl) : Prop := x = y ∨ ∃ s t, x = .zero s ∧ y = .zero t

/-- Rounding to a multiple of the least positive number does not matter: the value is at least the least normal number, or is a multiple already. -/
def Fl.NoUnderflow (F : FloatFmt) (q : Rat) : Prop := 2 ^ (F.eMin + (F.prec - 1)) ≤ |q| ∨ ∃ j : Int, q = j * 2 ^ F.eMin

/-! ## Rounding -/

theorem log_mul_two (a : Rat) (ha : 0 < a) (k : Int) : Int.log 2 (a * 2 ^ k) = Int.log 2 a + k := by
  obtain ⟨h1, h2⟩ := log_bounds ha
  have hk := two_zpow_pos k
  have ha' : 0 < a * 2 ^ k := mul_pos ha hk
  have l1 : Int.log 2 a + k ≤ Int.log 2 (a * 2 ^ k) := by
    apply (Int.zpow_le_iff_le_log (b := 2) (by norm_num) ha').1
    push_cast
    rw [zpow_add₀ (by norm_num)]
    exact mul_le_mul_of_nonneg_right h1 hk.le
  have l2 : Int.log 2 (a * 2 ^ k) < Int.log 2 a + k + 1 := by
    apply (Int.lt_zpow_iff_log_lt (b := 2) (by norm_num) ha').1
    push_cast
    rw [show Int.log 2 a + k + 1 = Int.log 2 a + 1 + k by ring, zpow_add₀ (by norm_num) (Int.log 2 a + 1)]
    exact mul_lt_mul_of_pos_right h2 hk
  omega

theorem roundMag_scale (F : FloatFmt) (a : Rat) (ha : 0 < a) (hu : Fl.NoUnderflow F a) (k : Int) (hk : 0 ≤ k) :
    roundMag F (a * 2 ^ k) = roundMag F a * 2 ^ k := by
  have hlog := log_mul_two a ha k
  have hk0 := two_zpow_pos k
  by_cases hn : F.eMin ≤ Int.log 2 a - (F.prec - 1)
  · have e1 : ulpExp F a = Int.log 2 a - (F.prec - 1) := by unfold ulpExp; omega
    have e2 : ulpExp F (a * 2 ^ k) = ulpExp F a + k := by unfold ulpExp; omega
    unfold roundMag
    rw [e2, zpow_add₀ (by norm_num), mul_div_mul_right _ _ hk0.ne', mul_assoc]
  · rcases hu with hu | ⟨j, hj⟩
    · exfalso
      rw [abs_of_pos ha] at hu
      have : F.eMin + (F.prec - 1) ≤ Int.log 2 a := (Int.zpow_le_iff_le_log (b := 2) (by norm_num) ha).1 (by exact_mod_cast hu)
      omega
    · have e1 : ulpExp F a = F.eMin := by unfold ulpExp; omega
      have e2 : F.eMin ≤ ulpExp F (a * 2 ^ k) ∧ ulpExp F (a * 2 ^ k) ≤ F.eMin + k := by unfold ulpExp; omega
      have r1 : roundMag F a = a := by
        unfold roundMag
        rw [e1, hj, mul_div_cancel_right₀ _ (two_zpow_pos _).ne', roundEven_int]
      have r2 : roundMag F (a * 2 ^ k) = a * 2 ^ k := by
        unfold roundMag
        generalize ulpExp F (a * 2 ^ k) = u at e2 ⊢
        have : a * 2 ^ k / 2 ^ u = ((j * 2 ^ (F.eMin + k - u).toNat : Int) : Rat) := by
          rw [div_eq_iff (two_zpow_pos _).ne', hj]
          push_cast
          rw [← zpow_natCast, Int.toNat_of_nonneg (by omega), mul_assoc, mul_assoc, ← zpow_add₀ (by norm_num), ← zpow_add₀ (by norm_num)]
          congr 2
          ring
        rw [this, roundEven_int, ← this, div_mul_cancel₀ _ (two_zpow_pos _).ne']
      rw [r1, r2]

theorem round_scale (F : FloatFmt) (s t : Bool) (q : Rat) (hu : Fl.NoUnderflow F q) (k : Int) (hk : 0 ≤ k)
    (h : (Fl.round F s (q * 2 ^ k)).isFin = true) : (Fl.round F t q).isFin = true ∧ (Fl.round F s (q * 2 ^ k)).val = (Fl.round F t q).val * 2 ^ k := by
  have hk0 := two_zpow_pos k
  have hk1 : (1 : Rat) ≤ 2 ^ k := one_le_zpow₀ (by norm_num) hk
  by_cases h0 : q = 0
  · subst h0
    unfold Fl.round
    rw [zero_mul, if_pos rfl, if_pos rfl]
    exact ⟨rfl, by simp [Fl.val]⟩
  · have hu' : Fl.NoUnderflow F |q| := by
      rcases hu with hu | ⟨j, hj⟩
      · exact Or.inl (by rwa [abs_abs])
      · exact Or.inr ⟨|j|, by rw [hj, abs_mul, abs_of_pos (two_zpow_pos _), Int.cast_abs]⟩
    have hr := roundMag_scale F |q| (abs_pos.2 h0) hu' k hk
    have hnn := roundMag_nonneg (F := F) |q| (abs_pos.2 h0)
    have hsgn : q * 2 ^ k < 0 ↔ q < 0 := ⟨fun h => by by_contra hc; exact absurd h (not_lt.2 (mul_nonneg (not_lt.1 hc) hk0.le)), fun h => mul_neg_of_neg_of_pos h hk0⟩
    unfold Fl.round at h ⊢
    rw [if_neg (mul_ne_zero h0 hk0.ne')] at h ⊢
    rw [if_neg h0]
    have e : |q * 2 ^ k| = |q| * 2 ^ k := by rw [abs_mul, abs_of_pos hk0]
    simp only [e, hr, hsgn] at h ⊢
    by_cases c : (2 : Rat) ^ (F.eMax + F.prec) ≤ roundMag F |q| * 2 ^ k
    · rw [if_pos c] at h; cases h
    · have c' : ¬ (2 : Rat) ^ (F.eMax + F.prec) ≤ roundMag F |q| := fun hc => c (hc.trans (le_mul_of_one_le_right hnn hk1))
      rw [if_neg c, if_neg c']
      by_cases z : roundMag F |q| = 0
      · rw [z, zero_mul, if_pos rfl]
        exact ⟨rfl, by simp [Fl.val]⟩
      · rw [if_neg z, if_neg (mul_ne_zero z hk0.ne')]
        refine ⟨rfl, ?_⟩
        show (if q < 0 then -(roundMag F |q| * 2 ^ k) else roundMag F |q| * 2 ^ k) = (if q < 0 then -roundMag F |q| else roundMag F |q|) * 2 ^ k
        split_ifs <;> ring

/-! ## Operations and sums -/

/-- `x'` is `x` scaled by `2^k`, unless it has overflowed. -/
def Scaled (F : FloatFmt) (k : Int) (x x' : Fl) : Prop := x.Valid F ∧ (x'.isFin = true → x.isFin = true ∧ x'.val = x.val * 2 ^ k)

theorem add_scaled (F : FloatFmt) (hF : Fl.Ok F) (k : Int) (hk : 0 ≤ k) (x x' y y' : Fl) (hx : Scaled F k x x') (hy : Scaled F k y y') :
    Scaled F k (Fl.add F x y) (Fl.add F x' y') := by
  refine ⟨add_valid F hF x y hx.1 hy.1, fun h => ?_⟩
  obtain ⟨f1, f2⟩ := add_fin_inv F _ _ h
  obtain ⟨g1, e1⟩ := hx.2 f1
  obtain ⟨g2, e2⟩ := hy.2 f2
  obtain ⟨s, hs⟩ := add_round F x' y' f1 f2
  obtain ⟨t, ht⟩ := add_round F x y g1 g2
  rw [hs, e1, e2, ← add_mul] at h ⊢
  rw [ht]
  refine round_scale F s t _ (Or.inr ?_) k hk h
  obtain ⟨i, hi⟩ := valid_grid F x hx.1
  obtain ⟨j, hj⟩ := valid_grid F y hy.1
  exact ⟨i + j, by rw [hi, hj]; push_cast; ring⟩

theorem mul_scaled (F : FloatFmt) (hF : Fl.Ok F) (k : Int) (hk : 0 ≤ k) (x x' y y' : Fl) (hx : x'.isFin = true → x.isFin = true)
    (hy : y'.isFin = true → y.isFin = true) (hv : x'.isFin = true → y'.isFin = true → x'.val * y'.val = x.val * y.val * 2 ^ k)
    (hu : Fl.NoUnderflow F (x.val * y.val)) : Scaled F k (Fl.mul F x y) (Fl.mul F x' y') := by
  refine ⟨mul_valid F hF x y, fun h => ?_⟩
  obtain ⟨f1, f2⟩ := mul_fin_inv F _ _ h
  rw [mul_round F x' y' f1 f2, hv f1 f2] at h ⊢
  rw [mul_round F x y (hx f1) (hy f2)]
  exact round_scale F _ _ _ hu k hk h

theorem foldl_rel {A B C D : Type} {R : A → B → Prop} {Q : C → D → Prop} {f : A → C → A} {g : B → D → B}
    (hs : ∀ a b c d, R a b → Q c d → R (f a c) (g b d)) {l : List C} {m : List D} (h : List.Forall₂ Q l m) (a : A) (b : B) (hab : R a b) :
    R (l.foldl f a) (m.foldl g b) := by
  induction h generalizing a b with
  | nil => exact hab
  | cons hcd _ ih => exact ih _ _ (hs _ _ _ _ hab hcd)

theorem flSum_rel (F : FloatFmt) (R : Fl → Fl → Prop) (h0 : R (.zero false) (.zero false))
    (ha : ∀ x x' y y', R x x' → R y y' → R (Fl.add F x y) (Fl.add F x' y')) (l l' : List (Fl × Fl))
    (h : List.Forall₂ (fun e e' => R (Fl.mul F e.1 e.2) (Fl.mul F e'.1 e'.2)) l l') : R (flSum F l) (flSum F l') := by
  unfold flSum
  have hm : List.Forall₂ R (l.map fun e => Fl.mul F e.1 e.2) (l'.map fun e => Fl.mul F e.1 e.2) := by
    rw [List.forall₂_map_left_iff, List.forall₂_map_right_iff]
    exact h
  exact foldl_rel (R := R) (Q := R) (fun _ _ _ _ h1 h2 => ha _ _ _ _ h1 h2) hm _ _ h0

/-- The stored pairs of two tensors whose coefficients are those of two others, changed word by word. -/
theorem storedPairs_rel (a b a' b' : List Nat → Option Fl) (f g : List Nat → Fl → Fl → Prop) (w : List Nat)
    (ha : ∀ u v, u ++ v = w → Option.Rel (f u) (a u) (a' u)) (hb : ∀ u v, u ++ v = w → Option.Rel (g v) (b v) (b' v)) :
    List.Forall₂ (fun e e' => ∃ u v, u ++ v = w ∧ a u = some e.1 ∧ b v = some e.2 ∧ f u e.1 e'.1 ∧ g v e.2 e'.2) (storedPairs a b w) (storedPairs a' b' w) := by
  unfold storedPairs
  have hmem : ∀ uv ∈ splits w, uv.1 ++ uv.2 = w := fun uv h => (splits_spec w uv.1 uv.2).1 h
  generalize splits w = L at hmem ⊢
  induction L with
  | nil => exact .nil
  | cons uv L ih =>
    have ih := ih fun x hx => hmem x (List.mem_cons_of_mem _ hx)
    have huv := hmem uv List.mem_cons_self
    have h1 := ha uv.1 uv.2 huv
    have h2 := hb uv.1 uv.2 huv
    rw [List.filterMap_cons, List.filterMap_cons]
    cases e1 : a uv.1 with
    | none =>
      rw [e1] at h1
      cases e2 : a' uv.1 with
      | none => exact ih
      | some x => rw [e2] at h1; cases h1
    | some x =>
      rw [e1] at h1
      cases e2 : a' uv.1 with
      | none => rw [e2] at h1; cases h1
      | some x' =>
        rw [e2] at h1
        cases e3 : b uv.2 with
        | none =>
          rw [e3] at h2
          cases e4 : b' uv.2 with
          | none => exact ih
          | some y => rw [e4] at h2; cases h2
        | some y =>
          rw [e3] at h2
          cases e4 : b' uv.2 with
          | none => rw [e4] at h2; cases h2
          | some y' =>
            rw [e4] at h2
            cases h1 with
            | some h1 => cases h2 with
              | some h2 => exact .cons ⟨uv.1, uv.2, huv, e1, e3, h1, h2⟩ ih

theorem HasDegree.of_size {S : Type} {N d : Nat} {a a' : Dense S} (h : HasDegree N a d) (hs : a'.size = a.size) : HasDegree N a' d := by
  unfold HasDegree at *
  rw [hs]
  exact h

theorem stored_rel {N : Nat} {a a' : Dense Fl} (hs : a'.size = a.size) (f : List Nat → Fl → Fl → Prop) (u : List Nat)
    (h : ∀ x x', stored N a u = some x → stored N a' u = some x' → f u x x') : Option.Rel (f u) (stored N a u) (stored N a' u) := by
  unfold stored at *
  unfold Dense.size at hs
  by_cases hi : wordIndex N u < a.data.length
  · rw [List.getElem?_eq_getElem hi, List.getElem?_eq_getElem (hs ▸ hi)] at *
    exact .some (h _ _ rfl rfl)
  · rw [List.getElem?_eq_none (not_lt.1 hi), List.getElem?_eq_none (hs ▸ not_lt.1 hi)]
    exact .none

theorem ok_of_outcome {S R : Type} {r : S → R → Prop} {x : S} {y : Res R} (h : ResRel r (.ok x) y) : ∃ y', y = .ok y' ∧ r x y' := by
  cases y with
  | ok y' => exact ⟨y', rfl, h⟩
  | _ => exact h.elim

section
variable (F : FloatFmt) (p : Profile) (N : Nat)

/-- The coefficients of two products are related when the products of the stored pairs are. -/
theorem product_rel (h2 : 2 ≤ N) (a b a' b' r : Dense Fl) (da db D : Nat) (ha : HasDegree N a da) (hb : HasDegree N b db) (sa : a'.size = a.size)
    (sb : b'.size = b.size) (hp : N ^ (min D (da + db) + 1) < 2 ^ 64) (hr : (DenseAlg.ops (floatCoeff F) p N).multiply a b (some D) = .ok r) :
    ∃ r', (DenseAlg.ops (floatCoeff F) p N).multiply a' b' (some D) = .ok r' ∧ r'.size = r.size ∧ ∀ w, ValidWord N w →
      ∀ (R : Fl → Fl → Prop), R (.zero false) (.zero false) → (∀ x x' y y', R x x' → R y y' → R (Fl.add F x y) (Fl.add F x' y')) →
        (∀ u v x y x' y', u ++ v = w → stored N a u = some x → stored N b v = some y → stored N a' u = some x' → stored N b' v = some y' →
          R (Fl.mul F x y) (Fl.mul F x' y')) → R (coef (floatCoeff F) N r w) (coef (floatCoeff F) N r' w) := by
  have ho := C82_product_outcome p N (floatCoeff F) (floatCoeff F) a b a' b' (some D) sa.symm sb.symm
  rw [hr] at ho
  obtain ⟨r', hr', hsz⟩ := ok_of_outcome ho
  refine ⟨r', hr', hsz.symm, fun w hw R h0 hadd hmul => ?_⟩
  by_cases hl : w.length ≤ min D (da + db)
  · rw [(product_coef F p N h2 a b r da db D ha hb hp hr w hw hl).1,
      (product_coef F p N h2 a' b' r' da db D (ha.of_size sa) (hb.of_size sb) hp hr' w hw hl).1]
    refine flSum_rel F R h0 hadd _ _ ?_
    have h := storedPairs_rel (stored N a) (stored N b) (stored N a') (stored N b') (fun u _ x' => stored N a' u = some x')
      (fun v _ y' => stored N b' v = some y') w (fun u v _ => stored_rel (N := N) sa (fun u _ x' => stored N a' u = some x') u fun _ _ _ h => h)
      (fun u v _ => stored_rel (N := N) sb (fun v _ y' => stored N b' v = some y') v fun _ _ _ h => h)
    exact h.imp fun e e' ⟨u, v, huv, h1, h3, h4, h5⟩ => hmul u v _ _ _ _ huv h1 h3 h4 h5
  · have n1 := (C33_multiply_returns (floatCoeff F) p N h2 a b r da db D ha hb hp hr).2 w hw
    have n2 := (C33_multiply_returns (floatCoeff F) p N h2 a' b' r' da db D (ha.of_size sa) (hb.of_size sb) hp hr').2 w hw
    unfold coef
    rw [n1, n2, if_neg hl, if_neg hl]
    exact h0

/-! ## Powers of two -/

/-- C84.  Let the coefficients of `a'` and `b'` be those of `a` and `b` multiplied by powers of two, `2^(f u)` at the word `u` of `a` and `2^(g v)` at the
word `v` of `b`, with the same total exponent `k` for all splittings `w = u v` of a word `w`.  Then a finite coefficient of `a' b'` at `w` is exactly `2^k`
times that of `a b`, as long as the products of coefficients of `a` and `b` do not underflow. -/
theorem C84_powers_of_two (hF : F = .f32 ∨ F = .f64) (h2 : 2 ≤ N) (a b a' b' r : Dense Fl) (da db D : Nat) (ha : HasDegree N a da) (hb : HasDegree N b db)
    (sa : a'.size = a.size) (sb : b'.size = b.size) (hp : N ^ (min D (da + db) + 1) < 2 ^ 64)
    (hr : (DenseAlg.ops (floatCoeff F) p N).multiply a b (some D) = .ok r) (f g : List Nat → Nat)
    (ha' : ∀ u x x', ValidWord N u → stored N a u = some x → stored N a' u = some x' → x'.isFin = true → x.isFin = true ∧ x'.val = x.val * 2 ^ f u)
    (hb' : ∀ u x x', ValidWord N u → stored N b u = some x → stored N b' u = some x' → x'.isFin = true → x.isFin = true ∧ x'.val = x.val * 2 ^ g u) :
    ∃ r', (DenseAlg.ops (floatCoeff F) p N).multiply a' b' (some D) = .ok r' ∧ r'.size = r.size ∧ ∀ w, ValidWord N w → ∀ k, (∀ u v, u ++ v = w → f u + g v = k) →
      (∀ u v x y, u ++ v = w → stored N a u = some x → stored N b v = some y → Fl.NoUnderflow F (x.val * y.val)) →
        (coef (floatCoeff F) N r' w).isFin = true →
          (coef (floatCoeff F) N r w).isFin = true ∧ (coef (floatCoeff F) N r' w).val = (coef (floatCoeff F) N r w).val * 2 ^ k := by
  obtain ⟨r', hr', hsz, h⟩ := product_rel F p N h2 a b a' b' r da db D ha hb sa sb hp hr
  refine ⟨r', hr', hsz, fun w hw k hk hu => ?_⟩
  have := h w hw (Scaled F k) ⟨trivial, fun _ => ⟨rfl, by simp [Fl.val]⟩⟩ (add_scaled F (fmt_ok' hF) k (by omega)) (fun u v x y x' y' huv h1 h3 h4 h5 => ?_)
  · intro hfin
    obtain ⟨e1, e2⟩ := this.2 hfin
    exact ⟨e1, by rw [e2, zpow_natCast]⟩
  · have hu' : ValidWord N u := fun l hl => hw l (by rw [← huv]; exact List.mem_append_left _ hl)
    have hv' : ValidWord N v := fun l hl => hw l (by rw [← huv]; exact List.mem_append_right _ hl)
    refine mul_scaled F (fmt_ok' hF) k (by omega) _ _ _ _ (fun hx => (ha' u x x' hu' h1 h4 hx).1) (fun hy => (hb' v y y' hv' h3 h5 hy).1) (fun hx hy => ?_)
      (hu u v x y huv h1 h3)
    rw [(ha' u x x' hu' h1 h4 hx).2, (hb' v y y' hv' h3 h5 hy).2, zpow_natCast, ← hk u v huv, pow_add]
    ring

/-- The product with a power of two is exact, unless it overflows. -/
theorem mul_two_pow (hF : F = .f32 ∨ F = .f64) (x : Fl) (hx : x.Valid F) (k : Nat) (h : (Fl.mul F x (.fin (2 ^ k))).isFin = true) :
    x.isFin = true ∧ (Fl.mul F x (.fin (2 ^ k))).val = x.val * 2 ^ k := by
  obtain ⟨fx, _⟩ := mul_fin_inv F _ _ h
  refine ⟨fx, ?_⟩
  rw [mul_round F _ _ fx rfl] at h ⊢
  have hk : x.val * (Fl.fin (2 ^ k)).val = x.val * 2 ^ (k : Int) := by rw [zpow_natCast]; rfl
  rw [hk] at h ⊢
  obtain ⟨_, e⟩ := round_scale F _ false x.val (Or.inr (valid_grid F x hx)) k (by omega) h
  rw [e, zpow_natCast]
  congr 1
  cases x with
  | fin q => exact (round_val_num F (fmt_ok' hF) _ q hx.2).2
  | zero s => simp [Fl.round, Fl.val]
  | _ => cases fx

theorem same_of_val (x y : Fl) (hx : x.Valid F) (hy : y.Valid F) (fx : x.isFin = true) (fy : y.isFin = true) (h : x.val = y.val) : Fl.Same x y := by
  cases x <;> cases y <;> first | (cases fx; done) | (cases fy; done) | skip
  · exact Or.inr ⟨_, _, rfl, rfl⟩
  · exact absurd h.symm hy.1
  · exact absurd h hx.1
  · exact Or.inl (congrArg Fl.fin h)

/-- C84.  Multiplying a factor by a power of two (at least one) before the product gives the same as multiplying the product, coefficient by coefficient,
wherever nothing overflows and no product of two coefficients underflows. -/
theorem C84_scale_factor (hF : F = .f32 ∨ F = .f64) (h2 : 2 ≤ N) (a b r : Dense Fl) (da db D : Nat) (ha : HasDegree N a da) (hb : HasDegree N b db)
    (hva : ∀ x ∈ a.data, x.Valid F) (hp : N ^ (min D (da + db) + 1) < 2 ^ 64)
    (hr : (DenseAlg.ops (floatCoeff F) p N).multiply a b (some D) = .ok r) (k : Nat) :
    ∃ a' r' c, (DenseAlg.ops (floatCoeff F) p N).scalarLmultiply a (.fin (2 ^ k)) = .ok a' ∧
      (DenseAlg.ops (floatCoeff F) p N).multiply a' b (some D) = .ok r' ∧ (DenseAlg.ops (floatCoeff F) p N).scalarLmultiply r (.fin (2 ^ k)) = .ok c ∧
      ∀ w, ValidWord N w → (∀ u v x y, u ++ v = w → stored N a u = some x → stored N b v = some y → Fl.NoUnderflow F (x.val * y.val)) →
        (coef (floatCoeff F) N r' w).isFin = true → (coef (floatCoeff F) N c w).isFin = true → Fl.Same (coef (floatCoeff F) N r' w) (coef (floatCoeff F) N c w) := by
  refine ⟨Dense.ofVec (a.data.map fun x => Fl.mul F x (.fin (2 ^ k))), ?_⟩
  have hst : ∀ (v : Dense Fl) u, stored N (Dense.ofVec (v.data.map fun x => Fl.mul F x (.fin (2 ^ k)))) u = (stored N v u).map fun x => Fl.mul F x (.fin (2 ^ k)) := by
    intro v u
    unfold stored
    rw [Dense.ofVec_data, List.getElem?_map]
  obtain ⟨r', hr', hsz, h⟩ := C84_powers_of_two F p N hF h2 a b (Dense.ofVec (a.data.map fun x => Fl.mul F x (.fin (2 ^ k)))) b r da db D ha hb
    (by simp [Dense.size]) rfl hp hr (fun _ => k) (fun _ => 0)
    (by
      intro u x x' _ h1 h3 hfin
      rw [hst, h1] at h3
      cases h3
      exact mul_two_pow F hF x (hva x (List.mem_of_getElem? h1)) k hfin)
    (by
      intro u x x' _ h1 h3 hfin
      cases h1.symm.trans h3
      exact ⟨hfin, by simp⟩)
  refine ⟨r', Dense.ofVec (r.data.map fun x => Fl.mul F x (.fin (2 ^ k))), rfl, hr', rfl, fun w hw hu f1 f2 => ?_⟩
  obtain ⟨g1, g2⟩ := h w hw k (fun _ _ _ => rfl) hu f1
  have hd' : HasDegree N (Dense.ofVec (a.data.map fun x => Fl.mul F x (.fin (2 ^ k)))) da := ha.of_size (by simp [Dense.size])
  have hval : ∀ (a b r : Dense Fl), HasDegree N a da → HasDegree N b db → (DenseAlg.ops (floatCoeff F) p N).multiply a b (some D) = .ok r →
      (coef (floatCoeff F) N r w).Valid F := by
    intro a b r ha hb hr
    by_cases hl : w.length ≤ min D (da + db)
    · rw [(product_coef F p N h2 a b r da db D ha hb hp hr w hw hl).1]
      exact flSum_valid F (fmt_ok' hF) _
    · unfold coef
      rw [(C33_multiply_returns (floatCoeff F) p N h2 a b r da db D ha hb hp hr).2 w hw, if_neg hl]
      trivial
  have hc : coef (floatCoeff F) N (Dense.ofVec (r.data.map fun x => Fl.mul F x (.fin (2 ^ k)))) w = .zero false ∧ (coef (floatCoeff F) N r w) = .zero false ∨
      coef (floatCoeff F) N (Dense.ofVec (r.data.map fun x => Fl.mul F x (.fin (2 ^ k)))) w = Fl.mul F (coef (floatCoeff F) N r w) (.fin (2 ^ k)) := by
    unfold coef
    rw [hst]
    cases stored N r w with
    | none => exact Or.inl ⟨rfl, rfl⟩
    | some x => exact Or.inr rfl
  rcases hc with ⟨c1, c2⟩ | c1
  · rw [c1]
    refine same_of_val F _ _ (hval _ _ _ hd' hb hr') trivial f1 rfl ?_
    rw [g2, c2]
    simp [Fl.val]
  · rw [c1] at f2 ⊢
    refine same_of_val F _ _ (hval _ _ _ hd' hb hr') (mul_valid F (fmt_ok' hF) _ _) f1 f2 ?_
    rw [g2, (mul_two_pow F hF _ (hval _ _ _ ha hb hr) k f2).2]

/-- C84.  Scaling every letter by `2^k`, that is, the coefficient of every word `u` by `2^(k |u|)`, goes through the product: this is the rescaling of the
path behind a signature. -/
theorem C84_rescale_letters (hF : F = .f32 ∨ F = .f64) (h2 : 2 ≤ N) (a b a' b' r : Dense Fl) (da db D : Nat) (ha : HasDegree N a da) (hb : HasDegree N b db)
    (sa : a'.size = a.size) (sb : b'.size = b.size) (hva : ∀ x ∈ a.data, x.Valid F) (hvb : ∀ x ∈ b.data, x.Valid F)
    (hp : N ^ (min D (da + db) + 1) < 2 ^ 64) (hr : (DenseAlg.ops (floatCoeff F) p N).multiply a b (some D) = .ok r) (k : Nat)
    (ha' : ∀ u x, ValidWord N u → stored N a u = some x → stored N a' u = some (Fl.mul F x (.fin (2 ^ (k * u.length)))))
    (hb' : ∀ u x, ValidWord N u → stored N b u = some x → stored N b' u = some (Fl.mul F x (.fin (2 ^ (k * u.length))))) :
    ∃ r', (DenseAlg.ops (floatCoeff F) p N).multiply a' b' (some D) = .ok r' ∧ r'.size = r.size ∧ ∀ w, ValidWord N w →
      (∀ u v x y, u ++ v = w → stored N a u = some x → stored N b v = some y → Fl.NoUnderflow F (x.val * y.val)) →
        (coef (floatCoeff F) N r' w).isFin = true →
          (coef (floatCoeff F) N r w).isFin = true ∧ (coef (floatCoeff F) N r' w).val = (coef (floatCoeff F) N r w).val * 2 ^ (k * w.length) := by
  obtain ⟨r', hr', hsz, h⟩ := C84_powers_of_two F p N hF h2 a b a' b' r da db D ha hb sa sb hp hr (fun u => k * u.length) (fun u => k * u.length)
    (fun u x x' hu h1 h3 hfin => by
      cases (ha' u x hu h1).symm.trans h3
      exact mul_two_pow F hF x (hva x (List.mem_of_getElem? h1)) _ hfin)
    (fun u x x' hu h1 h3 hfin => by
      cases (hb' u x hu h1).symm.trans h3
      exact mul_two_pow F hF x (hvb x (List.mem_of_getElem? h1)) _ hfin)
  refine ⟨r', hr', hsz, fun w hw hu => h w hw _ (fun u v huv => ?_) hu⟩
  rw [← huv, List.length_append, Nat.mul_add]

/-! ## Signs -/

/-- `x'` is `-x`, up to the sign of a zero. -/
def Negated (F : FloatFmt) (x x' : Fl) : Prop := x.Valid F ∧ Fl.Same x' (Fl.neg x)

theorem same_isFin {x y : Fl} (h : Fl.Same x y) : x.isFin = y.isFin ∧ x.val = y.val := by
  rcases h with rfl | ⟨s, t, rfl, rfl⟩
  · exact ⟨rfl, rfl⟩
  · exact ⟨rfl, rfl⟩

theorem add_negated (hF : Fl.Ok F) (x x' y y' : Fl) (hx : Negated F x x') (hy : Negated F y y') : Negated F (Fl.add F x y) (Fl.add F x' y') := by
  refine ⟨add_valid F hF x y hx.1 hy.1, ?_⟩
  obtain ⟨fx, vx⟩ := same_isFin hx.2
  obtain ⟨fy, vy⟩ := same_isFin hy.2
  rw [neg_isFin] at fx fy
  rw [neg_val] at vx vy
  by_cases h1 : x.isFin = true
  · by_cases h2 : y.isFin = true
    · obtain ⟨s, hs⟩ := add_round F x' y' (fx.trans h1) (fy.trans h2)
      obtain ⟨t, ht⟩ := add_round F x y h1 h2
      rw [hs, ht, neg_round, vx, vy, ← neg_add]
      by_cases h0 : -(x.val + y.val) = 0
      · rw [h0]
        unfold Fl.round
        rw [if_pos rfl, if_pos rfl]
        exact Or.inr ⟨_, _, rfl, rfl⟩
      · unfold Fl.round
        rw [if_neg h0, if_neg h0]
        exact Or.inl rfl
    · refine Or.inl ?_
      rcases hy.2 with rfl | ⟨s, t, rfl, h⟩
      · cases y with
        | nan => cases x' <;> cases x <;> rfl
        | inf t =>
          cases x with
          | fin q => cases x' <;> first | (cases fx; done) | rfl
          | zero s => cases x' <;> first | (cases fx; done) | rfl
          | _ => cases h1
        | _ => exact absurd rfl h2
      · cases y <;> first | (exact absurd rfl h2) | cases h
  · rcases hx.2 with rfl | ⟨s, t, rfl, h⟩
    · refine Or.inl ?_
      cases x with
      | nan => rfl
      | inf s =>
        cases y with
        | nan => rcases hy.2 with rfl | ⟨_, _, _, h⟩ <;> [rfl; cases h]
        | inf t =>
          rcases hy.2 with rfl | ⟨_, _, _, h⟩ <;> [skip; cases h]
          cases s <;> cases t <;> rfl
        | fin q => cases y' <;> first | (cases fy; done) | rfl
        | zero t => cases y' <;> first | (cases fy; done) | rfl
      | _ => exact absurd rfl h1
    · cases x <;> first | (exact absurd rfl h1) | cases h

theorem neg_mul_right (x y : Fl) (hx : x.Valid F) (hy : y.Valid F) : Fl.neg (Fl.mul F x y) = Fl.mul F x (Fl.neg y) := by
  have hc := fun x y => (C50_commutative F x y).2
  have e := neg_mul_left F y x hy hx
  rw [show Fl.mul F y x = Fl.mul F x y from hc y x, show Fl.mul F (Fl.neg y) x = Fl.mul F x (Fl.neg y) from hc _ _] at e
  exact e

/-- C84.  Changing the sign of a factor changes the signs of all coefficients of the product and nothing else, also for infinities and NaN, up to the signs
of zeros; changing both signs changes nothing. -/
theorem C84_negate (hF : F = .f32 ∨ F = .f64) (h2 : 2 ≤ N) (a b r : Dense Fl) (da db D : Nat) (ha : HasDegree N a da) (hb : HasDegree N b db)
    (hva : ∀ x ∈ a.data, x.Valid F) (hvb : ∀ x ∈ b.data, x.Valid F) (hp : N ^ (min D (da + db) + 1) < 2 ^ 64)
    (hr : (DenseAlg.ops (floatCoeff F) p N).multiply a b (some D) = .ok r) :
    ∃ na nb r1 r2 r3, (DenseAlg.ops (floatCoeff F) p N).uminus a = .ok na ∧ (DenseAlg.ops (floatCoeff F) p N).uminus b = .ok nb ∧
      (DenseAlg.ops (floatCoeff F) p N).multiply na b (some D) = .ok r1 ∧ (DenseAlg.ops (floatCoeff F) p N).multiply a nb (some D) = .ok r2 ∧
      (DenseAlg.ops (floatCoeff F) p N).multiply na nb (some D) = .ok r3 ∧
      ∀ w, ValidWord N w → Fl.Same (coef (floatCoeff F) N r1 w) (Fl.neg (coef (floatCoeff F) N r w)) ∧
        Fl.Same (coef (floatCoeff F) N r2 w) (Fl.neg (coef (floatCoeff F) N r w)) ∧ coef (floatCoeff F) N r3 w = coef (floatCoeff F) N r w := by
  have hst : ∀ (v : Dense Fl) u, stored N (Dense.ofVec (v.data.map Fl.neg)) u = (stored N v u).map Fl.neg := by
    intro v u
    unfold stored
    rw [Dense.ofVec_data, List.getElem?_map]
  have ea : (Dense.ofVec (a.data.map Fl.neg)).size = a.size := by simp [Dense.size]
  have eb : (Dense.ofVec (b.data.map Fl.neg)).size = b.size := by simp [Dense.size]
  obtain ⟨r1, hr1, _, h1⟩ := product_rel F p N h2 a b (Dense.ofVec (a.data.map Fl.neg)) b r da db D ha hb ea rfl hp hr
  obtain ⟨r2, hr2, _, h3⟩ := product_rel F p N h2 a b a (Dense.ofVec (b.data.map Fl.neg)) r da db D ha hb rfl eb hp hr
  obtain ⟨r3, hr3, _, h4⟩ := product_rel F p N h2 a b (Dense.ofVec (a.data.map Fl.neg)) (Dense.ofVec (b.data.map Fl.neg)) r da db D ha hb ea eb hp hr
  refine ⟨_, _, r1, r2, r3, rfl, rfl, hr1, hr2, hr3, fun w hw => ⟨?_, ?_, ?_⟩⟩
  · refine (h1 w hw (Negated F) ⟨trivial, Or.inr ⟨_, _, rfl, rfl⟩⟩ (add_negated F (fmt_ok' hF)) ?_).2
    intro u v x y x' y' _ e1 e2 e3 e4
    rw [hst, e1] at e3
    cases e3
    cases e2.symm.trans e4
    exact ⟨mul_valid F (fmt_ok' hF) _ _, Or.inl (neg_mul_left F x y (hva x (List.mem_of_getElem? e1)) (hvb y (List.mem_of_getElem? e2))).symm⟩
  · refine (h3 w hw (Negated F) ⟨trivial, Or.inr ⟨_, _, rfl, rfl⟩⟩ (add_negated F (fmt_ok' hF)) ?_).2
    intro u v x y x' y' _ e1 e2 e3 e4
    rw [hst, e2] at e4
    cases e4
    cases e1.symm.trans e3
    exact ⟨mul_valid F (fmt_ok' hF) _ _, Or.inl (neg_mul_right F x y (hva x (List.mem_of_getElem? e1)) (hvb y (List.mem_of_getElem? e2))).symm⟩
  · refine (h4 w hw (fun x y => y = x) rfl (fun _ _ _ _ h h' => by rw [h, h']) ?_)
    intro u v x y x' y' _ e1 e2 e3 e4
    rw [hst, e1] at e3
    rw [hst, e2] at e4
    cases e3
    cases e4
    have vx := hva x (List.mem_of_getElem? e1)
    have vy := hvb y (List.mem_of_getElem? e2)
    rw [← neg_mul_left F x _ vx (neg_valid F y vy), ← neg_mul_right F x y vx vy]
    cases Fl.mul F x y <;> simp [Fl.neg]

end

/-! ## Cases -/

theorem res_bind_inv {α β : Type} {x : Res α} {f : α → Res β} {b : β} (h : (x >>= f) = .ok b) : ∃ a, x = .ok a ∧ f a = .ok b := by
  cases x with
  | ok a => exact ⟨a, rfl, h⟩
  | _ => cases h

/-- Underflow has to be excluded: `(2^-75 e1) (2^-75 e1)` rounds to zero, with the first factor doubled it is the least positive number. -/
theorem C84_underflow_matters (p : Profile) :
    ∃ a b a' r r' c, (∀ x ∈ a.data, x.Valid .f32 ∧ x.isFin = true) ∧ (∀ x ∈ b.data, x.Valid .f32 ∧ x.isFin = true) ∧
      (DenseAlg.ops (floatCoeff .f32) p 2).multiply a b (some 2) = .ok r ∧ (DenseAlg.ops (floatCoeff .f32) p 2).scalarLmultiply a (.fin (2 ^ 1)) = .ok a' ∧
      (DenseAlg.ops (floatCoeff .f32) p 2).multiply a' b (some 2) = .ok r' ∧ (DenseAlg.ops (floatCoeff .f32) p 2).scalarLmultiply r (.fin (2 ^ 1)) = .ok c ∧
      coef (floatCoeff .f32) 2 r' [1, 1] = .fin (2 ^ (-149 : Int)) ∧ coef (floatCoeff .f32) 2 c [1, 1] = .zero false := by
  have v : ∀ x ∈ [Fl.zero false, .fin (2 ^ (-75 : Int)), .zero false], x.Valid .f32 ∧ x.isFin = true := by
    intro x hx
    simp only [List.mem_cons, List.not_mem_nil, or_false] at hx
    rcases hx with rfl | rfl | rfl
    · exact ⟨trivial, rfl⟩
    · exact ⟨⟨by positivity, 1, -75, by decide, by decide, by decide, by norm_num⟩, rfl⟩
    · exact ⟨trivial, rfl⟩
  let a : Dense Fl := .ofVec [.zero false, .fin (2 ^ (-75 : Int)), .zero false]
  have h : ∀ p, (∃ r r' : Dense Fl, (DenseAlg.ops (floatCoeff .f32) p 2).multiply a a (some 2) = .ok r ∧
      (DenseAlg.ops (floatCoeff .f32) p 2).multiply (.ofVec (a.data.map fun x => Fl.mul .f32 x (.fin (2 ^ 1)))) a (some 2) = .ok r' ∧
      coef (floatCoeff .f32) 2 r' [1, 1] = .fin (2 ^ (-149 : Int)) ∧ coef (floatCoeff .f32) 2 (.ofVec (r.data.map fun x => Fl.mul .f32 x (.fin (2 ^ 1)))) [1, 1] = .zero false) := by
    intro p
    have k : ((DenseAlg.ops (floatCoeff .f32) p 2).multiply a a (some 2) >>= fun r =>
        .ok (coef (floatCoeff .f32) 2 (.ofVec (r.data.map fun x => Fl.mul .f32 x (.fin (2 ^ 1)))) [1, 1])) = .ok (.zero false) ∧
        ((DenseAlg.ops (floatCoeff .f32) p 2).multiply (.ofVec (a.data.map fun x => Fl.mul .f32 x (.fin (2 ^ 1)))) a (some 2) >>= fun r =>
        .ok (coef (floatCoeff .f32) 2 r [1, 1])) = .ok (.fin (2 ^ (-149 : Int))) := by
      cases p <;> decide +kernel
    obtain ⟨k1, k2⟩ := k
    obtain ⟨r, h1, h2⟩ := res_bind_inv k1
    obtain ⟨r', h3, h4⟩ := res_bind_inv k2
    exact ⟨r, r', h1, h3, Res.ok.inj h4, Res.ok.inj h2⟩
  obtain ⟨r, r', h1, h2, h3, h4⟩ := h p
  exact ⟨a, a, _, r, r', _, v, v, h1, rfl, h2, rfl, h3, h4⟩

/-- `3 e1 + 5 e2` -/
def scA : Dense Fl := .ofVec [.zero false, .fin 3, .fin 5]

/-- `e1 / 2 - 7 e2` -/
def scB : Dense Fl := .ofVec [.zero true, .fin (1 / 2), .fin (-7)]

theorem scA_valid (F : FloatFmt) (hF : F = .f32 ∨ F = .f64) : ∀ x ∈ scA.data, x.Valid F := by
  intro x hx
  simp only [scA, Dense.ofVec, List.mem_cons, List.not_mem_nil, or_false] at hx
  rcases hx with rfl | rfl | rfl
  · trivial
  · exact_mod_cast int_valid 3 (by decide) (by decide) F hF
  · exact_mod_cast int_valid 5 (by decide) (by decide) F hF

theorem scB_valid (F : FloatFmt) (hF : F = .f32 ∨ F = .f64) : ∀ x ∈ scB.data, x.Valid F := by
  intro x hx
  simp only [scB, Dense.ofVec, List.mem_cons, List.not_mem_nil, or_false] at hx
  rcases hx with rfl | rfl | rfl
  · trivial
  · rcases hF with rfl | rfl <;> exact ⟨by norm_num, 1, -1, by decide, by decide, by decide, by norm_num⟩
  · exact_mod_cast int_valid (-7) (by decide) (by decide) F hF

theorem sc_pairs (F : FloatFmt) (hF : F = .f32 ∨ F = .f64) (u v : List Nat) (x y : Fl) (hx : stored 2 scA u = some x) (hy : stored 2 scB v = some y) :
    Fl.NoUnderflow F (x.val * y.val) := by
  have hx := List.mem_of_getElem? hx
  have hy := List.mem_of_getElem? hy
  simp only [scA, scB, Dense.ofVec, List.mem_cons, List.not_mem_nil, or_false] at hx hy
  have h1 : (2 : Rat) ^ (F.eMin + (F.prec - 1)) ≤ 1 := by
    rcases hF with rfl | rfl <;> exact zpow_le_one_of_nonpos₀ (by norm_num) (by decide)
  rcases hx with rfl | rfl | rfl <;> rcases hy with rfl | rfl | rfl <;>
    first
    | (refine Or.inr ⟨0, ?_⟩; simp [Fl.val]; done)
    | (refine Or.inl (h1.trans ?_); norm_num [Fl.val, abs_mul])

theorem sc_product (F : FloatFmt) (p : Profile) : ∃ r, (DenseAlg.ops (floatCoeff F) p 2).multiply scA scB (some 2) = .ok r :=
  (C33_multiply (floatCoeff F) p 2 (by omega) scA scB 1 1 2 ⟨by decide, by decide⟩ ⟨by decide, by decide⟩ (by decide) (by decide) ⟨by decide, by decide⟩).imp
    fun _ h => h.1

/-- `(2^10 (3 e1 + 5 e2)) (e1 / 2 - 7 e2)` -/
example (p : Profile) : ∃ a' r r' c, (DenseAlg.ops (floatCoeff .f32) p 2).scalarLmultiply scA (.fin (2 ^ 10)) = .ok a' ∧
    (DenseAlg.ops (floatCoeff .f32) p 2).multiply scA scB (some 2) = .ok r ∧ (DenseAlg.ops (floatCoeff .f32) p 2).multiply a' scB (some 2) = .ok r' ∧
    (DenseAlg.ops (floatCoeff .f32) p 2).scalarLmultiply r (.fin (2 ^ 10)) = .ok c ∧
    ((coef (floatCoeff .f32) 2 r' [2, 1]).isFin = true → (coef (floatCoeff .f32) 2 c [2, 1]).isFin = true →
      Fl.Same (coef (floatCoeff .f32) 2 r' [2, 1]) (coef (floatCoeff .f32) 2 c [2, 1])) := by
  obtain ⟨r, hr⟩ := sc_product .f32 p
  obtain ⟨a', r', c, h1, h2, h3, h⟩ := C84_scale_factor .f32 p 2 (.inl rfl) (by omega) scA scB r 1 1 2 ⟨by decide, by decide⟩ ⟨by decide, by decide⟩
    (scA_valid _ (.inl rfl)) (by decide) hr 10
  exact ⟨a', r, r', c, h1, hr, h2, h3, h [2, 1] (by decide) fun u v x y _ hx hy => sc_pairs _ (.inl rfl) u v x y hx hy⟩

/-- Both are `2560 e2 e1` there. -/
example (p : Profile) : ((DenseAlg.ops (floatCoeff .f32) p 2).scalarLmultiply scA (.fin (2 ^ 10)) >>= fun a' =>
    (DenseAlg.ops (floatCoeff .f32) p 2).multiply a' scB (some 2) >>= fun r' => .ok (coef (floatCoeff .f32) 2 r' [2, 1])) = .ok (.fin 2560) := by
  cases p <;> decide +kernel

/-- Doubling both letters of both factors multiplies the coefficient of a word of length two by four. -/
example (p : Profile) : ∃ r r', (DenseAlg.ops (floatCoeff .f64) p 2).multiply scA scB (some 2) = .ok r ∧
    (DenseAlg.ops (floatCoeff .f64) p 2).multiply (.ofVec [.zero false, .fin 6, .fin 10]) (.ofVec [.zero true, .fin 1, .fin (-14)]) (some 2) = .ok r' ∧
    ((coef (floatCoeff .f64) 2 r' [1, 2]).isFin = true → (coef (floatCoeff .f64) 2 r' [1, 2]).val = (coef (floatCoeff .f64) 2 r [1, 2]).val * 2 ^ (1 * 2)) := by
  obtain ⟨r, hr⟩ := sc_product .f64 p
  have words : ∀ (a : Dense Fl), a.data.length = 3 → ∀ u x, ValidWord 2 u → stored 2 a u = some x → u = [] ∨ u = [1] ∨ u = [2] := by
    intro a ha u x hu hx
    have hi : wordIndex 2 u < geomSum 2 2 := by
      have := (List.getElem?_eq_some_iff.1 hx).1
      rw [ha] at this
      exact this
    have hl : u.length < 2 := by
      by_contra hc
      have := geomSum_mono (N := 2) (show 2 ≤ u.length by omega)
      have := (wordIndex_bounds hu).1
      omega
    match u, hl with
    | [], _ => exact .inl rfl
    | [l], _ =>
      have := hu l (by simp)
      obtain rfl | rfl : l = 1 ∨ l = 2 := by omega
      · exact .inr (.inl rfl)
      · exact .inr (.inr rfl)
  obtain ⟨r', hr', _, h⟩ := C84_rescale_letters .f64 p 2 (.inr rfl) (by omega) scA scB (.ofVec [.zero false, .fin 6, .fin 10])
    (.ofVec [.zero true, .fin 1, .fin (-14)]) r 1 1 2 ⟨by decide, by decide⟩ ⟨by decide, by decide⟩ rfl rfl (scA_valid _ (.inr rfl)) (scB_valid _ (.inr rfl))
    (by decide) hr 1
    (by
      intro u x hu hx
      rcases words scA rfl u x hu hx with rfl | rfl | rfl <;> (cases hx; decide +kernel))
    (by
      intro u x hu hx
      rcases words scB rfl u x hu hx with rfl | rfl | rfl <;> (cases hx; decide +kernel))
  exact ⟨r, r', hr, hr', fun hf => (h [1, 2] (by decide) (fun u v x y _ hx hy => sc_pairs _ (.inr rfl) u v x y hx hy) hf).2⟩

/-- Signs with an infinity and a NaN. -/
example (p : Profile) : ∃ na r r1, (DenseAlg.ops (floatCoeff .f32) p 2).uminus (.ofVec [.zero true, .inf false, .fin 3]) = .ok na ∧
    (DenseAlg.ops (floatCoeff .f32) p 2).multiply (.ofVec [.zero true, .inf false, .fin 3]) scB (some 2) = .ok r ∧
    (DenseAlg.ops (floatCoeff .f32) p 2).multiply na scB (some 2) = .ok r1 ∧
    Fl.Same (coef (floatCoeff .f32) 2 r1 [1, 2]) (Fl.neg (coef (floatCoeff .f32) 2 r [1, 2])) := by
  obtain ⟨r, hr, _⟩ := C33_multiply (floatCoeff .f32) p 2 (by omega) (.ofVec [.zero true, .inf false, .fin 3]) scB 1 1 2 ⟨by decide, by decide⟩
    ⟨by decide, by decide⟩ (by decide) (by decide) ⟨by decide, by decide⟩
  obtain ⟨na, nb, r1, r2, r3, h1, _, h3, _, _, h⟩ := C84_negate .f32 p 2 (.inl rfl) (by omega) (.ofVec [.zero true, .inf false, .fin 3]) scB r 1 1 2
    ⟨by decide, by decide⟩ ⟨by decide, by decide⟩ (by
      intro x hx
      simp only [Dense.ofVec, List.mem_cons, List.not_mem_nil, or_false] at hx
      rcases hx with rfl | rfl | rfl
      · trivial
      · trivial
      · exact_mod_cast int_valid 3 (by decide) (by decide) .f32 (.inl rfl)) (scB_valid _ (.inl rfl)) (by decide) hr
  exact ⟨na, r, r1, h1, hr, h3, (h [1, 2] (by decide)).1⟩

/-- The coefficients are minus infinity and NaN there. -/
example (p : Profile) : ((DenseAlg.ops (floatCoeff .f32) p 2).multiply (.ofVec [.zero true, .inf false, .fin 3]) scB (some 2) >>= fun r =>
    .ok (coef (floatCoeff .f32) 2 r [1, 2], coef (floatCoeff .f32) 2 r [1])) = .ok (.inf true, .nan) := by
  cases p <;> decide +kernel

end RA
