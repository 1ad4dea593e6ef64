import Verif.Proofs.FloatError
import Verif.Props.Algebra
import Verif.Props.AlgebraLaws
import Verif.Props.Sparse

/-!
# Tensors and vectors with floating-point coefficients (C61 to C64)
-/

namespace RA
open Spec TensorKey TensorBasis DenseAlg Fl

/-! ## Accuracy of the product -/

/-- The pairs of stored coefficients over the splittings of a word. -/
def storedPairs (a b : List Nat → Option Fl) (w : List Nat) : List (Fl × Fl) :=
  (splits w).filterMap fun uv => match a uv.1, b uv.2 with
    | some x, some y => some (x, y)
    | _, _ => none

theorem mem_storedPairs (a b : List Nat → Option Fl) (w : List Nat) (e : Fl × Fl) :
    e ∈ storedPairs a b w ↔ ∃ u v, u ++ v = w ∧ a u = some e.1 ∧ b v = some e.2 := by
  unfold storedPairs
  rw [List.mem_filterMap]
  constructor
  · rintro ⟨⟨u, v⟩, h, he⟩
    refine ⟨u, v, (splits_spec w u v).1 h, ?_⟩
    simp only at he
    cases ha : a u with
    | none => rw [ha] at he; cases he
    | some x =>
      cases hb : b v with
      | none => rw [ha, hb] at he; cases he
      | some y => rw [ha, hb] at he; cases he; exact ⟨rfl, rfl⟩
  · rintro ⟨u, v, h, h1, h2⟩
    exact ⟨(u, v), (splits_spec w u v).2 h, by simp [h1, h2]⟩

theorem storedPairs_length (a b : List Nat → Option Fl) (w : List Nat) : (storedPairs a b w).length ≤ w.length + 1 := by
  unfold storedPairs
  refine (List.length_filterMap_le _ _).trans ?_
  simp [splits]

theorem splitProducts_pairs (f : Fl → Fl → Fl) (a b : List Nat → Option Fl) (w : List Nat) :
    splitProducts f a b w = (storedPairs a b w).map fun e => f e.1 e.2 := by
  unfold splitProducts storedPairs
  rw [List.map_filterMap]
  congr 1
  funext uv
  cases a uv.1 <;> cases b uv.2 <;> rfl

theorem pairs_sum (g : Fl → Rat) (a b : List Nat → Option Fl) (w : List Nat) (h0 : g (.zero false) = 0) :
    ((storedPairs a b w).map fun e => g e.1 * g e.2).sum =
      conv (fun u => g ((a u).getD (.zero false))) (fun u => g ((b u).getD (.zero false))) w := by
  have h := splitProducts_sum (fun u => (a u).map g) (fun u => (b u).map g) w
  have e1 : splitProducts (· * ·) (fun u => (a u).map g) (fun u => (b u).map g) w = (storedPairs a b w).map fun e => g e.1 * g e.2 := by
    unfold splitProducts storedPairs
    rw [List.map_filterMap]
    congr 1
    funext uv
    dsimp only
    cases a uv.1 <;> cases b uv.2 <;> rfl
  have e2 : ∀ c : List Nat → Option Fl, (fun u => ((c u).map g).getD 0) = fun u => g ((c u).getD (.zero false)) := by
    intro c
    funext u
    cases c u with
    | none => exact h0.symm
    | some x => rfl
  rw [e1, e2, e2] at h
  exact h

theorem fmt_ok' {F : FloatFmt} (hF : F = .f32 ∨ F = .f64) : Fl.Ok F := by
  rcases hF with rfl | rfl
  · exact f32_ok
  · exact f64_ok

section
variable (F : FloatFmt) (p : Profile) (N : Nat)

/-- The exact coefficient of the product at `w`: the sum of `a_u b_v` over all splittings `w = u v`. -/
def exactCoef (a b : Dense Fl) (w : List Nat) : Rat :=
  conv (fun u => (coef (floatCoeff F) N a u).val) (fun v => (coef (floatCoeff F) N b v).val) w

/-- The sum of `|a_u| |b_v|` over all splittings `w = u v`. -/
def magCoef (a b : Dense Fl) (w : List Nat) : Rat :=
  conv (fun u => |(coef (floatCoeff F) N a u).val|) (fun v => |(coef (floatCoeff F) N b v).val|) w

theorem product_coef (h2 : 2 ≤ N) (a b r : Dense Fl) (da db D : Nat) (ha : HasDegree N a da) (hb : HasDegree N b db)
    (hp : N ^ (min D (da + db) + 1) < 2 ^ 64) (hr : (DenseAlg.ops (floatCoeff F) p N).multiply a b (some D) = .ok r) (w : List Nat)
    (hw : ValidWord N w) (hl : w.length ≤ min D (da + db)) :
    coef (floatCoeff F) N r w = flSum F (storedPairs (stored N a) (stored N b) w) ∧
      exactSum (storedPairs (stored N a) (stored N b) w) = exactCoef F N a b w ∧ magSum (storedPairs (stored N a) (stored N b) w) = magCoef F N a b w := by
  refine ⟨?_, pairs_sum Fl.val _ _ w rfl, pairs_sum (fun x => |x.val|) _ _ w (by simp [Fl.val])⟩
  obtain ⟨_, h⟩ := C33_multiply_returns (floatCoeff F) p N h2 a b r da db D ha hb hp hr
  unfold coef
  rw [h w hw, if_pos hl, splitProducts_pairs]
  rfl

/-- C63.  A finite coefficient of a product comes from finite coefficients of the factors, and is near the exact sum `Σ a_u b_v`: the error is at most
`((1+ε)^(n+1) - 1) Σ |a_u| |b_v| + n (1+ε)^n η`, where `n` is the number of splittings of the word, `ε` is half a unit in the last place of one and `η` is
half the least positive number. -/
theorem C63_accuracy (hF : F = .f32 ∨ F = .f64) (h2 : 2 ≤ N) (a b r : Dense Fl) (da db D : Nat) (ha : HasDegree N a da) (hb : HasDegree N b db)
    (hp : N ^ (min D (da + db) + 1) < 2 ^ 64) (hr : (DenseAlg.ops (floatCoeff F) p N).multiply a b (some D) = .ok r) (w : List Nat)
    (hw : ValidWord N w) (hl : w.length ≤ min D (da + db)) (hfin : (coef (floatCoeff F) N r w).isFin = true) (n : Nat) (hn : n = w.length + 1) :
    (∀ u v x y, u ++ v = w → stored N a u = some x → stored N b v = some y → x.isFin = true ∧ y.isFin = true) ∧
      |(coef (floatCoeff F) N r w).val - exactCoef F N a b w| ≤
        ((1 + relErr F) ^ (n + 1) - 1) * magCoef F N a b w + n * (1 + relErr F) ^ n * absErr F := by
  obtain ⟨e1, e2, e3⟩ := product_coef F p N h2 a b r da db D ha hb hp hr w hw hl
  rw [e1] at hfin ⊢
  obtain ⟨h1, h3⟩ := flSum_err F (fmt_ok' hF) _ hfin
  refine ⟨fun u v x y huv hx hy => h1 (x, y) ((mem_storedPairs _ _ _ _).2 ⟨u, v, huv, hx, hy⟩), ?_⟩
  rw [e2, e3] at h3
  refine h3.trans ?_
  have hlen := storedPairs_length (stored N a) (stored N b) w
  have hu := relErr_pos F
  have hη := absErr_pos F
  have hm : 0 ≤ magCoef F N a b w := by rw [← e3]; exact magSum_nonneg _
  have p1 : (1 + relErr F) ^ ((storedPairs (stored N a) (stored N b) w).length + 1) ≤ (1 + relErr F) ^ (n + 1) := pow_le_pow_right₀ (by linarith) (by omega)
  have p2 : (1 + relErr F) ^ (storedPairs (stored N a) (stored N b) w).length ≤ (1 + relErr F) ^ n := pow_le_pow_right₀ (by linarith) (by omega)
  have p3 : ((storedPairs (stored N a) (stored N b) w).length : Rat) ≤ n := by exact_mod_cast (by omega : (storedPairs (stored N a) (stored N b) w).length ≤ n)
  have p4 : ((storedPairs (stored N a) (stored N b) w).length : Rat) * (1 + relErr F) ^ (storedPairs (stored N a) (stored N b) w).length ≤
      n * (1 + relErr F) ^ n := mul_le_mul p3 p2 (by positivity) (by positivity)
  have p5 := mul_le_mul_of_nonneg_right p4 hη.le
  have p6 := mul_le_mul_of_nonneg_right (sub_le_sub_right p1 1) hm
  linarith

/-- C63.  The coefficient is finite if all coefficients of the factors are and the magnitudes leave room for the rounding errors. -/
theorem C63_no_overflow (hF : F = .f32 ∨ F = .f64) (h2 : 2 ≤ N) (a b r : Dense Fl) (da db D : Nat) (ha : HasDegree N a da) (hb : HasDegree N b db)
    (hp : N ^ (min D (da + db) + 1) < 2 ^ 64) (hr : (DenseAlg.ops (floatCoeff F) p N).multiply a b (some D) = .ok r) (w : List Nat)
    (hw : ValidWord N w) (hl : w.length ≤ min D (da + db)) (hfa : ∀ x ∈ a.data, x.isFin = true) (hfb : ∀ x ∈ b.data, x.isFin = true) (n : Nat)
    (hn : n = w.length + 1) (hm : (1 + relErr F) ^ (n + 1) * magCoef F N a b w + n * (1 + relErr F) ^ n * absErr F ≤ maxNum F) :
    (coef (floatCoeff F) N r w).isFin = true := by
  obtain ⟨e1, e2, e3⟩ := product_coef F p N h2 a b r da db D ha hb hp hr w hw hl
  rw [e1]
  apply flSum_fin F (fmt_ok' hF)
  · intro e he
    obtain ⟨u, v, _, h1, h3⟩ := (mem_storedPairs _ _ _ _).1 he
    exact ⟨hfa _ (List.mem_of_getElem? h1), hfb _ (List.mem_of_getElem? h3)⟩
  · rw [e3]
    refine le_trans ?_ hm
    have hlen := storedPairs_length (stored N a) (stored N b) w
    have hu := relErr_pos F
    have hη := absErr_pos F
    have hm : 0 ≤ magCoef F N a b w := by rw [← e3]; exact magSum_nonneg _
    have p1 : (1 + relErr F) ^ ((storedPairs (stored N a) (stored N b) w).length + 1) ≤ (1 + relErr F) ^ (n + 1) :=
      pow_le_pow_right₀ (by linarith) (by omega)
    have p2 : (1 + relErr F) ^ (storedPairs (stored N a) (stored N b) w).length ≤ (1 + relErr F) ^ n := pow_le_pow_right₀ (by linarith) (by omega)
    have p3 : ((storedPairs (stored N a) (stored N b) w).length : Rat) ≤ n := by
      exact_mod_cast (by omega : (storedPairs (stored N a) (stored N b) w).length ≤ n)
    have p4 : ((storedPairs (stored N a) (stored N b) w).length : Rat) * (1 + relErr F) ^ (storedPairs (stored N a) (stored N b) w).length ≤
        n * (1 + relErr F) ^ n := mul_le_mul p3 p2 (by positivity) (by positivity)
    have p5 := mul_le_mul_of_nonneg_right p4 hη.le
    have p6 := mul_le_mul_of_nonneg_right p1 hm
    linarith

/-- C64.  Tensors with integer coefficients are multiplied without any rounding error, as long as `Σ |a_u| |b_v|` is at most `2^24` (`f32`) or `2^53`
(`f64`). -/
theorem C64_integers_exact (hF : F = .f32 ∨ F = .f64) (h2 : 2 ≤ N) (a b r : Dense Fl) (da db D : Nat) (ha : HasDegree N a da) (hb : HasDegree N b db)
    (hp : N ^ (min D (da + db) + 1) < 2 ^ 64) (hr : (DenseAlg.ops (floatCoeff F) p N).multiply a b (some D) = .ok r) (w : List Nat)
    (hw : ValidWord N w) (hl : w.length ≤ min D (da + db)) (hia : ∀ x ∈ a.data, x.isFin = true ∧ ∃ n : Int, x.val = n)
    (hib : ∀ x ∈ b.data, x.isFin = true ∧ ∃ n : Int, x.val = n) (hm32 : F = .f32 → magCoef F N a b w ≤ 2 ^ 24)
    (hm64 : F = .f64 → magCoef F N a b w ≤ 2 ^ 53) :
    (coef (floatCoeff F) N r w).isFin = true ∧ (coef (floatCoeff F) N r w).val = exactCoef F N a b w := by
  obtain ⟨e1, e2, e3⟩ := product_coef F p N h2 a b r da db D ha hb hp hr w hw hl
  rw [e1, ← e2]
  have hm : magSum (storedPairs (stored N a) (stored N b) w) ≤ 2 ^ F.prec := by
    rw [e3]
    rcases hF with rfl | rfl
    · exact hm32 rfl
    · exact hm64 rfl
  have h := flSum_int F (fmt_ok' hF) (by rcases hF with rfl | rfl <;> decide) (by rcases hF with rfl | rfl <;> decide)
    (storedPairs (stored N a) (stored N b) w) (by
      intro e he
      obtain ⟨u, v, _, h1, h3⟩ := (mem_storedPairs _ _ _ _).1 he
      have f1 := hia _ (List.mem_of_getElem? h1)
      have f2 := hib _ (List.mem_of_getElem? h3)
      exact ⟨f1.1, f2.1, f1.2, f2.2⟩) hm
  exact ⟨h.1, h.2.1⟩

end

/-- Two tensors over two letters. -/
def exA : Dense Fl := .ofVec [.fin 3, .fin (1 / 2), .fin (-7)]
def exB : Dense Fl := .ofVec [.fin (-2), .fin 5, .fin 8]

theorem ex_product (F : FloatFmt) : ∃ r, (DenseAlg.ops (floatCoeff F) .debug 2).multiply exA exB (some 2) = .ok r := by
  obtain ⟨r, h, _⟩ := C33_multiply (floatCoeff F) .debug 2 (by omega) exA exB 1 1 2 ⟨by decide, by decide⟩ ⟨by decide, by decide⟩ (by decide) (by decide)
    ⟨by decide, by decide⟩
  exact ⟨r, h⟩

theorem ex_mag (F : FloatFmt) : magCoef F 2 exA exB [2] = 38 := by
  norm_num [magCoef, conv, coef, stored, exA, exB, Dense.ofVec, wordIndex, Fl.val, geomSum]

theorem ex_exact (F : FloatFmt) : exactCoef F 2 exA exB [2] = 38 := by
  norm_num [exactCoef, conv, coef, stored, exA, exB, Dense.ofVec, wordIndex, Fl.val, geomSum]

theorem ex_errs : relErr .f32 = 1 / 2 ^ 24 ∧ absErr .f32 = 1 / 2 ^ 150 := by
  constructor
  · show (2 : Rat) ^ (-(24 : Int)) = _
    norm_num
  · show (2 : Rat) ^ (-149 - 1 : Int) = _
    norm_num

theorem ex_fin : ∃ r, (DenseAlg.ops (floatCoeff .f32) .debug 2).multiply exA exB (some 2) = .ok r ∧ (coef (floatCoeff .f32) 2 r [2]).isFin = true := by
  obtain ⟨r, hr⟩ := ex_product .f32
  refine ⟨r, hr, C63_no_overflow .f32 .debug 2 (.inl rfl) (by omega) exA exB r 1 1 2 ⟨by decide, by decide⟩ ⟨by decide, by decide⟩ (by decide) hr [2]
    (by decide) (by decide) (by decide) (by decide) 2 rfl ?_⟩
  rw [ex_mag, ex_errs.1, ex_errs.2]
  norm_num [maxNum, FloatFmt.f32]

/-- The coefficient of the second letter is finite, so `C63_accuracy` bounds its error. -/
example : ∃ r, (DenseAlg.ops (floatCoeff .f32) .debug 2).multiply exA exB (some 2) = .ok r ∧
    |(coef (floatCoeff .f32) 2 r [2]).val - 38| ≤ ((1 + 1 / 2 ^ 24) ^ 3 - 1) * 38 + (2 : Nat) * (1 + 1 / 2 ^ 24) ^ 2 * (1 / 2 ^ 150) := by
  obtain ⟨r, hr, hf⟩ := ex_fin
  have := (C63_accuracy .f32 .debug 2 (.inl rfl) (by omega) exA exB r 1 1 2 ⟨by decide, by decide⟩ ⟨by decide, by decide⟩ (by decide) hr [2]
    (by decide) (by decide) hf 2 rfl).2
  rw [ex_mag, ex_exact, ex_errs.1, ex_errs.2] at this
  exact ⟨r, hr, this⟩

/-- Integer tensors: `(3 - 7 e2)(-2 + 5 e1 + 8 e2)` in `f64`. -/
example : ∃ r, (DenseAlg.ops (floatCoeff .f64) .release 2).multiply (.ofVec [.fin 3, .zero true, .fin (-7)]) exB (some 2) = .ok r ∧
    (coef (floatCoeff .f64) 2 r [2, 1]).val = -35 := by
  obtain ⟨r, hr, _⟩ := C33_multiply (floatCoeff .f64) .release 2 (by omega) (.ofVec [.fin 3, .zero true, .fin (-7)]) exB 1 1 2 ⟨by decide, by decide⟩
    ⟨by decide, by decide⟩ (by decide) (by decide) ⟨by decide, by decide⟩
  have hmag : magCoef .f64 2 (.ofVec [.fin 3, .zero true, .fin (-7)]) exB [2, 1] = 35 := by
    norm_num [magCoef, conv, coef, stored, exB, Dense.ofVec, wordIndex, Fl.val, geomSum, floatCoeff]
  have := (C64_integers_exact .f64 .release 2 (.inr rfl) (by omega) _ exB r 1 1 2 ⟨by decide, by decide⟩ ⟨by decide, by decide⟩ (by decide) hr [2, 1]
    (by decide) (by decide)
    (by
      intro x hx
      simp only [Dense.ofVec, List.mem_cons, List.not_mem_nil, or_false] at hx
      rcases hx with rfl | rfl | rfl
      · exact ⟨rfl, 3, by simp [Fl.val]⟩
      · exact ⟨rfl, 0, by simp [Fl.val]⟩
      · exact ⟨rfl, -7, by simp [Fl.val]⟩)
    (by
      intro x hx
      simp only [exB, Dense.ofVec, List.mem_cons, List.not_mem_nil, or_false] at hx
      rcases hx with rfl | rfl | rfl
      · exact ⟨rfl, -2, by simp [Fl.val]⟩
      · exact ⟨rfl, 5, by simp [Fl.val]⟩
      · exact ⟨rfl, 8, by simp [Fl.val]⟩)
    (by intro h; cases h) (by intro _; rw [hmag]; norm_num)).2
  refine ⟨r, hr, this.trans ?_⟩
  norm_num [exactCoef, conv, coef, stored, exB, Dense.ofVec, wordIndex, Fl.val, geomSum, floatCoeff]

/-- C64.  `2^24` is the best bound for `f32`: for the next integer the product is not exact. -/
theorem C64_integers_bound :
    ∃ a b r : Dense Fl, FullTo 2 a 1 ∧ FullTo 2 b 1 ∧ (DenseAlg.ops (floatCoeff .f32) .debug 2).multiply a b (some 1) = .ok r ∧
      (∀ x ∈ a.data ++ b.data, x.isFin = true ∧ x.Valid .f32 ∧ ∃ n : Int, x.val = n) ∧ magCoef .f32 2 a b [1] = 2 ^ 24 + 1 ∧
      (coef (floatCoeff .f32) 2 r [1]).val ≠ exactCoef .f32 2 a b [1] := by
  let a : Dense Fl := .ofVec [.fin 1, .fin (2 ^ 24), .zero false]
  let b : Dense Fl := .ofVec [.fin 1, .fin 1, .zero false]
  have ha : FullTo 2 a 1 := ⟨rfl, by decide⟩
  have hb : FullTo 2 b 1 := ⟨rfl, by decide⟩
  obtain ⟨r, hr, _⟩ := C33_multiply (floatCoeff .f32) .debug 2 (by omega) a b 1 1 1 (ha.hasDegree (by omega)) (hb.hasDegree (by omega)) (by decide) (by decide)
    ⟨by decide, by decide⟩
  have hv1 : (Fl.fin 1).Valid .f32 := (C50_closed .f32 (.inl rfl) .nan .nan trivial trivial 0).2.2.2.2.2.2.2.1
  refine ⟨a, b, r, ha, hb, hr, ?_, ?_, ?_⟩
  · intro x hx
    simp only [a, b, Dense.ofVec, List.cons_append, List.nil_append, List.mem_cons, List.not_mem_nil, or_false] at hx
    have h1 : (Fl.fin 1).isFin = true ∧ (Fl.fin 1).Valid .f32 ∧ ∃ n : Int, (Fl.fin 1).val = n := ⟨rfl, hv1, 1, by simp [Fl.val]⟩
    have h0 : (Fl.zero false).isFin = true ∧ (Fl.zero false).Valid .f32 ∧ ∃ n : Int, (Fl.zero false).val = n := ⟨rfl, trivial, 0, by simp [Fl.val]⟩
    rcases hx with rfl | rfl | rfl | rfl | rfl | rfl
    · exact h1
    · exact ⟨rfl, ⟨by norm_num, 1, 24, by decide, by decide, by decide, by norm_num⟩, 2 ^ 24, by norm_num [Fl.val]⟩
    · exact h0
    · exact h1
    · exact h1
    · exact h0
  · norm_num [magCoef, conv, coef, stored, a, b, Dense.ofVec, wordIndex, Fl.val, geomSum]
  · have hx : exactCoef .f32 2 a b [1] = ((2 ^ 24 + 1 : Nat) : Rat) := by
      norm_num [exactCoef, conv, coef, stored, a, b, Dense.ofVec, wordIndex, Fl.val, geomSum]
    rw [(product_coef .f32 .debug 2 (by omega) a b r 1 1 1 (ha.hasDegree (by omega)) (hb.hasDegree (by omega)) (by decide) hr [1] (by decide) (by decide)).1, hx]
    intro hc
    have hval := flSum_valid .f32 f32_ok (storedPairs (stored 2 a) (stored 2 b) [1])
    have hnum : IsF32 ((2 ^ 24 + 1 : Nat) : Rat) := by
      rw [← hc]
      cases h : flSum .f32 (storedPairs (stored 2 a) (stored 2 b) [1]) with
      | fin q => rw [h] at hval; exact hval.2
      | _ => exact numOf_zero .f32 f32_ok
    exact C49_from_degree_f32_bound ((C49_from_degree_f32_rounded _ (by norm_num)).2.2 hnum)

theorem not_isF64 : ¬ IsF64 ((2 ^ 53 + 1 : Nat) : Rat) := by
  rintro ⟨m, e, h1, h2, h3, h4⟩
  have h4 : (9007199254740993 : Rat) = m * 2 ^ e := by rw [← h4]; norm_num
  have h1 : |m| < 9007199254740992 := h1
  rcases le_or_gt e 0 with he | he
  · have hm : (m : Rat) = 9007199254740993 * 2 ^ (-e) := by
      rw [h4, mul_assoc, ← zpow_add₀ (by norm_num)]
      simp
    have h5 : (1 : Rat) ≤ 2 ^ (-e) := one_le_zpow₀ (by norm_num) (by omega)
    have h6 : (m : Rat) < 9007199254740992 := by exact_mod_cast lt_of_le_of_lt (le_abs_self m) h1
    linarith
  · obtain ⟨n, rfl⟩ : ∃ n : Nat, e = (n : Int) + 1 := ⟨(e - 1).toNat, by omega⟩
    have h5 : (9007199254740993 : Int) = m * 2 ^ (n + 1) := by
      rw [show (n : Int) + 1 = ((n + 1 : Nat) : Int) by push_cast; rfl, zpow_natCast] at h4
      exact_mod_cast h4
    rw [pow_succ, ← mul_assoc] at h5
    omega

/-- C64.  Nor can the bound for `f64`: at `2^53 + 1` a coefficient comes out wrong. -/
theorem C64_integers_bound_f64 :
    ∃ a b r : Dense Fl, FullTo 2 a 1 ∧ FullTo 2 b 1 ∧ (DenseAlg.ops (floatCoeff .f64) .debug 2).multiply a b (some 1) = .ok r ∧
      (∀ x ∈ a.data ++ b.data, x.isFin = true ∧ x.Valid .f64 ∧ ∃ n : Int, x.val = n) ∧ magCoef .f64 2 a b [1] = 2 ^ 53 + 1 ∧
      (coef (floatCoeff .f64) 2 r [1]).val ≠ exactCoef .f64 2 a b [1] := by
  let a : Dense Fl := .ofVec [.fin 1, .fin (2 ^ 53), .zero false]
  let b : Dense Fl := .ofVec [.fin 1, .fin 1, .zero false]
  have ha : FullTo 2 a 1 := ⟨rfl, by decide⟩
  have hb : FullTo 2 b 1 := ⟨rfl, by decide⟩
  obtain ⟨r, hr, _⟩ := C33_multiply (floatCoeff .f64) .debug 2 (by omega) a b 1 1 1 (ha.hasDegree (by omega)) (hb.hasDegree (by omega)) (by decide) (by decide)
    ⟨by decide, by decide⟩
  have hv1 : (Fl.fin 1).Valid .f64 := (C50_closed .f64 (.inr rfl) .nan .nan trivial trivial 0).2.2.2.2.2.2.2.1
  refine ⟨a, b, r, ha, hb, hr, ?_, ?_, ?_⟩
  · intro x hx
    simp only [a, b, Dense.ofVec, List.cons_append, List.nil_append, List.mem_cons, List.not_mem_nil, or_false] at hx
    have h1 : (Fl.fin 1).isFin = true ∧ (Fl.fin 1).Valid .f64 ∧ ∃ n : Int, (Fl.fin 1).val = n := ⟨rfl, hv1, 1, by simp [Fl.val]⟩
    have h0 : (Fl.zero false).isFin = true ∧ (Fl.zero false).Valid .f64 ∧ ∃ n : Int, (Fl.zero false).val = n := ⟨rfl, trivial, 0, by simp [Fl.val]⟩
    rcases hx with rfl | rfl | rfl | rfl | rfl | rfl
    · exact h1
    · exact ⟨rfl, ⟨by norm_num, 1, 53, by decide, by decide, by decide, by norm_num⟩, 2 ^ 53, by norm_num [Fl.val]⟩
    · exact h0
    · exact h1
    · exact h1
    · exact h0
  · norm_num [magCoef, conv, coef, stored, a, b, Dense.ofVec, wordIndex, Fl.val, geomSum]
  · have hx : exactCoef .f64 2 a b [1] = ((2 ^ 53 + 1 : Nat) : Rat) := by
      norm_num [exactCoef, conv, coef, stored, a, b, Dense.ofVec, wordIndex, Fl.val, geomSum]
    rw [(product_coef .f64 .debug 2 (by omega) a b r 1 1 1 (ha.hasDegree (by omega)) (hb.hasDegree (by omega)) (by decide) hr [1] (by decide) (by decide)).1, hx]
    intro hc
    have hval := flSum_valid .f64 f64_ok (storedPairs (stored 2 a) (stored 2 b) [1])
    have hnum : IsF64 ((2 ^ 53 + 1 : Nat) : Rat) := by
      rw [← hc]
      cases h : flSum .f64 (storedPairs (stored 2 a) (stored 2 b) [1]) with
      | fin q => rw [h] at hval; exact hval.2
      | _ => exact numOf_zero .f64 f64_ok
    exact not_isF64 hnum

/-! ## The unit -/

theorem splits_head (w : List Nat) : ∃ l, splits w = (w, []) :: l ∧ ∀ uv ∈ l, uv.2 ≠ [] := by
  refine ⟨(List.range w.length).reverse.map fun k => (w.take k, w.drop k), ?_, ?_⟩
  · unfold splits
    rw [List.range_succ, List.reverse_append]
    simp
  · intro uv h
    simp only [List.mem_map, List.mem_reverse, List.mem_range] at h
    obtain ⟨k, hk, rfl⟩ := h
    intro hc
    have := congrArg List.length hc
    rw [List.length_drop, List.length_nil] at this
    omega

theorem splits_last (w : List Nat) : ∃ l, splits w = l ++ [([], w)] ∧ ∀ uv ∈ l, uv.1 ≠ [] := by
  refine ⟨((List.range w.length).map (· + 1)).reverse.map fun k => (w.take k, w.drop k), ?_, ?_⟩
  · unfold splits
    rw [List.range_succ_eq_map, List.reverse_cons, List.map_append]
    rfl
  · intro uv h
    simp only [List.mem_map, List.mem_reverse, List.mem_range] at h
    obtain ⟨k, ⟨j, hj, rfl⟩, rfl⟩ := h
    intro hc
    have := congrArg List.length hc
    rw [List.length_take, List.length_nil] at this
    omega

/-- The unit tensor, stored with `m` zeros behind it. -/
def unitVec (m : Nat) : Dense Fl := .ofVec (.fin 1 :: List.replicate m (.zero false))

theorem stored_unit (N m : Nat) (_h1 : 1 ≤ N) (w : List Nat) (hw : ValidWord N w) :
    stored N (unitVec m) w = if w = [] then some (.fin 1) else if wordIndex N w ≤ m then some (.zero false) else none := by
  unfold stored unitVec Dense.ofVec
  by_cases h : w = []
  · subst h
    rfl
  · rw [if_neg h]
    have hpos : wordIndex N w ≠ 0 := by
      intro hc
      exact h (wordIndex_inj hw (by intro x hx; simp at hx) (hc.trans (show 0 = wordIndex N [] from rfl)))
    obtain ⟨i, hi⟩ := Nat.exists_eq_succ_of_ne_zero hpos
    show (Fl.fin 1 :: List.replicate m (Fl.zero false))[wordIndex N w]? = _
    rw [hi, List.getElem?_cons_succ, List.getElem?_replicate]
    simp only [Nat.succ_le_iff]

/-- C61, full statement: the product with the unit (stored with or without trailing zeros) compares equal to the other factor, wherever this has no NaN. -/
def C61_float_unit_full (F : FloatFmt) (p : Profile) (N : Nat) : Prop :=
  ∀ (a r : Dense Fl) (m da du D : Nat), FullTo N a da → FullTo N (unitVec m) du → N ^ (min D (da + du) + 1) < 2 ^ 64 → (∀ x ∈ a.data, x.Valid F ∧ x ≠ .nan) →
    ((DenseAlg.ops (floatCoeff F) p N).multiply a (unitVec m) (some D) = .ok r ∨ (DenseAlg.ops (floatCoeff F) p N).multiply (unitVec m) a (some D) = .ok r) →
    ∀ w, ValidWord N w → w.length ≤ min D (da + du) → (floatCoeff F).eq (coef (floatCoeff F) N r w) (coef (floatCoeff F) N a w) = true

/-- Adding a product that is exactly zero. -/
theorem add_zero_val (F : FloatFmt) (hF : Fl.Ok F) (x y : Fl) (hx : x.isFin = true) (hv : x.Valid F) (hy : y.isFin = true) (h0 : y.val = 0) :
    (Fl.add F x y).isFin = true ∧ (Fl.add F x y).val = x.val := by
  obtain ⟨s, hs⟩ := add_round F x y hx hy
  rw [hs, h0, add_zero]
  apply round_val_num F hF
  cases x with
  | fin q => exact hv.2
  | _ => exact numOf_zero F hF

theorem mul_zero_val (F : FloatFmt) (hF : Fl.Ok F) (x y : Fl) (hx : x.isFin = true) (hy : y.isFin = true) (h : x.val = 0 ∨ y.val = 0) :
    (Fl.mul F x y).isFin = true ∧ (Fl.mul F x y).val = 0 := by
  rw [mul_round F x y hx hy, mul_eq_zero.2 h]
  exact round_val_num F hF _ 0 (numOf_zero F hF)

theorem flSum_zeros (F : FloatFmt) (hF : Fl.Ok F) (l zs : List (Fl × Fl)) (hl : (flSum F l).isFin = true)
    (hz : ∀ e ∈ zs, e.1.isFin = true ∧ e.2.isFin = true ∧ (e.1.val = 0 ∨ e.2.val = 0)) :
    (flSum F (l ++ zs)).isFin = true ∧ (flSum F (l ++ zs)).val = (flSum F l).val := by
  induction zs using List.reverseRecOn with
  | nil => simpa using hl
  | append_singleton zs e ih =>
    obtain ⟨i1, i2⟩ := ih (fun e' he' => hz e' (by simp [he']))
    obtain ⟨f1, f2, f3⟩ := hz e (by simp)
    obtain ⟨g1, g2⟩ := mul_zero_val F hF e.1 e.2 f1 f2 f3
    rw [← List.append_assoc, flSum_snoc, ← i2]
    exact add_zero_val F hF _ _ i1 (flSum_valid F hF _) g1 g2

section
variable (F : FloatFmt) (p : Profile) (N : Nat)

theorem stored_of_full {S : Type} {v : Dense S} {d : Nat} (h : FullTo N v d) (w : List Nat) (hw : ValidWord N w) :
    (w.length ≤ d → ∃ x ∈ v.data, stored N v w = some x) ∧ (d < w.length → stored N v w = none) := by
  have hb := wordIndex_bounds hw
  have hs : v.data.length = geomSum N (d + 1) := h.1
  constructor
  · intro hl
    have : wordIndex N w < v.data.length := by
      rw [hs]
      exact lt_of_lt_of_le hb.2 (geomSum_mono (by omega))
    exact ⟨v.data[wordIndex N w], List.getElem_mem this, List.getElem?_eq_getElem this⟩
  · intro hl
    apply List.getElem?_eq_none
    rw [hs]
    exact le_trans (geomSum_mono (by omega)) hb.1

theorem fin_one_valid (hF : F = .f32 ∨ F = .f64) : (Fl.fin 1).Valid F := (C50_closed F hF .nan .nan trivial trivial 0).2.2.2.2.2.2.2.1

/-- C61 is false: when the unit carries its zeros, an infinite coefficient makes NaN of every coefficient above it. -/
theorem C61_float_unit_refuted (hF : F = .f32 ∨ F = .f64) (h2 : 2 ≤ N) (hN : N ^ 2 < 2 ^ 64) : ¬ C61_float_unit_full F p N := by
  intro h
  have hg : geomSum N 2 = N + 1 := by simp [geomSum]; omega
  let a : Dense Fl := .ofVec (.inf false :: List.replicate N (.fin 1))
  have ha : FullTo N a 1 := ⟨by show (Fl.inf false :: List.replicate N (Fl.fin 1)).length = _; rw [hg]; simp, hN⟩
  have hu : FullTo N (unitVec N) 1 := ⟨by show (Fl.fin 1 :: List.replicate N (Fl.zero false)).length = _; rw [hg]; simp, hN⟩
  have hp : N ^ (min 1 (1 + 1) + 1) < 2 ^ 64 := hN
  obtain ⟨r, hr, _⟩ := C33_multiply (floatCoeff F) p N h2 a (unitVec N) 1 1 1 (ha.hasDegree h2) (hu.hasDegree h2) (by decide) hp
    ⟨by rw [ha.1]; exact le_refl _, by rw [hu.1]; exact le_refl _⟩
  have hw : ValidWord N [1] := by intro x hx; simp at hx; omega
  have := h a r N 1 1 1 ha hu hp (by
    intro x hx
    have hx : x = .inf false ∨ x = .fin 1 := by
      rcases List.mem_cons.1 (show x ∈ Fl.inf false :: List.replicate N (Fl.fin 1) from hx) with h | h
      · exact .inl h
      · exact .inr (List.eq_of_mem_replicate h)
    rcases hx with rfl | rfl
    · exact ⟨trivial, by simp⟩
    · exact ⟨fin_one_valid F hF, by simp⟩) (.inl hr) [1] hw (by decide)
  rw [(product_coef F p N h2 a (unitVec N) r 1 1 1 (ha.hasDegree h2) (hu.hasDegree h2) hp hr [1] hw (by decide)).1] at this
  have hi : wordIndex N [1] = 1 := by simp [wordIndex]
  have hpairs : storedPairs (stored N a) (stored N (unitVec N)) [1] = [(.fin 1, .fin 1), (.inf false, .zero false)] := by
    have h1 : stored N a [1] = some (.fin 1) := by
      show (Fl.inf false :: List.replicate N (Fl.fin 1))[wordIndex N [1]]? = _
      rw [hi, List.getElem?_cons_succ, List.getElem?_replicate, if_pos (by omega)]
    have h3 : stored N (unitVec N) [1] = some (.zero false) := by
      rw [stored_unit N N (by omega) [1] hw, if_neg (by simp), hi, if_pos (by omega)]
    have h4 : stored N (unitVec N) [] = some (.fin 1) := rfl
    have h5 : stored N a [] = some (.inf false) := rfl
    simp [storedPairs, splits, h1, h3, h4, h5, List.range_succ]
  rw [hpairs, show [((Fl.fin 1, Fl.fin 1) : Fl × Fl), (.inf false, .zero false)] = [(.fin 1, .fin 1)] ++ [(.inf false, .zero false)] from rfl,
    flSum_snoc] at this
  have hnan : ∀ x : Fl, Fl.add F x .nan = .nan := by intro x; cases x <;> rfl
  rw [show Fl.mul F (Fl.inf false, Fl.zero false).1 (Fl.inf false, Fl.zero false).2 = .nan from rfl, hnan] at this
  cases this

example : ¬ C61_float_unit_full .f64 .release 5 := C61_float_unit_refuted .f64 .release 5 (.inr rfl) (by omega) (by norm_num)

theorem unit_pairs_right (a : List Nat → Option Fl) (m : Nat) (h1 : 1 ≤ N) (w : List Nat) (hw : ValidWord N w) (ha : ∀ u x, a u = some x → x.isFin = true) :
    ∃ zs, storedPairs a (stored N (unitVec m)) w = (match a w with | some x => [(x, .fin 1)] | none => []) ++ zs ∧
      (∀ e ∈ zs, e.1.isFin = true ∧ e.2.isFin = true ∧ (e.1.val = 0 ∨ e.2.val = 0)) := by
  obtain ⟨l, hl, hne⟩ := splits_head w
  have hmem : ∀ uv ∈ l, uv.1 ++ uv.2 = w := fun uv h => (splits_spec w uv.1 uv.2).1 (by rw [hl]; exact List.mem_cons_of_mem _ h)
  refine ⟨l.filterMap fun uv => match a uv.1, stored N (unitVec m) uv.2 with
    | some x, some y => some (x, y)
    | _, _ => none, ?_, ?_⟩
  · unfold storedPairs
    rw [hl, List.filterMap_cons]
    rw [show stored N (unitVec m) [] = some (.fin 1) from rfl]
    cases a w <;> rfl
  · intro e he
    rw [List.mem_filterMap] at he
    obtain ⟨⟨u, v⟩, huv, he⟩ := he
    have hv : ValidWord N v := fun x hx => hw x (by rw [← hmem _ huv]; simp [hx])
    simp only at he
    rw [stored_unit N m h1 v hv, if_neg (hne _ huv)] at he
    cases hau : a u with
    | none => rw [hau] at he; cases he
    | some x =>
      rw [hau] at he
      split_ifs at he with hm
      · cases he
        exact ⟨ha u x hau, rfl, .inr rfl⟩

theorem unit_pairs_left (b : List Nat → Option Fl) (m : Nat) (h1 : 1 ≤ N) (w : List Nat) (hw : ValidWord N w) (hb : ∀ u x, b u = some x → x.isFin = true) :
    ∃ zs, storedPairs (stored N (unitVec m)) b w = zs ++ (match b w with | some x => [(.fin 1, x)] | none => []) ∧
      (∀ e ∈ zs, e.1.isFin = true ∧ e.2.isFin = true ∧ (e.1.val = 0 ∨ e.2.val = 0)) := by
  obtain ⟨l, hl, hne⟩ := splits_last w
  have hmem : ∀ uv ∈ l, uv.1 ++ uv.2 = w := fun uv h => (splits_spec w uv.1 uv.2).1 (by rw [hl]; exact List.mem_append_left _ h)
  refine ⟨l.filterMap fun uv => match stored N (unitVec m) uv.1, b uv.2 with
    | some x, some y => some (x, y)
    | _, _ => none, ?_, ?_⟩
  · unfold storedPairs
    rw [hl, List.filterMap_append]
    congr 1
    rw [List.filterMap_cons]
    rw [show stored N (unitVec m) [] = some (.fin 1) from rfl]
    cases b w <;> rfl
  · intro e he
    rw [List.mem_filterMap] at he
    obtain ⟨⟨u, v⟩, huv, he⟩ := he
    have hu : ValidWord N u := fun x hx => hw x (by rw [← hmem _ huv]; simp [hx])
    simp only at he
    rw [stored_unit N m h1 u hu, if_neg (hne _ huv)] at he
    cases hbv : b v with
    | none =>
      rw [hbv] at he
      split_ifs at he
    | some x =>
      rw [hbv] at he
      split_ifs at he with hm
      · cases he
        exact ⟨rfl, hb v x hbv, .inl rfl⟩

theorem flSum_single (hF : F = .f32 ∨ F = .f64) (x : Fl) (hx : x.Valid F) :
    flSum F [(x, .fin 1)] = Fl.add F x (.zero false) ∧ flSum F [(.fin 1, x)] = Fl.add F x (.zero false) := by
  have h := (C50_neutral F hF x hx).1
  constructor
  · show Fl.add F (.zero false) (Fl.mul F x (.fin 1)) = _
    rw [show Fl.mul F x (.fin 1) = x from h]
    exact (C50_commutative F _ _).1
  · show Fl.add F (.zero false) (Fl.mul F (.fin 1) x) = _
    rw [show Fl.mul F (.fin 1) x = x from ((C50_commutative F _ _).2).trans h]
    exact (C50_commutative F _ _).1

/-- C61, what holds for any padding: if all coefficients of the other factor are finite, the product compares equal to it. -/
theorem C61_float_unit_finite_partial (hF : F = .f32 ∨ F = .f64) (h2 : 2 ≤ N) (a r : Dense Fl) (m da du D : Nat) (ha : FullTo N a da)
    (hu : FullTo N (unitVec m) du) (hp : N ^ (min D (da + du) + 1) < 2 ^ 64) (hfin : ∀ x ∈ a.data, x.Valid F ∧ x.isFin = true)
    (hr : (DenseAlg.ops (floatCoeff F) p N).multiply a (unitVec m) (some D) = .ok r ∨
      (DenseAlg.ops (floatCoeff F) p N).multiply (unitVec m) a (some D) = .ok r) (w : List Nat) (hw : ValidWord N w) (hl : w.length ≤ min D (da + du)) :
    (floatCoeff F).eq (coef (floatCoeff F) N r w) (coef (floatCoeff F) N a w) = true := by
  have hok := fmt_ok' hF
  have hst : ∀ u x, stored N a u = some x → x.Valid F ∧ x.isFin = true := fun u x h => hfin x (List.mem_of_getElem? h)
  have hcoef : (coef (floatCoeff F) N a w).Valid F ∧ (coef (floatCoeff F) N a w).isFin = true := by
    unfold coef
    cases h : stored N a w with
    | none => exact ⟨trivial, rfl⟩
    | some x => exact hst w x h
  suffices hs : (coef (floatCoeff F) N r w).Valid F ∧ (coef (floatCoeff F) N r w).isFin = true ∧
      (coef (floatCoeff F) N r w).val = (coef (floatCoeff F) N a w).val from
    ((C50_eq F _ _).2 hs.1 hcoef.1 hs.2.1 hcoef.2).2 hs.2.2
  rcases hr with hr | hr
  · rw [(product_coef F p N h2 a (unitVec m) r da du D (ha.hasDegree h2) (hu.hasDegree h2) hp hr w hw hl).1]
    refine ⟨flSum_valid F hok _, ?_⟩
    obtain ⟨zs, e1, e2⟩ := unit_pairs_right N (stored N a) m (by omega) w hw (fun u x h => (hst u x h).2)
    rw [e1]
    have : (flSum F (match stored N a w with | some x => [(x, .fin 1)] | none => [])).isFin = true ∧
        (flSum F (match stored N a w with | some x => [(x, .fin 1)] | none => [])).val = (coef (floatCoeff F) N a w).val := by
      unfold coef
      cases h : stored N a w with
      | none => exact ⟨rfl, rfl⟩
      | some x =>
        simp only [Option.getD_some]
        rw [(flSum_single F hF x (hst w x h).1).1]
        exact add_zero_val F hok x _ (hst w x h).2 (hst w x h).1 rfl rfl
    obtain ⟨z1, z2⟩ := flSum_zeros F hok _ zs this.1 e2
    exact ⟨z1, z2.trans this.2⟩
  · rw [(product_coef F p N h2 (unitVec m) a r du da D (hu.hasDegree h2) (ha.hasDegree h2) (by rwa [Nat.add_comm du da]) hr w hw (by omega)).1]
    refine ⟨flSum_valid F hok _, ?_⟩
    obtain ⟨zs, e1, e2⟩ := unit_pairs_left N (stored N a) m (by omega) w hw (fun u x h => (hst u x h).2)
    rw [e1]
    obtain ⟨z1, z2⟩ := flSum_zeros F hok [] zs rfl e2
    rw [List.nil_append] at z1 z2
    unfold coef
    cases h : stored N a w with
    | none =>
      simp only [List.append_nil]
      exact ⟨z1, z2⟩
    | some x =>
      simp only [Option.getD_some]
      rw [flSum_snoc]
      rw [show Fl.mul F (Fl.fin 1, x).1 (Fl.fin 1, x).2 = x from ((C50_commutative F _ _).2).trans (C50_neutral F hF x (hst w x h).1).1,
        show Fl.add F (flSum F zs) x = Fl.add F x (flSum F zs) from (C50_commutative F _ _).1]
      exact add_zero_val F hok x _ (hst w x h).2 (hst w x h).1 z1 z2

example : ∃ r, (DenseAlg.ops (floatCoeff .f64) .debug 2).multiply (.ofVec [.zero true, .fin 1, .fin (-1 / 2)]) (unitVec 2) (some 2) = .ok r ∧
    (floatCoeff .f64).eq (coef (floatCoeff .f64) 2 r [2]) (.fin (-1 / 2)) = true := by
  have ha : FullTo 2 (.ofVec [Fl.zero true, .fin 1, .fin (-1 / 2)]) 1 := ⟨rfl, by decide⟩
  have hu : FullTo 2 (unitVec 2) 1 := ⟨rfl, by decide⟩
  obtain ⟨r, hr, _⟩ := C33_multiply (floatCoeff .f64) .debug 2 (by omega) _ _ 1 1 2 (ha.hasDegree (by omega)) (hu.hasDegree (by omega)) (by decide) (by decide)
    ⟨by decide, by decide⟩
  refine ⟨r, hr, C61_float_unit_finite_partial .f64 .debug 2 (.inr rfl) (by omega) _ r 2 1 1 2 ha hu (by decide) ?_ (.inl hr) [2] (by decide) (by decide)⟩
  intro x hx
  simp only [Dense.ofVec, List.mem_cons, List.not_mem_nil, or_false] at hx
  rcases hx with rfl | rfl | rfl
  · exact ⟨trivial, rfl⟩
  · exact ⟨fin_one_valid .f64 (.inr rfl), rfl⟩
  · exact ⟨⟨by norm_num, -1, -1, by decide, by decide, by decide, by norm_num⟩, rfl⟩

/-- C61, the unit as `from_key(empty word)` makes it: every coefficient comes back bit for bit, NaN and infinities included, except that `-0` becomes `+0`. -/
theorem C61_float_unit_partial (hF : F = .f32 ∨ F = .f64) (h2 : 2 ≤ N) (a : Dense Fl) (da D : Nat) (ha : FullTo N a da) (hda : 1 ≤ da) (hD : 1 ≤ D)
    (hv : ∀ x ∈ a.data, x.Valid F) :
    ∃ u l r, (DenseAlg.ops (floatCoeff F) p N).fromKey TensorKey.new = .ok u ∧ (DenseAlg.ops (floatCoeff F) p N).multiply u a (some D) = .ok l ∧
      (DenseAlg.ops (floatCoeff F) p N).multiply a u (some D) = .ok r ∧
      l.data = (a.data.take (geomSum N (D + 1))).map (fun x => if x = .zero true then .zero false else x) ∧
      r.data = (a.data.take (geomSum N (D + 1))).map (fun x => if x = .zero true then .zero false else x) := by
  have hu : (DenseAlg.ops (floatCoeff F) p N).fromKey TensorKey.new = .ok (unitVec 0) := by
    have hdim : (tensorBasis p N).dimForKey TensorKey.new = .ok 1 := by
      show vectorDimensionForKey p N TensorKey.new = _
      unfold vectorDimensionForKey
      rw [show degree TensorKey.new = 0 from rfl, addW_ok (by omega), Res.bind_ok,
        startOfDegree_ok p N h2 _ (pow_lt64_mono h2 (by omega) ha.2)]
      rfl
    have hidx : (tensorBasis p N).keyToIndex TensorKey.new = .ok 0 := rfl
    exact Dense.fromKeyScalar_ok (floatCoeff F) _ hdim hidx (by omega) (floatCoeff F).one
  have hfu : FullTo N (unitVec 0) 0 := ⟨rfl, pow_lt64_mono h2 (by omega) ha.2⟩
  have hp : N ^ (min D (da + 0) + 1) < 2 ^ 64 := pow_lt64_mono h2 (by omega) ha.2
  have hp' : N ^ (min D (0 + da) + 1) < 2 ^ 64 := pow_lt64_mono h2 (by omega) ha.2
  obtain ⟨l, l1, _, l3⟩ := C33_multiply (floatCoeff F) p N h2 (unitVec 0) a 0 da D (hfu.hasDegree h2) (ha.hasDegree h2) (by omega) hp'
    ⟨by rw [hfu.1]; exact geomSum_mono (by omega), by rw [ha.1]; exact geomSum_mono (by omega)⟩
  obtain ⟨r, r1, _, r3⟩ := C33_multiply (floatCoeff F) p N h2 a (unitVec 0) da 0 D (ha.hasDegree h2) (hfu.hasDegree h2) (by omega) hp
    ⟨by rw [ha.1]; exact geomSum_mono (by omega), by rw [hfu.1]; exact geomSum_mono (by omega)⟩
  have hun : ∀ w, ValidWord N w → stored N (unitVec 0) w = if w = [] then some (.fin 1) else none := by
    intro w hw
    rw [stored_unit N 0 (by omega) w hw]
    split_ifs with h1 h3
    · rfl
    · exact absurd (wordIndex_inj hw (show ValidWord N [] by intro x hx; simp at hx) (Nat.le_zero.1 h3)) h1
    · rfl
  have hnorm : ∀ x : Fl, x.Valid F → Fl.add F x (.zero false) = if x = .zero true then .zero false else x := by
    intro x hx
    split_ifs with h
    · subst h; rfl
    · exact (C50_neutral F hF x hx).2.2.1 h
  have hst : ∀ w, ValidWord N w → stored N (.ofVec ((a.data.take (geomSum N (D + 1))).map (fun x => if x = Fl.zero true then .zero false else x))) w =
      if w.length ≤ min D da then (stored N a w).map (fun x => if x = Fl.zero true then .zero false else x) else none := by
    intro w hw
    have hb := wordIndex_bounds hw
    show ((a.data.take (geomSum N (D + 1))).map (fun x => if x = Fl.zero true then .zero false else x))[wordIndex N w]? = _
    rw [List.getElem?_map, List.getElem?_take]
    by_cases h : w.length ≤ D
    · rw [if_pos (lt_of_lt_of_le hb.2 (geomSum_mono (by omega)))]
      by_cases h' : w.length ≤ da
      · rw [if_pos (by omega)]
        rfl
      · rw [if_neg (by omega), show a.data[wordIndex N w]? = none from (stored_of_full N ha w hw).2 (by omega)]
        rfl
    · rw [if_neg (by have := geomSum_mono (N := N) (a := D + 1) (b := w.length) (by omega); omega), if_neg (by omega)]
      rfl
  refine ⟨unitVec 0, l, r, hu, l1, r1, data_ext (N := N) (b := .ofVec _) (by omega) fun w hw => ?_, data_ext (N := N) (b := .ofVec _) (by omega) fun w hw => ?_⟩
  · rw [l3 w hw, hst w hw, Nat.zero_add]
    split_ifs with hl
    · obtain ⟨x, hx, hx'⟩ := (stored_of_full N ha w hw).1 (by omega)
      rw [splitProducts_pairs]
      have : storedPairs (stored N (unitVec 0)) (stored N a) w = [(.fin 1, x)] := by
        obtain ⟨L, hL, hne⟩ := splits_last w
        unfold storedPairs
        rw [hL, List.filterMap_append, List.filterMap_eq_nil_iff.2, List.nil_append, List.filterMap_cons, hx']
        · rfl
        · intro uv huv
          have : uv.1 ++ uv.2 = w := (splits_spec w uv.1 uv.2).1 (by rw [hL]; exact List.mem_append_left _ huv)
          rw [hun uv.1 (fun y hy => hw y (by rw [← this]; simp [hy])), if_neg (hne _ huv)]
      rw [this, hx']
      show some (flSum F [(.fin 1, x)]) = _
      rw [(flSum_single F hF x (hv x hx)).2, hnorm x (hv x hx)]
      rfl
    · rfl
  · rw [r3 w hw, hst w hw, Nat.add_zero]
    split_ifs with hl
    · obtain ⟨x, hx, hx'⟩ := (stored_of_full N ha w hw).1 (by omega)
      rw [splitProducts_pairs]
      have : storedPairs (stored N a) (stored N (unitVec 0)) w = [(x, .fin 1)] := by
        obtain ⟨L, hL, hne⟩ := splits_head w
        unfold storedPairs
        rw [hL, List.filterMap_cons, hx', List.filterMap_eq_nil_iff.2]
        · rfl
        · intro uv huv
          have : uv.1 ++ uv.2 = w := (splits_spec w uv.1 uv.2).1 (by rw [hL]; exact List.mem_cons_of_mem _ huv)
          rw [hun uv.2 (fun y hy => hw y (by rw [← this]; simp [hy])), if_neg (hne _ huv)]
          cases stored N a uv.1 <;> rfl
      rw [this, hx']
      show some (flSum F [(x, .fin 1)]) = _
      rw [(flSum_single F hF x (hv x hx)).1, hnorm x (hv x hx)]
      rfl
    · rfl

/-- An infinity, a NaN and a negative zero. -/
example : ∃ u l r, (DenseAlg.ops (floatCoeff .f32) .release 2).fromKey TensorKey.new = .ok u ∧
    (DenseAlg.ops (floatCoeff .f32) .release 2).multiply u (.ofVec [.inf true, .nan, .zero true]) (some 3) = .ok l ∧
    (DenseAlg.ops (floatCoeff .f32) .release 2).multiply (.ofVec [.inf true, .nan, .zero true]) u (some 3) = .ok r ∧
    l.data = [.inf true, .nan, .zero false] ∧ r.data = [.inf true, .nan, .zero false] :=
  C61_float_unit_partial .f32 .release 2 (.inl rfl) (by omega) (.ofVec [.inf true, .nan, .zero true]) 1 3 ⟨rfl, by decide⟩ (by omega) (by omega)
    (by intro x hx; simp only [Dense.ofVec, List.mem_cons, List.not_mem_nil, or_false] at hx; rcases hx with rfl | rfl | rfl <;> trivial)

/-! ## Addition -/

/-- C62, full statement: the sum of two vectors does not depend on their order, bit for bit. -/
def C62_add_comm_full (F : FloatFmt) {K : Type} (B : Basis K) : Prop :=
  ∀ a b : Dense Fl, ∃ r r', (Dense.ops (floatCoeff F) B).add a b = .ok r ∧ (Dense.ops (floatCoeff F) B).add b a = .ok r' ∧ r.data = r'.data

/-- C62 is false for dense vectors: a negative zero is kept when the other vector is shorter, and becomes positive when the shorter vector is extended. -/
theorem C62_add_comm_refuted {K : Type} (B : Basis K) : ¬ C62_add_comm_full F B := by
  intro h
  obtain ⟨r, r', h1, h2, h3⟩ := h (.ofVec [.zero true]) (.ofVec [])
  obtain ⟨s, s1, s2⟩ := Dense.addInplace_data (floatCoeff F) (.ofVec [.zero true]) (.ofVec [])
  obtain ⟨s', s1', s2'⟩ := Dense.addInplace_data (floatCoeff F) (.ofVec []) (.ofVec [.zero true])
  cases h1.symm.trans s1
  cases h2.symm.trans s1'
  rw [s2, s2'] at h3
  have h4 : ([Fl.zero true] : List Fl) = [Fl.zero false] := h3
  cases h4

example : ¬ C62_add_comm_full .f64 integerBasis := C62_add_comm_refuted .f64 integerBasis

/-- C62, dense vectors of equal size: the two sums are the same bit for bit. -/
theorem C62_add_comm_same_size_partial {K : Type} (B : Basis K) (a b : Dense Fl) (hs : a.size = b.size) :
    ∃ r r', (Dense.ops (floatCoeff F) B).add a b = .ok r ∧ (Dense.ops (floatCoeff F) B).add b a = .ok r' ∧ r.data = r'.data := by
  obtain ⟨r, h1, h2⟩ := Dense.addInplace_data (floatCoeff F) (Dense.ofVec a.data) b
  obtain ⟨r', h1', h2'⟩ := Dense.addInplace_data (floatCoeff F) (Dense.ofVec b.data) a
  refine ⟨r, r', h1, h1', ?_⟩
  rw [h2, h2']
  apply List.ext_getElem?
  intro i
  rw [Dense.combine_getElem?, Dense.combine_getElem?]
  rw [Dense.ofVec_data, Dense.ofVec_data]
  have hs : a.data.length = b.data.length := hs
  by_cases h : i < a.data.length
  · rw [List.getElem?_eq_getElem h, List.getElem?_eq_getElem (hs ▸ h)]
    exact congrArg some (C50_commutative F _ _).1
  · rw [List.getElem?_eq_none (by omega), List.getElem?_eq_none (by omega)]

example : ∃ r r', (Dense.ops (floatCoeff .f32) integerBasis).add (.ofVec [.zero true, .nan]) (.ofBorrowed [.zero false, .inf true]) = .ok r ∧
    (Dense.ops (floatCoeff .f32) integerBasis).add (.ofBorrowed [.zero false, .inf true]) (.ofVec [.zero true, .nan]) = .ok r' ∧ r.data = r'.data :=
  C62_add_comm_same_size_partial .f32 integerBasis _ _ rfl

/-- C62, dense vectors of any sizes: the two sums have the same size and agree up to the sign of zeros. -/
theorem C62_add_comm_partial (hF : F = .f32 ∨ F = .f64) {K : Type} (B : Basis K) (a b : Dense Fl)
    (ha : ∀ x ∈ a.data, x.Valid F) (hb : ∀ x ∈ b.data, x.Valid F) :
    ∃ r r', (Dense.ops (floatCoeff F) B).add a b = .ok r ∧ (Dense.ops (floatCoeff F) B).add b a = .ok r' ∧ r.size = r'.size ∧
      ∀ (i : Nat) (x y : Fl), r.data[i]? = some x → r'.data[i]? = some y → x = y ∨ ∃ s t, x = .zero s ∧ y = .zero t := by
  obtain ⟨r, h1, h2⟩ := Dense.addInplace_data (floatCoeff F) (Dense.ofVec a.data) b
  obtain ⟨r', h1', h2'⟩ := Dense.addInplace_data (floatCoeff F) (Dense.ofVec b.data) a
  refine ⟨r, r', h1, h1', ?_, ?_⟩
  · unfold Dense.size
    rw [h2, h2', Dense.combine_length, Dense.combine_length]
    exact Nat.max_comm _ _
  have hz : ∀ x : Fl, x.Valid F → Fl.add F (.zero false) x = x ∨ ∃ s t, Fl.add F (.zero false) x = .zero s ∧ x = .zero t := by
    intro x hx
    rw [show Fl.add F (.zero false) x = Fl.add F x (.zero false) from (C50_commutative F _ _).1]
    by_cases h : x = .zero true
    · exact .inr ⟨false, true, by rw [h]; rfl, h⟩
    · exact .inl ((C50_neutral F hF x hx).2.2.1 h)
  intro i x y hx hy
  rw [h2, Dense.combine_getElem?] at hx
  rw [h2', Dense.combine_getElem?] at hy
  rw [Dense.ofVec_data] at hx hy
  cases h3 : a.data[i]? with
  | none =>
    cases h4 : b.data[i]? with
    | none => rw [h3, h4] at hx; cases hx
    | some v =>
      rw [h3, h4] at hx hy
      cases hx
      cases hy
      exact hz _ (hb _ (List.mem_of_getElem? h4))
  | some u =>
    cases h4 : b.data[i]? with
    | none =>
      rw [h3, h4] at hx hy
      cases hx
      cases hy
      rcases hz _ (ha _ (List.mem_of_getElem? h3)) with h | ⟨s, t, h, h'⟩
      · exact .inl h.symm
      · exact .inr ⟨t, s, h', h⟩
    | some v =>
      rw [h3, h4] at hx hy
      cases hx
      cases hy
      exact .inl (C50_commutative F _ _).1

example := C62_add_comm_partial .f64 (.inr rfl) integerBasis (.ofVec [.zero true, .nan]) (.ofVec [.inf false])
  (by intro x hx; simp only [Dense.ofVec, List.mem_cons, List.not_mem_nil, or_false] at hx; rcases hx with rfl | rfl <;> trivial)
  (by intro x hx; simp only [Dense.ofVec, List.mem_cons, List.not_mem_nil, or_false] at hx; subst hx; trivial)

/-- C62, sparse vectors: the two sums have the same entries bit for bit. -/
theorem C62_sparse_add_comm {K : Type} [DecidableEq K] (a b : Sparse K Fl) (ha : a.WF) (hb : b.WF) :
    ∃ r r', (Sparse.ops (floatCoeff F)).addInplace a b = .ok r ∧ (Sparse.ops (floatCoeff F)).addInplace b a = .ok r' ∧
      ∀ k, (Sparse.ops (floatCoeff F)).get r k = (Sparse.ops (floatCoeff F)).get r' k := by
  obtain ⟨r, _, h1, _, h3⟩ := C26_add_sub (floatCoeff F) a b hb
  obtain ⟨r', _, h1', _, h3'⟩ := C26_add_sub (floatCoeff F) b a ha
  refine ⟨r, r', h1, h1', fun k => ?_⟩
  rw [(h3 k _ _ rfl rfl).1, (h3' k _ _ rfl rfl).1]
  cases Sparse.find a.entries k <;> cases Sparse.find b.entries k <;> first | rfl | skip
  rename_i x y
  show Res.ok (Spec.sparseEntry (Fl.add F) id _ _ _) = Res.ok (Spec.sparseEntry (Fl.add F) id _ _ _)
  unfold Spec.sparseEntry
  simp only
  rw [show Fl.add F x y = Fl.add F y x from (C50_commutative F _ _).1]

example := C62_sparse_add_comm .f64 (⟨[(1, .zero true), (2, .nan)]⟩ : Sparse Nat Fl) ⟨[(2, .fin 1), (7, .zero true)]⟩ (by unfold Sparse.WF; decide)
  (by unfold Sparse.WF; decide)

end

end RA
