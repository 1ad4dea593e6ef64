import Verif.Props.FreeAlgebra
import Verif.Proofs.ExpLog
import Verif.Proofs.Shuffle

/-!
# Exponentials and logarithms of dense tensors, computed with the operations of the crate (C87)

The provided methods `exp` and `log` of the crate are wrong (C39, C41).  These are the programs a user can write instead with the products, sums and divisions of
dense tensors; they are right.
-/

namespace RA
open Spec TensorKey TensorBasis DenseAlg Series WordFn

section
variable {S R : Type} (C : Coeff S R) (p : Profile) (N : Nat)

/-- The tensor of a vector: the coefficients at the words over the alphabet. -/
def tval [CommRing S] (v : Dense S) : WordFn S := fun w => open Classical in if ValidWord N w then coef C N v w else 0

variable {C p N}

theorem tval_word [CommRing S] (v : Dense S) (w : List Nat) (hw : ValidWord N w) : tval C N v w = coef C N v w := if_pos hw

theorem valid_nil : ValidWord N [] := by intro l hl; simp at hl

theorem tval_ext [CommRing S] {v : Dense S} {f : WordFn S} (h1 : ∀ w, ValidWord N w → coef C N v w = f w) (h2 : ∀ w, ¬ ValidWord N w → f w = 0) : tval C N v = f := by
  funext w
  unfold tval
  split_ifs with h
  · exact h1 w h
  · exact (h2 w h).symm

theorem tval_not [CommRing S] (v : Dense S) (w : List Nat) (hw : ¬ ValidWord N w) : tval C N v w = 0 := if_neg hw

theorem tval_mul_not [CommRing S] (a b : Dense S) (w : List Nat) (hw : ¬ ValidWord N w) : (tval C N a * tval C N b) w = 0 := by
  rw [WordFn.mul_apply_sum]
  apply List.sum_eq_zero
  intro x hx
  obtain ⟨k, _, rfl⟩ := List.mem_map.1 hx
  by_cases h : ValidWord N (w.take k)
  · rw [tval_not b, mul_zero]
    intro h'
    refine hw fun l hl => ?_
    rw [← List.take_append_drop k w, List.mem_append] at hl
    exact hl.elim (h l) (h' l)
  · rw [tval_not a _ h, zero_mul]

theorem tval_multiply [CommRing S] (p : Profile) (hC : C.IsRing) (h2 : 2 ≤ N) (a b : Dense S) (da db D : Nat) (ha : FullTo N a da) (hb : FullTo N b db)
    (hM : 1 ≤ min D (da + db)) (hp : N ^ (D + 1) < 2 ^ 64) :
    ∃ r, (DenseAlg.ops C p N).multiply a b (some D) = .ok r ∧ FullTo N r (min D (da + db)) ∧ EqTo D (tval C N r) (tval C N a * tval C N b) := by
  obtain ⟨r, e, hr, h⟩ := C33_multiply_ring C p N hC h2 a b da db D ha hb hM (pow_lt64_mono h2 (by omega) hp)
  refine ⟨r, e, hr, fun w hl => ?_⟩
  by_cases hw : ValidWord N w
  · rw [tval_word r w hw, h w hw, if_pos hl, WordFn.mul_apply]
    exact conv_congr_valid N w hw (fun v hv _ => (tval_word a v hv).symm) (fun v hv _ => (tval_word b v hv).symm)
  · rw [tval_not r w hw, tval_mul_not a b w hw]

theorem tval_add [CommRing S] (p : Profile) (hC : C.IsRing) (a b : Dense S) (da db : Nat) (ha : FullTo N a da) (hb : FullTo N b db) :
    ∃ r, (DenseAlg.ops C p N).add a b = .ok r ∧ FullTo N r (max da db) ∧ tval C N r = tval C N a + tval C N b := by
  obtain ⟨r, e, hs, h⟩ := coef_add C p (N := N) hC a b
  refine ⟨r, e, fullTo_max ha hb hs, tval_ext (fun w hw => ?_) fun w hw => ?_⟩
  · rw [h, WordFn.add_apply, tval_word a w hw, tval_word b w hw]
  · rw [WordFn.add_apply, tval_not a w hw, tval_not b w hw, add_zero]

theorem tval_sub [CommRing S] (p : Profile) (hC : C.IsRing) (a b : Dense S) (da db : Nat) (ha : FullTo N a da) (hb : FullTo N b db) :
    ∃ r, (DenseAlg.ops C p N).sub a b = .ok r ∧ FullTo N r (max da db) ∧ tval C N r = tval C N a - tval C N b := by
  obtain ⟨r, e, hs, h⟩ := coef_sub C p (N := N) hC a b
  refine ⟨r, e, fullTo_max ha hb hs, tval_ext (fun w hw => ?_) fun w hw => ?_⟩
  · rw [h, WordFn.sub_apply, tval_word a w hw, tval_word b w hw]
  · rw [WordFn.sub_apply, tval_not a w hw, tval_not b w hw, sub_zero]

theorem tval_uminus [CommRing S] (p : Profile) (hC : C.IsRing) (a : Dense S) (da : Nat) (ha : FullTo N a da) :
    ∃ r, (DenseAlg.ops C p N).uminus a = .ok r ∧ FullTo N r da ∧ tval C N r = - tval C N a := by
  obtain ⟨r, e, hs, h⟩ := coef_uminus C p (N := N) hC a
  refine ⟨r, e, ⟨hs.trans ha.1, ha.2⟩, tval_ext (fun w hw => ?_) fun w hw => ?_⟩
  · show _ = - (tval C N a w)
    rw [h, tval_word a w hw]
  · show - (tval C N a w) = 0
    rw [tval_not a w hw, neg_zero]

theorem tval_unit [CommRing S] (p : Profile) (hC : C.IsRing) (h2 : 2 ≤ N) (hN : N < 2 ^ 32) :
    ∃ u, (DenseAlg.ops C p N).fromKey TensorKey.new = .ok u ∧ FullTo N u 0 ∧ tval C N u = 1 := by
  obtain ⟨u, e, hu, h⟩ := unit_fromKey C p N hC h2 hN
  refine ⟨u, e, hu, tval_ext (fun w hw => h w hw) fun w hw => ?_⟩
  rw [WordFn.one_apply, if_neg]
  rintro rfl
  exact hw valid_nil

theorem coef_tval_zero [CommRing S] (hC : C.IsRing) (h2 : 2 ≤ N) {v : Dense S} {d D : Nat} (hv : FullTo N v d) (hd : d ≤ D) (w : List Nat) (hw : ValidWord N w)
    (hl : ¬ w.length ≤ D) : coef C N v w = 0 := coef_zero_of_length C N hC (hv.hasDegree h2) w hw (by omega)

/-- From equality up to degree `D` to all coefficients, for a vector of degree at most `D`. -/
theorem coef_of_eqTo [CommRing S] (hC : C.IsRing) (h2 : 2 ≤ N) {v : Dense S} {d D : Nat} (hv : FullTo N v d) (hd : d ≤ D) {f : WordFn S} (h : EqTo D (tval C N v) f)
    (w : List Nat) (hw : ValidWord N w) : coef C N v w = if w.length ≤ D then f w else 0 := by
  split_ifs with hl
  · rw [← tval_word v w hw, h w hl]
  · exact coef_tval_zero hC h2 hv hd w hw hl

end

section
variable {S : Type} (C : Coeff S S) (p : Profile) (N : Nat)

/-! ## The programs -/

/-- The loop of `tensorExp`: `1 + x/D * (1 + x/(D-1) * ...)`, `j` factors from the inside. -/
def expHorner (D : Nat) (x : Dense S) : Nat → Res (Dense S)
  | 0 => (DenseAlg.ops C p N).fromKey TensorKey.new
  | j + 1 => do
    let y ← expHorner D x j
    let t ← (DenseAlg.ops C p N).multiply x y (some D)
    let q ← (DenseAlg.ops C p N).scalarRdivide t (C.ratFromDegree (D - j))
    let u ← (DenseAlg.ops C p N).fromKey TensorKey.new
    (DenseAlg.ops C p N).add u q

/-- The exponential up to degree `D`, by Horner's rule. -/
def tensorExp (D : Nat) (x : Dense S) : Res (Dense S) := expHorner C p N D x D

/-- The loop of `tensorLog`: `1/(D-j) - x * (1/(D-j+1) - ...)`. -/
def logHorner (D : Nat) (x : Dense S) : Nat → Res (Dense S)
  | 0 => do
    let u ← (DenseAlg.ops C p N).fromKey TensorKey.new
    (DenseAlg.ops C p N).scalarRdivide u (C.ratFromDegree D)
  | j + 1 => do
    let y ← logHorner D x j
    let t ← (DenseAlg.ops C p N).multiply x y (some D)
    let u ← (DenseAlg.ops C p N).fromKey TensorKey.new
    let q ← (DenseAlg.ops C p N).scalarRdivide u (C.ratFromDegree (D - 1 - j))
    (DenseAlg.ops C p N).sub q t

/-- The logarithm up to degree `D` of a tensor with constant term `1`, by Horner's rule. -/
def tensorLog (D : Nat) (g : Dense S) : Res (Dense S) := do
  let u ← (DenseAlg.ops C p N).fromKey TensorKey.new
  let x ← (DenseAlg.ops C p N).sub g u
  let q ← logHorner C p N D x (D - 1)
  (DenseAlg.ops C p N).multiply x q (some D)

variable {C p N}

theorem tval_rdivide [Field S] (p : Profile) (hC : C.IsField) (a : Dense S) (s : S) (da : Nat) (ha : FullTo N a da) :
    ∃ r, (DenseAlg.ops C p N).scalarRdivide a s = .ok r ∧ FullTo N r da ∧ tval C N r = s⁻¹ • tval C N a := by
  refine ⟨Dense.ofVec (a.data.map fun x => C.div x s), rfl, ⟨by rw [← ha.1]; simp [Dense.size], ha.2⟩, tval_ext (fun w hw => ?_) fun w hw => ?_⟩
  · rw [WordFn.smul_apply, tval_word a w hw]
    unfold coef stored
    rw [Dense.ofVec_data, List.getElem?_map]
    cases a.data[wordIndex N w]? <;> simp [hC.div, hC.zero, div_eq_inv_mul]
  · rw [WordFn.smul_apply, tval_not a w hw, mul_zero]

/-! ## The two Horner schemes in any algebra -/

section
variable {A : Type} [Field S] [Ring A] [Algebra S A]

/-- The invariant of `expHorner`. -/
def expPart (D j : Nat) (x : A) : A := ∑ i ∈ Finset.range (j + 1), ((((D - j + 1).ascFactorial i : Nat) : S)⁻¹) • x ^ i

theorem expPart_succ (D j : Nat) (hj : j < D) (x : A) : expPart (S := S) D (j + 1) x = 1 + ((D - j : Nat) : S)⁻¹ • (x * expPart (S := S) D j x) := by
  unfold expPart
  rw [Finset.sum_range_succ', Finset.mul_sum, Finset.smul_sum, Nat.ascFactorial_zero, Nat.cast_one, inv_one, one_smul, pow_zero, add_comm]
  congr 1
  refine Finset.sum_congr rfl fun i _ => ?_
  rw [mul_smul_comm, smul_smul, ← pow_succ', show D - (j + 1) + 1 = D - j by omega, Nat.ascFactorial_succ, ← Nat.succ_ascFactorial, Nat.cast_mul, mul_inv]

theorem expPart_all (D : Nat) (x : A) : expPart (S := S) D D x = expTo S D x := by
  unfold expPart expTo
  refine Finset.sum_congr rfl fun i _ => ?_
  rw [Nat.sub_self, Nat.zero_add, Nat.one_ascFactorial]

/-- The invariant of `logHorner`. -/
def logPart (D j : Nat) (x : A) : A := ∑ i ∈ Finset.range (j + 1), ((-1) ^ i * ((D - j + i : Nat) : S)⁻¹) • x ^ i

theorem logPart_succ (D j : Nat) (hj : j + 1 < D) (x : A) : logPart (S := S) D (j + 1) x = ((D - 1 - j : Nat) : S)⁻¹ • 1 - x * logPart (S := S) D j x := by
  unfold logPart
  rw [Finset.sum_range_succ', Finset.mul_sum, pow_zero, pow_zero, one_mul, Nat.add_zero, add_comm, sub_eq_add_neg, ← Finset.sum_neg_distrib,
    show D - (j + 1) = D - 1 - j by omega]
  congr 1
  refine Finset.sum_congr rfl fun i _ => ?_
  rw [mul_smul_comm, ← pow_succ', ← neg_smul, show D - 1 - j + (i + 1) = D - j + i by omega, pow_succ]
  congr 1
  ring

theorem logPart_all (D : Nat) (hD : 1 ≤ D) (x : A) : x * logPart (S := S) D (D - 1) x = logTo S D x := by
  unfold logPart logTo
  rw [Finset.mul_sum, Finset.sum_Ico_eq_sum_range, show D - 1 + 1 = D + 1 - 1 by omega]
  refine Finset.sum_congr rfl fun i _ => ?_
  rw [mul_smul_comm, ← pow_succ', show D - (D - 1) + i = 1 + i by omega, Nat.add_comm 1 i, pow_add (-1 : S) (i + 1), pow_one, pow_succ (-1 : S) i]
  congr 1
  ring

end

/-! ## The values of the programs -/

section
variable [Field S]

theorem expHorner_value (p : Profile) (hC : C.IsField) (h2 : 2 ≤ N) (hN : N < 2 ^ 32) (D : Nat) (hp : N ^ (D + 1) < 2 ^ 64) (x : Dense S) (d : Nat) (hd : 1 ≤ d)
    (hx : FullTo N x d) (j : Nat) (hj : j ≤ D) :
    ∃ r, expHorner C p N D x j = .ok r ∧ (∃ dr, FullTo N r dr ∧ dr ≤ D ∧ (1 ≤ j → 1 ≤ dr)) ∧ EqTo D (tval C N r) (expPart (S := S) D j (tval C N x)) := by
  obtain ⟨u, eu, hu, cu⟩ := tval_unit (C := C) p hC.toIsRing h2 hN
  induction j with
  | zero =>
    refine ⟨u, eu, ⟨0, hu, by omega, by omega⟩, ?_⟩
    rw [cu]
    unfold expPart
    simp only [Nat.zero_add, Finset.sum_range_one, Nat.ascFactorial_zero, Nat.cast_one, inv_one, one_smul, pow_zero]
    exact EqTo.refl _ _
  | succ j ih =>
    obtain ⟨y, ey, ⟨dy, hy, hdy, _⟩, cy⟩ := ih (by omega)
    obtain ⟨t, et, ht, ct⟩ := tval_multiply (C := C) p hC.toIsRing h2 x y d dy D hx hy (by omega) hp
    obtain ⟨q, eq, hq, cq⟩ := tval_rdivide p hC t (C.ratFromDegree (D - j)) _ ht
    obtain ⟨s, es, hs, cs⟩ := tval_add p hC.toIsRing u q _ _ hu hq
    refine ⟨s, ?_, ⟨_, hs, by omega, by omega⟩, ?_⟩
    · unfold expHorner
      rw [ey, Res.bind_ok, et, Res.bind_ok, eq, Res.bind_ok, eu, Res.bind_ok, es]
    · rw [cs, cu, cq, hC.ratFromDegree, expPart_succ D j (by omega)]
      exact (EqTo.refl _ _).add ((ct.trans ((EqTo.refl _ _).mul cy)).smul _)

theorem tensorExp_value (p : Profile) (hC : C.IsField) (h2 : 2 ≤ N) (hN : N < 2 ^ 32) (D : Nat) (hp : N ^ (D + 1) < 2 ^ 64) (x : Dense S) (d : Nat) (hd : 1 ≤ d)
    (hx : FullTo N x d) :
    ∃ r, tensorExp C p N D x = .ok r ∧ (∃ dr, FullTo N r dr ∧ dr ≤ D ∧ (1 ≤ D → 1 ≤ dr)) ∧ EqTo D (tval C N r) (expTo S D (tval C N x)) := by
  have := expHorner_value p hC h2 hN D hp x d hd hx D le_rfl
  rwa [expPart_all] at this

theorem logHorner_value (p : Profile) (hC : C.IsField) (h2 : 2 ≤ N) (hN : N < 2 ^ 32) (D : Nat) (hp : N ^ (D + 1) < 2 ^ 64) (x : Dense S) (d : Nat) (hd : 1 ≤ d)
    (hx : FullTo N x d) (j : Nat) (hj : j < D) :
    ∃ r, logHorner C p N D x j = .ok r ∧ (∃ dr, FullTo N r dr ∧ dr ≤ D) ∧ EqTo D (tval C N r) (logPart (S := S) D j (tval C N x)) := by
  obtain ⟨u, eu, hu, cu⟩ := tval_unit (C := C) p hC.toIsRing h2 hN
  induction j with
  | zero =>
    obtain ⟨q, eq, hq, cq⟩ := tval_rdivide p hC u (C.ratFromDegree D) _ hu
    refine ⟨q, ?_, ⟨0, hq, by omega⟩, ?_⟩
    · unfold logHorner
      rw [eu, Res.bind_ok, eq]
    · rw [cq, cu, hC.ratFromDegree]
      unfold logPart
      simp only [Nat.zero_add, Finset.sum_range_one, pow_zero, one_mul, Nat.sub_zero, Nat.add_zero]
      exact EqTo.refl _ _
  | succ j ih =>
    obtain ⟨y, ey, ⟨dy, hy, hdy⟩, cy⟩ := ih (by omega)
    obtain ⟨t, et, ht, ct⟩ := tval_multiply (C := C) p hC.toIsRing h2 x y d dy D hx hy (by omega) hp
    obtain ⟨q, eq, hq, cq⟩ := tval_rdivide p hC u (C.ratFromDegree (D - 1 - j)) _ hu
    obtain ⟨s, es, hs, cs⟩ := tval_sub p hC.toIsRing q t _ _ hq ht
    refine ⟨s, ?_, ⟨_, hs, by omega⟩, ?_⟩
    · unfold logHorner
      rw [ey, Res.bind_ok, et, Res.bind_ok, eu, Res.bind_ok, eq, Res.bind_ok, es]
    · rw [cs, cq, cu, hC.ratFromDegree, logPart_succ D j (by omega)]
      intro w hl
      rw [WordFn.sub_apply, WordFn.sub_apply, (ct.trans ((EqTo.refl _ _).mul cy)) w hl]

theorem tensorLog_value (p : Profile) (hC : C.IsField) (h2 : 2 ≤ N) (hN : N < 2 ^ 32) (D : Nat) (hD : 1 ≤ D) (hp : N ^ (D + 1) < 2 ^ 64) (g : Dense S) (d : Nat)
    (hd : 1 ≤ d) (hg : FullTo N g d) :
    ∃ r, tensorLog C p N D g = .ok r ∧ (∃ dr, FullTo N r dr ∧ dr ≤ D ∧ 1 ≤ dr) ∧ EqTo D (tval C N r) (logTo S D (tval C N g - 1)) := by
  obtain ⟨u, eu, hu, cu⟩ := tval_unit (C := C) p hC.toIsRing h2 hN
  obtain ⟨x, ex, hx, cx⟩ := tval_sub p hC.toIsRing g u _ _ hg hu
  obtain ⟨q, eq, ⟨dq, hq, hdq⟩, cq⟩ := logHorner_value p hC h2 hN D hp x _ (by omega) hx (D - 1) (by omega)
  obtain ⟨r, er, hr, cr⟩ := tval_multiply (C := C) p hC.toIsRing h2 x q _ dq D hx hq (by omega) hp
  refine ⟨r, ?_, ⟨_, hr, by omega, by omega⟩, ?_⟩
  · unfold tensorLog
    rw [eu, Res.bind_ok, ex, Res.bind_ok, eq, Res.bind_ok, er]
  · rw [← cu, ← cx, ← logPart_all D hD]
    exact cr.trans ((EqTo.refl _ _).mul cq)

end

/-! ## C87 -/

section
variable (C p N) [Field S]

/-- C87.  The exponential by Horner's rule returns, in both profiles, and is the exponential series: at every word of length at most `D` the coefficient of
`1 + x + x^2/2! + ... + x^D/D!`, and zero at longer words. -/
theorem C87_exp (hC : C.IsField) (h2 : 2 ≤ N) (hN : N < 2 ^ 32) (D : Nat) (hp : N ^ (D + 1) < 2 ^ 64) (x : Dense S) (d : Nat) (hd : 1 ≤ d) (hx : FullTo N x d) :
    ∃ r, tensorExp C p N D x = .ok r ∧
      ∀ w, ValidWord N w → coef C N r w = if w.length ≤ D then (∑ k ∈ Finset.range (D + 1), ((k.factorial : S)⁻¹) • tval C N x ^ k) w else 0 := by
  obtain ⟨r, e, ⟨dr, hr, hdr, _⟩, h⟩ := tensorExp_value (C := C) p hC h2 hN D hp x d hd hx
  exact ⟨r, e, coef_of_eqTo hC.toIsRing h2 hr hdr h⟩

/-- C87.  The logarithm by Horner's rule: at every word of length at most `D` the coefficient of `y - y^2/2 + ... ± y^D/D` with `y = g - 1`, and zero at longer
words. -/
theorem C87_log (hC : C.IsField) (h2 : 2 ≤ N) (hN : N < 2 ^ 32) (D : Nat) (hD : 1 ≤ D) (hp : N ^ (D + 1) < 2 ^ 64) (g : Dense S) (d : Nat) (hd : 1 ≤ d)
    (hg : FullTo N g d) :
    ∃ r, tensorLog C p N D g = .ok r ∧
      ∀ w, ValidWord N w → coef C N r w = if w.length ≤ D then (∑ k ∈ Finset.Ico 1 (D + 1), ((-1) ^ (k + 1) * (k : S)⁻¹) • (tval C N g - 1) ^ k) w else 0 := by
  obtain ⟨r, e, ⟨dr, hr, hdr, _⟩, h⟩ := tensorLog_value (C := C) p hC h2 hN D hD hp g d hd hg
  exact ⟨r, e, coef_of_eqTo hC.toIsRing h2 hr hdr h⟩

theorem tval_order_one {x : Dense S} (h0 : coef C N x [] = 0) : tval C N x ∈ (wordFilt S).F 1 := (WordFn.mem_order_one _).2 (by rw [tval_word x [] valid_nil, h0])

/-- C87.  Over a field of characteristic zero, the logarithm of the exponential of a tensor without constant term is that tensor. -/
theorem C87_log_exp [CharZero S] (hC : C.IsField) (h2 : 2 ≤ N) (hN : N < 2 ^ 32) (D : Nat) (hD : 1 ≤ D) (hp : N ^ (D + 1) < 2 ^ 64) (x : Dense S) (d : Nat) (hd : 1 ≤ d)
    (hx : FullTo N x d) (h0 : coef C N x [] = 0) :
    ∃ e l, tensorExp C p N D x = .ok e ∧ tensorLog C p N D e = .ok l ∧ ∀ w, ValidWord N w → coef C N l w = if w.length ≤ D then coef C N x w else 0 := by
  obtain ⟨e, ee, ⟨de, he, hde, hde'⟩, ce⟩ := tensorExp_value (C := C) p hC h2 hN D hp x d hd hx
  obtain ⟨l, el, ⟨dl, hl, hdl, _⟩, cl⟩ := tensorLog_value (C := C) p hC h2 hN D hD hp e de (hde' hD) he
  refine ⟨e, l, ee, el, fun w hw => ?_⟩
  have h1 : tval C N e - 1 - (expTo S D (tval C N x) - 1) ∈ (wordFilt S).F (D + 1) := by
    rw [sub_sub_sub_cancel_right]
    exact (eqTo_iff D _ _).1 ce
  have := (eqTo_iff D _ _).2 ((wordFilt S).logTo_congr h1 D)
  have := (cl.trans this).trans ((eqTo_iff D _ _).2 ((wordFilt S).log_exp (tval_order_one C N h0) D))
  rw [coef_of_eqTo hC.toIsRing h2 hl hdl this w hw, tval_word x w hw]

/-- C87.  The exponential of the logarithm of a tensor with constant term `1` is that tensor. -/
theorem C87_exp_log [CharZero S] (hC : C.IsField) (h2 : 2 ≤ N) (hN : N < 2 ^ 32) (D : Nat) (hD : 1 ≤ D) (hp : N ^ (D + 1) < 2 ^ 64) (g : Dense S) (d : Nat) (hd : 1 ≤ d)
    (hg : FullTo N g d) (h1 : coef C N g [] = 1) :
    ∃ l e, tensorLog C p N D g = .ok l ∧ tensorExp C p N D l = .ok e ∧ ∀ w, ValidWord N w → coef C N e w = if w.length ≤ D then coef C N g w else 0 := by
  obtain ⟨l, el, ⟨dl, hl, hdl, hdl'⟩, cl⟩ := tensorLog_value (C := C) p hC h2 hN D hD hp g d hd hg
  obtain ⟨e, ee, ⟨de, he, hde, _⟩, ce⟩ := tensorExp_value (C := C) p hC h2 hN D hp l dl hdl' hl
  refine ⟨l, e, el, ee, fun w hw => ?_⟩
  have h0 : tval C N g - 1 ∈ (wordFilt S).F 1 := (WordFn.mem_order_one _).2 (by
    rw [WordFn.sub_apply, tval_word g [] valid_nil, h1, WordFn.one_apply, if_pos rfl, sub_self])
  have := (eqTo_iff D _ _).2 ((wordFilt S).expTo_congr ((eqTo_iff D _ _).1 cl) D)
  have h3 := (eqTo_iff D _ _).2 ((wordFilt S).exp_log h0 D)
  rw [add_sub_cancel] at h3
  rw [coef_of_eqTo hC.toIsRing h2 he hde ((ce.trans this).trans h3) w hw, tval_word g w hw]

/-- C87.  The exponential of a sum of tensors whose two products, truncated at degree `D`, agree is the product of the exponentials. -/
theorem C87_exp_add [CharZero S] (hC : C.IsField) (h2 : 2 ≤ N) (hN : N < 2 ^ 32) (D : Nat) (hD : 1 ≤ D) (hp : N ^ (D + 1) < 2 ^ 64) (x y : Dense S) (dx dy : Nat)
    (hdx : 1 ≤ dx) (hdy : 1 ≤ dy) (hx : FullTo N x dx) (hy : FullTo N y dy) (h0 : coef C N x [] = 0) (h0' : coef C N y [] = 0) (xy yx : Dense S)
    (exy : (DenseAlg.ops C p N).multiply x y (some D) = .ok xy) (eyx : (DenseAlg.ops C p N).multiply y x (some D) = .ok yx)
    (hxy : ∀ w, ValidWord N w → coef C N xy w = coef C N yx w) :
    ∃ a b r s t, tensorExp C p N D x = .ok a ∧ tensorExp C p N D y = .ok b ∧ (DenseAlg.ops C p N).multiply a b (some D) = .ok r ∧
      (DenseAlg.ops C p N).add x y = .ok s ∧ tensorExp C p N D s = .ok t ∧ ∀ w, ValidWord N w → coef C N r w = coef C N t w := by
  obtain ⟨a, ea, ⟨da, ha, hda, hda'⟩, ca⟩ := tensorExp_value (C := C) p hC h2 hN D hp x dx hdx hx
  obtain ⟨b, eb, ⟨db, hb, hdb, hdb'⟩, cb⟩ := tensorExp_value (C := C) p hC h2 hN D hp y dy hdy hy
  have := hda' hD
  obtain ⟨r, er, hr, cr⟩ := tval_multiply (C := C) p hC.toIsRing h2 a b _ _ D ha hb (by omega) hp
  obtain ⟨s, es, hs, cs⟩ := tval_add p hC.toIsRing x y _ _ hx hy
  obtain ⟨t, et, ⟨dt, ht, hdt, _⟩, ct⟩ := tensorExp_value (C := C) p hC h2 hN D hp s (max dx dy) (by omega) hs
  refine ⟨a, b, r, s, t, ea, eb, er, es, et, fun w hw => ?_⟩
  have hcomm : tval C N x * tval C N y - tval C N y * tval C N x ∈ (wordFilt S).F (D + 1) := by
    obtain ⟨z, ez, _, cz⟩ := tval_multiply (C := C) p hC.toIsRing h2 x y _ _ D hx hy (by omega) hp
    obtain ⟨z', ez', _, cz'⟩ := tval_multiply (C := C) p hC.toIsRing h2 y x _ _ D hy hx (by omega) hp
    cases ez.symm.trans exy
    cases ez'.symm.trans eyx
    refine (eqTo_iff D _ _).1 ((cz.symm.trans fun w hl => ?_).trans cz')
    by_cases hw : ValidWord N w
    · rw [tval_word _ w hw, tval_word _ w hw, hxy w hw]
    · rw [tval_not _ w hw, tval_not _ w hw]
  have h3 := (eqTo_iff D _ _).2 ((wordFilt S).exp_add_mod (tval_order_one C N h0) (tval_order_one C N h0') D hcomm)
  rw [cs] at ct
  have := cr.trans ((ca.mul cb).trans h3)
  rw [coef_of_eqTo hC.toIsRing h2 hr (by omega) this w hw, coef_of_eqTo hC.toIsRing h2 ht hdt ct w hw]

/-- C87.  The exponential of the negative is the inverse of the exponential, on both sides. -/
theorem C87_exp_neg [CharZero S] (hC : C.IsField) (h2 : 2 ≤ N) (hN : N < 2 ^ 32) (D : Nat) (hD : 1 ≤ D) (hp : N ^ (D + 1) < 2 ^ 64) (x : Dense S) (d : Nat) (hd : 1 ≤ d)
    (hx : FullTo N x d) (h0 : coef C N x [] = 0) :
    ∃ m a b r s, (DenseAlg.ops C p N).uminus x = .ok m ∧ tensorExp C p N D x = .ok a ∧ tensorExp C p N D m = .ok b ∧
      (DenseAlg.ops C p N).multiply a b (some D) = .ok r ∧ (DenseAlg.ops C p N).multiply b a (some D) = .ok s ∧
      ∀ w, ValidWord N w → coef C N r w = (if w = [] then 1 else 0) ∧ coef C N s w = (if w = [] then 1 else 0) := by
  obtain ⟨m, em, hm, cm⟩ := tval_uminus (C := C) p hC.toIsRing x d hx
  obtain ⟨a, ea, ⟨da, ha, hda, hda'⟩, ca⟩ := tensorExp_value (C := C) p hC h2 hN D hp x d hd hx
  obtain ⟨b, eb, ⟨db, hb, hdb, hdb'⟩, cb⟩ := tensorExp_value (C := C) p hC h2 hN D hp m d hd hm
  have := hda' hD
  obtain ⟨r, er, hr, cr⟩ := tval_multiply (C := C) p hC.toIsRing h2 a b _ _ D ha hb (by omega) hp
  obtain ⟨s, es, hs, cs⟩ := tval_multiply (C := C) p hC.toIsRing h2 b a _ _ D hb ha (by omega) hp
  refine ⟨m, a, b, r, s, em, ea, eb, er, es, fun w hw => ?_⟩
  rw [cm] at cb
  have hx1 := tval_order_one C N h0
  have hm1 : - tval C N x ∈ (wordFilt S).F 1 := Submodule.neg_mem _ hx1
  have zero : expTo S D (0 : WordFn S) = 1 := by
    unfold expTo
    rw [Finset.sum_range_succ', Finset.sum_eq_zero fun k _ => by rw [zero_pow (by omega), smul_zero]]
    simp
  have h3 := (eqTo_iff D _ _).2 ((wordFilt S).exp_add hx1 hm1 (Commute.neg_right (Commute.refl _)) D)
  have h4 := (eqTo_iff D _ _).2 ((wordFilt S).exp_add hm1 hx1 (Commute.neg_left (Commute.refl _)) D)
  rw [add_neg_cancel, zero] at h3
  rw [neg_add_cancel, zero] at h4
  rw [coef_of_eqTo hC.toIsRing h2 hr (by omega) (cr.trans ((ca.mul cb).trans h3)) w hw,
    coef_of_eqTo hC.toIsRing h2 hs (by omega) (cs.trans ((cb.mul ca).trans h4)) w hw, WordFn.one_apply]
  by_cases hl : w.length ≤ D
  · rw [if_pos hl]
    exact ⟨rfl, rfl⟩
  · rw [if_neg hl, if_neg (by rintro rfl; simp at hl)]
    exact ⟨rfl, rfl⟩

theorem pow_linear (f : WordFn S) (hf : ∀ w : List Nat, w.length ≠ 1 → f w = 0) (k : Nat) (w : List Nat) :
    (f ^ k) w = if w.length = k then (w.map fun l => f [l]).prod else 0 := by
  induction k generalizing w with
  | zero =>
    rw [pow_zero, WordFn.one_apply]
    cases w <;> simp
  | succ k ih =>
    rw [pow_succ', WordFn.mul_apply]
    cases w with
    | nil =>
      show f [] * _ = _
      rw [hf [] (by simp), zero_mul]
      simp
    | cons l w =>
      rw [← WordFn.mul_apply, WordFn.mul_cons, hf [] (by simp), zero_mul, zero_add]
      have e : ∀ u : List Nat, f (l :: u) = f [l] * unitFn u := by
        intro u
        cases u with
        | nil => simp [unitFn]
        | cons m u => rw [hf (l :: m :: u) (by simp)]; simp [unitFn]
      rw [show (fun u => f (l :: u)) = fun u => f [l] * unitFn u from funext e]
      refine (conv_smul_left (f [l]) unitFn (f ^ k) w).trans ?_
      refine (congrArg (f [l] * ·) ((conv_unit_left (f ^ k) w).trans (ih w))).trans ?_
      simp

/-- C87.  The exponential of a linear combination of letters: at a word the product of the coefficients of its letters divided by the factorial of its length. -/
theorem C87_exp_linear (hC : C.IsField) (h2 : 2 ≤ N) (hN : N < 2 ^ 32) (D : Nat) (hp : N ^ (D + 1) < 2 ^ 64) (x : Dense S) (hx : FullTo N x 1) (h0 : coef C N x [] = 0) :
    ∃ r, tensorExp C p N D x = .ok r ∧
      ∀ w, ValidWord N w → coef C N r w = if w.length ≤ D then (w.map fun l => coef C N x [l]).prod / w.length.factorial else 0 := by
  obtain ⟨r, e, h⟩ := C87_exp C p N hC h2 hN D hp x 1 le_rfl hx
  refine ⟨r, e, fun w hw => ?_⟩
  rw [h w hw]
  split_ifs with hl
  · have hf : ∀ w : List Nat, w.length ≠ 1 → tval C N x w = 0 := by
      intro w hw
      by_cases hv : ValidWord N w
      · rw [tval_word x w hv]
        rcases Nat.lt_or_ge 1 w.length with h | h
        · exact coef_zero_of_length C N hC.toIsRing (hx.hasDegree h2) w hv h
        · rw [List.length_eq_zero_iff.1 (by omega : w.length = 0), h0]
      · exact tval_not x w hv
    rw [WordFn.sum_apply, Finset.sum_eq_single w.length]
    · rw [WordFn.smul_apply, pow_linear _ hf, if_pos rfl, div_eq_inv_mul]
      congr 2
      apply List.map_congr_left
      intro l hlw
      exact tval_word x [l] (by intro m hm; rw [List.mem_singleton] at hm; rw [hm]; exact hw l hlw)
    · intro k _ hk
      rw [WordFn.smul_apply, pow_linear _ hf, if_neg (fun h => hk h.symm), mul_zero]
    · intro hk
      exact absurd (Finset.mem_range.2 (by omega)) hk
  · rfl

end
end

/-! ## Concrete cases -/

/-- C87 on `2 e_1 + 3 e_2` over the rationals, up to degree three. -/
example := C87_exp (fieldCoeff Rat) .debug 2 (fieldCoeff_isField Rat) (by omega) (by omega) 3 (by decide) (Dense.ofVec [0, 2, 3]) 1 le_rfl ⟨rfl, by decide⟩
example := C87_exp_linear (fieldCoeff Rat) .debug 2 (fieldCoeff_isField Rat) (by omega) (by omega) 3 (by decide) (Dense.ofVec [0, 2, 3]) ⟨rfl, by decide⟩ (by rfl)
example := C87_log_exp (fieldCoeff Rat) .debug 2 (fieldCoeff_isField Rat) (by omega) (by omega) 3 (by omega) (by decide) (Dense.ofVec [0, 2, 3, 0, 1, -1, 0]) 2 (by omega)
  ⟨rfl, by decide⟩ (by rfl)
example := C87_exp_neg (fieldCoeff Rat) .debug 2 (fieldCoeff_isField Rat) (by omega) (by omega) 3 (by omega) (by decide) (Dense.ofVec [0, 2, 3, 0, 1, -1, 0]) 2 (by omega)
  ⟨rfl, by decide⟩ (by rfl)
/-- C87 on `1 + e_1 + 5 e_{12}`. -/
example := C87_log (fieldCoeff Rat) .debug 2 (fieldCoeff_isField Rat) (by omega) (by omega) 3 (by omega) (by decide) (Dense.ofVec [1, 1, 0, 0, 5, 0, 0]) 2 (by omega)
  ⟨rfl, by decide⟩
example := C87_exp_log (fieldCoeff Rat) .debug 2 (fieldCoeff_isField Rat) (by omega) (by omega) 3 (by omega) (by decide) (Dense.ofVec [1, 1, 0, 0, 5, 0, 0]) 2 (by omega)
  ⟨rfl, by decide⟩ (by rfl)
/-- C87 on `e_1` and `2 e_1 + 3 e_{11}`, of different degrees. -/
example := C87_exp_add (fieldCoeff Rat) .debug 2 (fieldCoeff_isField Rat) (by omega) (by omega) 2 (by omega) (by decide) (Dense.ofVec [0, 1, 0])
  (Dense.ofVec [0, 2, 0, 3, 0, 0, 0]) 1 2 (by omega) (by omega) ⟨rfl, by decide⟩ ⟨rfl, by decide⟩ (by rfl) (by rfl) (Dense.ofVec [0, 0, 0, 2, 0, 0, 0])
  (Dense.ofVec [0, 0, 0, 2, 0, 0, 0]) (by decide +kernel) (by decide +kernel) (fun _ _ => rfl)
/-- The run of the program on `2 e_1 + 3 e_2` up to degree two. -/
example : tensorExp (fieldCoeff Rat) .debug 2 2 (Dense.ofVec [0, 2, 3]) = .ok (Dense.ofVec [1, 2, 3, 2, 3, 3, 9 / 2]) := by decide +kernel
/-- Commutation cannot be dropped: for `e_1` and `e_2` the exponential of the sum differs from the product of the exponentials at the word `12`. -/
example : tensorExp (fieldCoeff Rat) .debug 2 2 (Dense.ofVec [0, 1, 1]) = .ok (Dense.ofVec [1, 1, 1, 1 / 2, 1 / 2, 1 / 2, 1 / 2]) ∧
    (do let a ← tensorExp (fieldCoeff Rat) .debug 2 2 (Dense.ofVec [0, 1, 0]); let b ← tensorExp (fieldCoeff Rat) .debug 2 2 (Dense.ofVec [0, 0, 1])
        (DenseAlg.ops (fieldCoeff Rat) .debug 2).multiply a b (some 2)) = .ok (Dense.ofVec [1, 1, 1, 1 / 2, 1, 0, 1 / 2]) := by decide +kernel

end RA
