import Verif.Proofs.Adjoint

/-!
# Conjugation by an exponential and the Baker–Campbell–Hausdorff formula (C98)
-/

namespace RA
open Spec TensorKey TensorBasis DenseAlg Series WordFn

section
variable {S : Type} (C : Coeff S S) (p : Profile) (N : Nat)

/-- The loop of `adExp`: `y + [x, y + [x, ...]/(D-1)]/D`, `j` brackets from the inside. -/
def adHorner (D : Nat) (x y : Dense S) : Nat → Res (Dense S)
  | 0 => .ok y
  | j + 1 => do
    let z ← adHorner D x y j
    let t ← (DenseAlg.ops C p N).commutator C x z (some D)
    let q ← (DenseAlg.ops C p N).scalarRdivide t (C.ratFromDegree (D - j))
    (DenseAlg.ops C p N).add y q

/-- `y + [x, y] + [x, [x, y]]/2! + ...` up to `D` brackets, by Horner's rule with `commutator`, `scalar_rdivide` and `add`. -/
def adExp (D : Nat) (x y : Dense S) : Res (Dense S) := adHorner C p N D x y D

/-- `x + y + [x, y]/2 + [x, [x, y]]/12 - [y, [x, y]]/12 - [y, [x, [x, y]]]/24`. -/
def bchFour (D : Nat) (x y : Dense S) : Res (Dense S) := do
  let c ← (DenseAlg.ops C p N).commutator C x y (some D)
  let xc ← (DenseAlg.ops C p N).commutator C x c (some D)
  let yc ← (DenseAlg.ops C p N).commutator C y c (some D)
  let yxc ← (DenseAlg.ops C p N).commutator C y xc (some D)
  let q1 ← (DenseAlg.ops C p N).scalarRdivide c (C.ratFromDegree 2)
  let q2 ← (DenseAlg.ops C p N).scalarRdivide xc (C.ratFromDegree 12)
  let q3 ← (DenseAlg.ops C p N).scalarRdivide yc (C.ratFromDegree 12)
  let q4 ← (DenseAlg.ops C p N).scalarRdivide yxc (C.ratFromDegree 24)
  let s1 ← (DenseAlg.ops C p N).add x y
  let s2 ← (DenseAlg.ops C p N).add s1 q1
  let s3 ← (DenseAlg.ops C p N).add s2 q2
  let s4 ← (DenseAlg.ops C p N).sub s3 q3
  (DenseAlg.ops C p N).sub s4 q4

variable {C N}

theorem tval_commutator [CommRing S] (hC : C.IsRing) (h2 : 2 ≤ N) (a b : Dense S) (da db D : Nat) (ha : FullTo N a da) (hb : FullTo N b db)
    (hM : 1 ≤ min D (da + db)) (hp : N ^ (D + 1) < 2 ^ 64) :
    ∃ r, (DenseAlg.ops C p N).commutator C a b (some D) = .ok r ∧ FullTo N r (min D (da + db)) ∧
      EqTo D (tval C N r) (tval C N a * tval C N b - tval C N b * tval C N a) := by
  obtain ⟨r, e, hr, h⟩ := C36_commutator C p N hC h2 a b da db D ha hb hM (pow_lt64_mono h2 (by omega) hp)
  refine ⟨r, e, hr, fun w hl => ?_⟩
  by_cases hw : ValidWord N w
  · rw [tval_word r w hw, h w hw, if_pos hl, WordFn.sub_apply, WordFn.mul_apply, WordFn.mul_apply]
    congr 1
    · exact conv_congr_valid N w hw (fun v hv _ => (tval_word a v hv).symm) (fun v hv _ => (tval_word b v hv).symm)
    · exact conv_congr_valid N w hw (fun v hv _ => (tval_word b v hv).symm) (fun v hv _ => (tval_word a v hv).symm)
  · rw [tval_not r w hw, WordFn.sub_apply, tval_mul_not a b w hw, tval_mul_not b a w hw, sub_zero]

theorem EqTo.sub [Field S] {d : Nat} {f f' g g' : WordFn S} (hf : EqTo d f f') (hg : EqTo d g g') : EqTo d (f - g) (f' - g') := fun w hw => by
  rw [WordFn.sub_apply, WordFn.sub_apply, hf w hw, hg w hw]

theorem EqTo.bracket [Field S] {d : Nat} {f f' : WordFn S} (x : WordFn S) (hf : EqTo d f f') : EqTo d (x * f - f * x) (Series.bracket S x f') :=
  EqTo.sub ((EqTo.refl _ _).mul hf) (hf.mul (EqTo.refl _ _))

theorem adHorner_value [Field S] (hC : C.IsField) (h2 : 2 ≤ N) (D : Nat) (hp : N ^ (D + 1) < 2 ^ 64) (x y : Dense S) (dx dy : Nat) (hd : 1 ≤ dx)
    (hx : FullTo N x dx) (hy : FullTo N y dy) (j : Nat) (hj : j ≤ D) :
    ∃ r, adHorner C p N D x y j = .ok r ∧ (∃ dr, FullTo N r dr ∧ dy ≤ dr) ∧ EqTo D (tval C N r) (expPart (S := S) D j (Series.bracket S (tval C N x)) (tval C N y)) := by
  induction j with
  | zero =>
    refine ⟨y, rfl, ⟨dy, hy, le_rfl⟩, ?_⟩
    unfold expPart
    simp only [Nat.zero_add, Finset.sum_range_one, Nat.ascFactorial_zero, Nat.cast_one, inv_one, one_smul, pow_zero, Module.End.one_apply]
    exact EqTo.refl _ _
  | succ j ih =>
    obtain ⟨z, ez, ⟨dz, hz, _⟩, cz⟩ := ih (by omega)
    obtain ⟨t, et, ht, ct⟩ := tval_commutator p hC.toIsRing h2 x z dx dz D hx hz (by omega) hp
    obtain ⟨q, eq, hq, cq⟩ := tval_rdivide p hC t (C.ratFromDegree (D - j)) _ ht
    obtain ⟨s, es, hs, cs⟩ := tval_add p hC.toIsRing y q _ _ hy hq
    refine ⟨s, ?_, ⟨_, hs, by omega⟩, ?_⟩
    · unfold adHorner
      rw [ez, Res.bind_ok, et, Res.bind_ok, eq, Res.bind_ok, es]
    · rw [cs, cq, hC.ratFromDegree, expPart_succ D j (by omega), LinearMap.add_apply, Module.End.one_apply, LinearMap.smul_apply, Module.End.mul_apply]
      exact (EqTo.refl _ _).add ((ct.trans (EqTo.bracket _ cz)).smul _)

variable (C N)

/-- C98.  Conjugation with the exponential of `x` is the series of nested commutators with `x`: `exp(x) y exp(-x) = y + [x, y] + [x, [x, y]]/2! + ...`. -/
theorem C98_conjugation [Field S] [CharZero S] (hC : C.IsField) (h2 : 2 ≤ N) (hN : N < 2 ^ 32) (D : Nat) (hD : 1 ≤ D) (hp : N ^ (D + 1) < 2 ^ 64) (x y : Dense S)
    (dx dy : Nat) (hdx : 1 ≤ dx) (hx : FullTo N x dx) (hy : FullTo N y dy) (h0 : coef C N x [] = 0) :
    ∃ m a b t r s, (DenseAlg.ops C p N).uminus x = .ok m ∧ tensorExp C p N D x = .ok a ∧ tensorExp C p N D m = .ok b ∧
      (DenseAlg.ops C p N).multiply a y (some D) = .ok t ∧ (DenseAlg.ops C p N).multiply t b (some D) = .ok r ∧ adExp C p N D x y = .ok s ∧
      ∀ w, ValidWord N w → w.length ≤ D → coef C N r w = coef C N s w := by
  obtain ⟨m, em, hm, cm⟩ := tval_uminus (C := C) p hC.toIsRing x dx hx
  obtain ⟨a, ea, ⟨da, ha, hda, hda'⟩, ca⟩ := tensorExp_value (C := C) p hC h2 hN D hp x dx hdx hx
  obtain ⟨b, eb, ⟨db, hb, hdb, hdb'⟩, cb⟩ := tensorExp_value (C := C) p hC h2 hN D hp m dx hdx hm
  have := hda' hD
  obtain ⟨t, et, ht, ct⟩ := tval_multiply (C := C) p hC.toIsRing h2 a y _ _ D ha hy (by omega) hp
  obtain ⟨r, er, hr, cr⟩ := tval_multiply (C := C) p hC.toIsRing h2 t b _ _ D ht hb (by omega) hp
  obtain ⟨s, es, _, cs⟩ := adHorner_value p hC h2 D hp x y dx dy hdx hx hy D le_rfl
  refine ⟨m, a, b, t, r, s, em, ea, eb, et, er, es, fun w hw hl => ?_⟩
  rw [expPart_all] at cs
  rw [cm] at cb
  have h3 := (eqTo_iff D _ _).2 ((wordFilt S).conj_exp (tval_order_one C N h0) (tval C N y) D)
  have := ((cr.trans ((ct.trans (ca.mul (EqTo.refl _ _))).mul cb)).trans h3).trans cs.symm
  rw [← tval_word r w hw, ← tval_word s w hw, this w hl]

/-- C98.  The exponential of that series is the conjugate of the exponential: `exp(x) exp(y) exp(-x) = exp(y + [x, y] + [x, [x, y]]/2! + ...)`. -/
theorem C98_conjugate_exp [Field S] [CharZero S] (hC : C.IsField) (h2 : 2 ≤ N) (hN : N < 2 ^ 32) (D : Nat) (hD : 1 ≤ D) (hp : N ^ (D + 1) < 2 ^ 64) (x y : Dense S)
    (dx dy : Nat) (hdx : 1 ≤ dx) (hdy : 1 ≤ dy) (hx : FullTo N x dx) (hy : FullTo N y dy) (h0 : coef C N x [] = 0) :
    ∃ m a b c t r s e, (DenseAlg.ops C p N).uminus x = .ok m ∧ tensorExp C p N D x = .ok a ∧ tensorExp C p N D m = .ok b ∧ tensorExp C p N D y = .ok c ∧
      (DenseAlg.ops C p N).multiply a c (some D) = .ok t ∧ (DenseAlg.ops C p N).multiply t b (some D) = .ok r ∧ adExp C p N D x y = .ok s ∧
      tensorExp C p N D s = .ok e ∧ ∀ w, ValidWord N w → coef C N r w = coef C N e w := by
  obtain ⟨m, em, hm, cm⟩ := tval_uminus (C := C) p hC.toIsRing x dx hx
  obtain ⟨a, ea, ⟨da, ha, hda, hda'⟩, ca⟩ := tensorExp_value (C := C) p hC h2 hN D hp x dx hdx hx
  obtain ⟨b, eb, ⟨db, hb, hdb, hdb'⟩, cb⟩ := tensorExp_value (C := C) p hC h2 hN D hp m dx hdx hm
  obtain ⟨c, ec, ⟨dc, hc, hdc, hdc'⟩, cc⟩ := tensorExp_value (C := C) p hC h2 hN D hp y dy hdy hy
  have := hda' hD
  obtain ⟨t, et, ht, ct⟩ := tval_multiply (C := C) p hC.toIsRing h2 a c _ _ D ha hc (by omega) hp
  obtain ⟨r, er, hr, cr⟩ := tval_multiply (C := C) p hC.toIsRing h2 t b _ _ D ht hb (by omega) hp
  obtain ⟨s, es, ⟨ds, hs, hds⟩, cs⟩ := adHorner_value p hC h2 D hp x y dx dy hdx hx hy D le_rfl
  obtain ⟨e, ee, ⟨de, he, hde, _⟩, ce⟩ := tensorExp_value (C := C) p hC h2 hN D hp s ds (by omega) hs
  refine ⟨m, a, b, c, t, r, s, e, em, ea, eb, ec, et, er, es, ee, fun w hw => ?_⟩
  rw [expPart_all] at cs
  rw [cm] at cb
  have hx1 := tval_order_one C N h0
  have n1 := (wordFilt S).exp_neg hx1 D
  have n2 := (wordFilt S).exp_neg (Submodule.neg_mem _ hx1) D
  rw [neg_neg] at n2
  have u1 := (eqTo_iff D _ _).2 ((wordFilt S).conj_expTo (y := tval C N y) n2 n1 D)
  have u2 := (eqTo_iff D _ _).2 ((wordFilt S).conj_exp hx1 (tval C N y) D)
  have u3 := (eqTo_iff D _ _).2 ((wordFilt S).expTo_congr ((eqTo_iff D _ _).1 (cs.trans u2.symm)) D)
  have := (cr.trans ((ct.trans (ca.mul cc)).mul cb)).trans ((ce.trans u3).trans u1).symm
  rw [coef_of_eqTo hC.toIsRing h2 hr (D := D) (by omega) this w hw, coef_of_eqTo hC.toIsRing h2 he hde (EqTo.refl _ _) w hw]

/-- C98.  The logarithm of `exp(x) exp(y)` agrees up to degree four with `x + y + [x, y]/2 + [x, [x, y]]/12 - [y, [x, y]]/12 - [y, [x, [x, y]]]/24`. -/
theorem C98_bch [Field S] [CharZero S] (hC : C.IsField) (h2 : 2 ≤ N) (hN : N < 2 ^ 32) (D : Nat) (hD : 1 ≤ D) (hp : N ^ (D + 1) < 2 ^ 64) (x y : Dense S) (dx dy : Nat)
    (hdx : 1 ≤ dx) (hdy : 1 ≤ dy) (hx : FullTo N x dx) (hy : FullTo N y dy) (h0 : coef C N x [] = 0) (h0' : coef C N y [] = 0) :
    ∃ a b r l s, tensorExp C p N D x = .ok a ∧ tensorExp C p N D y = .ok b ∧ (DenseAlg.ops C p N).multiply a b (some D) = .ok r ∧ tensorLog C p N D r = .ok l ∧
      bchFour C p N D x y = .ok s ∧ ∀ w, ValidWord N w → w.length ≤ D → w.length ≤ 4 → coef C N l w = coef C N s w := by
  obtain ⟨a, ea, ⟨da, ha, hda, hda'⟩, ca⟩ := tensorExp_value (C := C) p hC h2 hN D hp x dx hdx hx
  obtain ⟨b, eb, ⟨db, hb, hdb, hdb'⟩, cb⟩ := tensorExp_value (C := C) p hC h2 hN D hp y dy hdy hy
  have := hda' hD
  obtain ⟨r, er, hr, cr⟩ := tval_multiply (C := C) p hC.toIsRing h2 a b _ _ D ha hb (by omega) hp
  obtain ⟨l, el, _, cl⟩ := tensorLog_value (C := C) p hC h2 hN D hD hp r _ (by omega) hr
  obtain ⟨c, e1, f1, c1⟩ := tval_commutator p hC.toIsRing h2 x y dx dy D hx hy (by omega) hp
  obtain ⟨xc, e2, f2, c2⟩ := tval_commutator p hC.toIsRing h2 x c dx _ D hx f1 (by omega) hp
  obtain ⟨yc, e3, f3, c3⟩ := tval_commutator p hC.toIsRing h2 y c dy _ D hy f1 (by omega) hp
  obtain ⟨yxc, e4, f4, c4⟩ := tval_commutator p hC.toIsRing h2 y xc dy _ D hy f2 (by omega) hp
  obtain ⟨q1, i1, g1, k1⟩ := tval_rdivide p hC c (C.ratFromDegree 2) _ f1
  obtain ⟨q2, i2, g2, k2⟩ := tval_rdivide p hC xc (C.ratFromDegree 12) _ f2
  obtain ⟨q3, i3, g3, k3⟩ := tval_rdivide p hC yc (C.ratFromDegree 12) _ f3
  obtain ⟨q4, i4, g4, k4⟩ := tval_rdivide p hC yxc (C.ratFromDegree 24) _ f4
  obtain ⟨s1, j1, l1, m1⟩ := tval_add p hC.toIsRing x y _ _ hx hy
  obtain ⟨s2, j2, l2, m2⟩ := tval_add p hC.toIsRing s1 q1 _ _ l1 g1
  obtain ⟨s3, j3, l3, m3⟩ := tval_add p hC.toIsRing s2 q2 _ _ l2 g2
  obtain ⟨s4, j4, l4, m4⟩ := tval_sub p hC.toIsRing s3 q3 _ _ l3 g3
  obtain ⟨s, j5, l5, m5⟩ := tval_sub p hC.toIsRing s4 q4 _ _ l4 g4
  refine ⟨a, b, r, l, s, ea, eb, er, el, ?_, fun w hw hl hl4 => ?_⟩
  · unfold bchFour
    rw [e1, Res.bind_ok, e2, Res.bind_ok, e3, Res.bind_ok, e4, Res.bind_ok, i1, Res.bind_ok, i2, Res.bind_ok, i3, Res.bind_ok, i4, Res.bind_ok, j1, Res.bind_ok, j2,
      Res.bind_ok, j3, Res.bind_ok, j4, Res.bind_ok, j5]
  · have hx1 := tval_order_one C N h0
    have hy1 := tval_order_one C N h0'
    have b2 := c2.trans (EqTo.bracket _ c1)
    have b3 := c3.trans (EqTo.bracket _ c1)
    have b4 := c4.trans (EqTo.bracket _ b2)
    have hs : EqTo D (tval C N s) (bch4 S (tval C N x) (tval C N y)) := by
      rw [m5, m4, m3, m2, m1, k1, k2, k3, k4, hC.ratFromDegree, hC.ratFromDegree, hC.ratFromDegree]
      push_cast
      exact EqTo.sub (EqTo.sub (((EqTo.refl _ _).add (c1.smul _)).add (b2.smul _)) (b3.smul _)) (b4.smul _)
    -- cut everything down to degree `n = min D 4`
    obtain ⟨n, hn⟩ : ∃ n, n = min D 4 := ⟨_, rfl⟩
    have cut : ∀ {f g : WordFn S} {m : Nat}, n ≤ m → EqTo m f g → f - g ∈ (wordFilt S).F (n + 1) := fun {f g m} hm h =>
      (eqTo_iff n _ _).1 fun w hw => h w (by omega)
    have u1 : expTo S D (tval C N x) * expTo S D (tval C N y) - expTo S 4 (tval C N x) * expTo S 4 (tval C N y) ∈ (wordFilt S).F (n + 1) := by
      have v1 := (wordFilt S).expTo_cut hx1 (by omega : n ≤ D) (by omega : n ≤ 4)
      have v2 := (wordFilt S).expTo_cut hy1 (by omega : n ≤ D) (by omega : n ≤ 4)
      have := Submodule.add_mem _ ((wordFilt S).mul_mem_left v1 (expTo S D (tval C N y))) ((wordFilt S).mul_mem_right v2 (expTo S 4 (tval C N x)))
      rwa [sub_mul, mul_sub, sub_add_sub_cancel] at this
    have u2 : tval C N r - 1 - (expTo S 4 (tval C N x) * expTo S 4 (tval C N y) - 1) ∈ (wordFilt S).F (n + 1) := by
      have := Submodule.add_mem _ (cut (by omega) (cr.trans (ca.mul cb))) u1
      rwa [sub_add_sub_cancel, ← sub_sub_sub_cancel_right _ _ (1 : WordFn S)] at this
    have hP : expTo S 4 (tval C N x) * expTo S 4 (tval C N y) - 1 ∈ (wordFilt S).F 1 := by
      rw [show expTo S 4 (tval C N x) * expTo S 4 (tval C N y) - 1 = (expTo S 4 (tval C N x) - 1) * expTo S 4 (tval C N y) + (expTo S 4 (tval C N y) - 1) by noncomm_ring]
      exact Submodule.add_mem _ ((wordFilt S).mul_mem_left ((wordFilt S).expTo_sub_one_mem hx1 4) _) ((wordFilt S).expTo_sub_one_mem hy1 4)
    have u3 := (wordFilt S).logTo_congr u2 D
    have u4 := (wordFilt S).logTo_cut hP (by omega : n ≤ D) (by omega : n ≤ 4)
    have u5 := (wordFilt S).anti (n + 1) 5 (by omega) ((wordFilt S).bch hx1 hy1)
    have u6 : tval C N l - bch4 S (tval C N x) (tval C N y) ∈ (wordFilt S).F (n + 1) := by
      have := Submodule.add_mem _ (Submodule.add_mem _ (Submodule.add_mem _ (cut (by omega) cl) u3) u4) u5
      rwa [sub_add_sub_cancel, sub_add_sub_cancel, sub_add_sub_cancel] at this
    rw [← tval_word l w hw, ← tval_word s w hw, hs w hl]
    exact (eqTo_iff n _ _).2 u6 w (by omega)

end

/-- Two non-commuting rational tensors meet the hypotheses. -/
example := C98_conjugation (fieldCoeff ℚ) .release 2 (fieldCoeff_isField ℚ) (by omega) (by omega) 3 (by omega) (by norm_num) (.ofVec [0, 1, 0]) (.ofVec [0, 0, 1]) 1 1
  le_rfl ⟨rfl, by decide⟩ ⟨rfl, by decide⟩ rfl

example := C98_conjugate_exp (fieldCoeff ℚ) .release 2 (fieldCoeff_isField ℚ) (by omega) (by omega) 3 (by omega) (by norm_num) (.ofVec [0, 1, 0]) (.ofVec [1, 0, 1]) 1 1
  le_rfl le_rfl ⟨rfl, by decide⟩ ⟨rfl, by decide⟩ rfl

example := C98_bch (fieldCoeff ℚ) .debug 2 (fieldCoeff_isField ℚ) (by omega) (by omega) 5 (by omega) (by norm_num) (.ofVec [0, 1, 0]) (.ofVec [0, 0, 1]) 1 1
  le_rfl le_rfl ⟨rfl, by decide⟩ ⟨rfl, by decide⟩ rfl rfl

end RA
