import Verif.Props.FloatExactProg

/-!
# Exactly when expressions over guarded coefficients return (C104, C108)
-/

namespace RA
open Spec TensorKey TensorBasis Fallible DenseAlg

theorem two_returns {α β γ : Type} {X : Res α} {Y : Res β} {f : α → β → Res γ} {A B Q : Prop} (hA : (∃ x, X = .ok x) ↔ A) (hB : (∃ y, Y = .ok y) ↔ B)
    (h : ∀ x y, X = .ok x → Y = .ok y → ((∃ r, f x y = .ok r) ↔ Q)) : (∃ r, (X >>= fun x => Y >>= fun y => f x y) = .ok r) ↔ Q ∧ A ∧ B := by
  constructor
  · rintro ⟨r, hr⟩
    obtain ⟨x, hx, h1⟩ := bind_ok_inv hr
    obtain ⟨y, hy, h2⟩ := bind_ok_inv h1
    exact ⟨(h x y hx hy).1 ⟨r, h2⟩, hA.1 ⟨x, hx⟩, hB.1 ⟨y, hy⟩⟩
  · rintro ⟨q, a, b⟩
    obtain ⟨x, rfl⟩ := hA.2 a
    obtain ⟨y, rfl⟩ := hB.2 b
    exact (h x y rfl rfl).2 q

theorem one_returns {α γ : Type} {X : Res α} {f : α → Res γ} {A Q : Prop} (hA : (∃ x, X = .ok x) ↔ A)
    (h : ∀ x, X = .ok x → ((∃ r, f x = .ok r) ↔ Q)) : (∃ r, (X >>= f) = .ok r) ↔ Q ∧ A := by
  constructor
  · rintro ⟨r, hr⟩
    obtain ⟨x, hx, h1⟩ := bind_ok_inv hr
    exact ⟨(h x hx).1 ⟨r, h1⟩, hA.1 ⟨x, hx⟩⟩
  · rintro ⟨q, a⟩
    obtain ⟨x, rfl⟩ := hA.2 a
    exact (h x rfl).2 q

section
variable {S R : Type} [CommRing S] {ok : S → Prop} (p : Profile) (N : Nat)

/-- If all numbers are in order, so are the coefficients of the value. -/
theorem expr_ok (h0 : ok 0) {D : Nat} (e : TExpr S) (hs : e.Scalars ok) (h : e.NumbersIn ok N D) : ∀ w, ValidWord N w → w.length ≤ D → ok (e.value w) := by
  intro w hv hd
  cases e with
  | term u s => show ok (if w = u then s else 0); split_ifs; exacts [hs, h0]
  | add a b | sub a b => exact h.1 w hv hd
  | neg a => exact h.1 w hv hd
  | smul s a => show ok (s * a.value w); rw [mul_comm]; exact h.1 w hv hd
  | mul a b =>
    show ok (conv a.value b.value w)
    simpa using prodIn_sum h0 (h.1 w hv hd)
  | comm a b =>
    obtain ⟨c1, c2⟩ := h.1 w hv hd
    have c3 := prodIn_sum h0 c1
    rw [one_mul, zero_add] at c3
    have c4 := prodIn_sum c3 c2
    rwa [neg_one_mul, ← sub_eq_add_neg] at c4

/-- What an evaluation that returns has returned. -/
theorem guarded_value {F : FCoeff S R} (hF : F.Guards ok) (h2 : 2 ≤ N) (hN : N < 2 ^ 32) {D : Nat} (hD : 1 ≤ D) (hm : D ≤ maxDepth N) (hp : N ^ (D + 1) < 2 ^ 64)
    (e : TExpr S) (hw : e.Words N D) (hc : e.NoConstProduct D) (r : Dense S) (hr : runExprF F p N D e = .ok r) :
    FullTo N r (e.deg D) ∧ ∀ w, ValidWord N w → val N r w = if w.length ≤ D then e.value w else 0 := by
  have hX : F.ExactFor id (fun _ _ => False) (ringCoeff S) := by
    rw [hF.shape]
    exact guarded_exact hF.eq
  have h := (C103_expressions p N hX D e).1 r hr
  rw [map_id] at h
  obtain ⟨r', h1, h3, h4⟩ := C53_expressions_partial (ringCoeff S) p N ringCoeff_isRing h2 hN D hD hm hp e hw hc
  cases h.symm.trans h1
  refine ⟨⟨?_, h3.2⟩, fun w hv => ?_⟩
  · have := h3.1
    unfold Dense.size Dense.map at this
    rwa [List.length_map] at this
  · rw [← h4 w hv, ← coef_img N hX r w, hF.zero]
    rfl

/-- An expression over guarded coefficients is evaluated without panic if and only if every number that the evaluation computes is in order. -/
theorem guarded_expr {F : FCoeff S R} (hF : F.Guards ok) (h0 : ok 0) (h2 : 2 ≤ N) (hN : N < 2 ^ 32) {D : Nat} (hD : 1 ≤ D) (hm : D ≤ maxDepth N) (hp : N ^ (D + 1) < 2 ^ 64)
    (e : TExpr S) (hw : e.Words N D) (hc : e.NoConstProduct D) (hs : e.Scalars ok) : (∃ r, runExprF F p N D e = .ok r) ↔ e.NumbersIn ok N D := by
  have two : ∀ (st : PStmt S R) (x y : Dense S) (a b : TExpr S), a.Words N D → a.NoConstProduct D → a.Scalars ok → a.NumbersIn ok N D → runExprF F p N D a = .ok x →
      b.Words N D → b.NoConstProduct D → b.Scalars ok → b.NumbersIn ok N D → runExprF F p N D b = .ok y → st.Within N D → st.Algebraic →
      st.allowed (fun i => if i = 0 then a.deg D + 1 else b.deg D + 1) = true →
      ((∃ σ', runStmtF F p N (fun i => if i = 0 then .ofVec x.data else y) st = .ok σ') ↔
        ∀ w, ValidWord N w → w.length ≤ D → st.NumbersIn ok (fun i => if i = 0 then a.value else b.value) w) := by
    intro st x y a b a1 a2 a3 a4 a5 b1 b2 b3 b4 b5 s1 s2 s3
    obtain ⟨x1, x2⟩ := guarded_value p N hF h2 hN hD hm hp a a1 a2 x a5
    obtain ⟨y1, y2⟩ := guarded_value p N hF h2 hN hD hm hp b b1 b2 y b5
    have := stmt_exact (e := F.eq) (d := F.div) (dI := F.divIn) p N h0 h2 hN hm hp st s1 s2 (σ := fun i => if i = 0 then .ofVec x.data else y)
      (l := fun i => if i = 0 then a.deg D + 1 else b.deg D + 1) (fun i => by split_ifs; exacts [x1.1, y1.1])
      (fun i => by have := exprDeg_le a a1; have := exprDeg_le b b1; split_ifs <;> omega) s3 (ρ := fun i => if i = 0 then a.value else b.value)
      (fun i w hv hd => by
        split_ifs
        · show val N x w = _
          rw [x2 w hv, if_pos hd]
        · rw [y2 w hv, if_pos hd])
      (fun i w hv hd => by split_ifs; exacts [expr_ok N h0 a a3 a4 w hv hd, expr_ok N h0 b b3 b4 w hv hd])
    rwa [← hF.shape] at this
  have hrun : ∀ {σ : Nat → Dense S} {i : Nat} {x : Res (Dense S)}, (∃ r, x = .ok r) ↔ (∃ σ', (x >>= fun v => .ok (setReg σ i v)) = .ok σ') := by
    intro σ i x
    constructor
    · rintro ⟨r, rfl⟩
      exact ⟨_, rfl⟩
    · rintro ⟨σ', h⟩
      obtain ⟨r, hr, -⟩ := bind_ok_inv h
      exact ⟨r, hr⟩
  induction e with
  | term w s =>
    refine ⟨fun _ _ _ _ => trivial, fun _ => ?_⟩
    obtain ⟨r, h3, -, -⟩ := fromKeyScalar_word (⟨(0 : S), 1, -1, id, fun _ => 1, fun x _ => x, fun x _ => x, fun x _ => x, fun x _ => x, fun _ => 1,
      fun _ => (), fun _ _ => true⟩ : Coeff S Unit) p N h2 hN w hw.1 (hw.2.trans hm) (pow_lt64_mono h2 (by have := hw.2; omega) hp) s
    obtain ⟨k, k1, k2⟩ := bind_ok_inv h3
    refine ⟨r, ?_⟩
    show (fromLetters p N w >>= fun k => dFromKeyScalar F (tensorBasis p N) k s) = _
    rw [k1, Res.bind_ok, hF.shape]
    exact k2
  | add a b iha ihb =>
    have ha := iha hw.1 hc.1 hs.1
    have hb := ihb hw.2 hc.2 hs.2
    exact two_returns ha hb fun x y hx hy =>
      hrun.trans (two (.add 0 1) x y a b hw.1 hc.1 hs.1 (ha.1 ⟨x, hx⟩) hx hw.2 hc.2 hs.2 (hb.1 ⟨y, hy⟩) hy trivial trivial rfl)
  | sub a b iha ihb =>
    have ha := iha hw.1 hc.1 hs.1
    have hb := ihb hw.2 hc.2 hs.2
    exact two_returns ha hb fun x y hx hy =>
      hrun.trans (two (.sub 0 1) x y a b hw.1 hc.1 hs.1 (ha.1 ⟨x, hx⟩) hx hw.2 hc.2 hs.2 (hb.1 ⟨y, hy⟩) hy trivial trivial rfl)
  | neg a iha =>
    have ha := iha hw hc hs
    exact one_returns ha fun x hx => hrun.trans (two (.neg 0) x x a a hw hc hs (ha.1 ⟨x, hx⟩) hx hw hc hs (ha.1 ⟨x, hx⟩) hx trivial trivial rfl)
  | smul s a iha =>
    have ha := iha hw hc hs.2
    exact one_returns ha fun x hx => hrun.trans (two (.scale 0 s) x x a a hw hc hs.2 (ha.1 ⟨x, hx⟩) hx hw hc hs.2 (ha.1 ⟨x, hx⟩) hx trivial trivial rfl)
  | mul a b iha ihb =>
    have ha := iha hw.1 hc.1 hs.1
    have hb := ihb hw.2 hc.2.1 hs.2
    exact two_returns ha hb fun x y hx hy => by
      have := two (.mul 0 0 1 D) x y a b hw.1 hc.1 hs.1 (ha.1 ⟨x, hx⟩) hx hw.2 hc.2.1 hs.2 (hb.1 ⟨y, hy⟩) hy le_rfl trivial
        (decide_eq_true ⟨by simp, by simp, by have := hc.2.2; unfold prodDeg; simp; omega⟩)
      refine hrun.trans (Iff.trans this ?_)
      exact ⟨fun h w hv hd => h w hv hd hd, fun h w hv hd _ => h w hv hd⟩
  | comm a b iha ihb =>
    have ha := iha hw.1 hc.1 hs.1
    have hb := ihb hw.2 hc.2.1 hs.2
    exact two_returns ha hb fun x y hx hy => by
      have := two (.comm 0 0 1 D) x y a b hw.1 hc.1 hs.1 (ha.1 ⟨x, hx⟩) hx hw.2 hc.2.1 hs.2 (hb.1 ⟨y, hy⟩) hy le_rfl trivial
        (decide_eq_true ⟨by simp, by simp, by have := hc.2.2; unfold prodDeg; simp; omega⟩)
      refine hrun.trans (Iff.trans this ?_)
      exact ⟨fun h w hv hd => h w hv hd hd, fun h w hv hd _ => h w hv hd⟩

end

/-! ## Checked integers -/

section
variable {lo hi : Int} (p : Profile) (N : Nat)

/-- C104, the exact criterion with signs: evaluation with integers checked against a range returns if and only if every product of scalars, every partial sum and every
other result lies in the range, and otherwise it panics. -/
theorem C104_exact_signed (hl : lo ≤ 0) (hh : 0 ≤ hi) (h2 : 2 ≤ N) (hN : N < 2 ^ 32) (D : Nat) (hD : 1 ≤ D) (hm : D ≤ maxDepth N) (hp : N ^ (D + 1) < 2 ^ 64)
    (e : TExpr Int) (hw : e.Words N D) (hc : e.NoConstProduct D) (hs : e.Scalars (Between lo hi)) :
    ((∃ r, runExprF (rangeInt lo hi) p N D e = .ok r) ↔ e.NumbersIn (Between lo hi) N D) ∧
    (runExprF (rangeInt lo hi) p N D e = .panic ↔ ¬ e.NumbersIn (Between lo hi) N D) := by
  have h := guarded_expr p N (rangeInt_guards lo hi) (show Between lo hi 0 from ⟨hl, hh⟩) h2 hN hD hm hp e hw hc hs
  refine ⟨h, ?_⟩
  rw [← h]
  have h' := C104_returns_or_panics p N truncCoeff_isRing (C103_integers lo hi) (C103_only_panics lo hi).1 h2 hN D hD hm hp e hw hc
  cases hr : runExprF (rangeInt lo hi) p N D e with
  | ok r => exact ⟨nofun, fun h => (h ⟨r, rfl⟩).elim⟩
  | panic => exact ⟨fun _ ⟨_, h⟩ => (nomatch h), fun _ => rfl⟩
  | ub => exact (h'.1 hr).elim
  | diverge => exact (h'.2 hr).elim

end

/-! ## Floating-point numbers -/

section
variable {F : FloatFmt} (p : Profile) (N : Nat)

/-- A floating-point evaluation against one with guarded coefficients. -/
theorem float_expr {S R : Type} [CommRing S] {ok : S → Prop} (hF : F = .f32 ∨ F = .f64) (ι : S →+* Rat) (hι : Function.Injective ι) (hok : ∀ s, ok s → NumOf F (ι s))
    {G : FCoeff S R} (hG : G.Guards ok) (hp : G.OnlyPanics) (h1 : 1 ≤ N) (hN : N < 2 ^ 32) (D : Nat) (e : TExpr S) (f : S → Fl)
    (hs : e.Scalars fun s => StandsFor F (ι s) (f s)) (r : Dense S) (hr : runExprF G p N D e = .ok r) :
    ∃ r', runExpr (floatCoeff F) p N D (e.map f) = .ok r' ∧ ∀ w, ValidWord N w → w.length ≤ maxDepth N →
      ∃ k x, fromLetters p N w = .ok k ∧ Dense.get (tensorBasis p N) r' k = .ok x ∧ StandsFor F (ι (val N r w)) (x.getD (floatCoeff F).zero) := by
  obtain ⟨r', h3, h4⟩ := (runExprF_ref p N (float_ref hF ι hι hok hG hp) f D e hs).ret hr
  refine ⟨r', by rw [(C103_run_total (floatCoeff F) p N [] D (e.map f)).2]; exact h3, fun w hv hl => ?_⟩
  have hk := fromLetters_ok p N h1 hN w hv hl
  exact ⟨_, _, hk, get_word p N h1 hN _ w hv hl _ hk, float_entry N ι h4 w⟩

/-- C108, expressions: if every number that the evaluation computes can be represented, the floating-point evaluation returns, and every coefficient of the result is
finite and exact. -/
theorem C108_expressions (hF : F = .f32 ∨ F = .f64) (h2 : 2 ≤ N) (hN : N < 2 ^ 32) (D : Nat) (hD : 1 ≤ D) (hm : D ≤ maxDepth N) (hp : N ^ (D + 1) < 2 ^ 64)
    (e : TExpr Rat) (hw : e.Words N D) (hc : e.NoConstProduct D) (f : Rat → Fl) (hs : e.Scalars fun q => StandsFor F q (f q))
    (hn : e.NumbersIn (Binary F.prec F.eMin F.eMax) N D) :
    ∃ r, runExpr (floatCoeff F) p N D (e.map f) = .ok r ∧ ∀ w, ValidWord N w → w.length ≤ maxDepth N →
      ∃ k x, fromLetters p N w = .ok k ∧ Dense.get (tensorBasis p N) r k = .ok x ∧
        (x.getD (floatCoeff F).zero).isFin = true ∧ (x.getD (floatCoeff F).zero).val = if w.length ≤ D then e.value w else 0 := by
  obtain ⟨r, hr⟩ := (guarded_expr p N (reprRat_guards F Unit) (numOf_zero F (fmt_ok F hF)) h2 hN hD hm hp e hw hc
    (scalars_mono (fun q h => standsFor_num (fmt_ok F hF) h) e hs)).2 hn
  obtain ⟨r', h3, h4⟩ := float_expr p N hF (RingHom.id Rat) (fun _ _ h => h) (fun _ h => h) (reprRat_guards F Unit) (reprRat_safe F Unit) (by omega) hN D e f hs r hr
  refine ⟨r', h3, fun w hv hl => ?_⟩
  obtain ⟨k, x, k1, k2, k3⟩ := h4 w hv hl
  exact ⟨k, x, k1, k2, k3.2.1, by rw [k3.2.2, ← (guarded_value p N (reprRat_guards F Unit) h2 hN hD hm hp e hw hc r hr).2 w hv]; rfl⟩

/-- C108, expressions over the integers: numbers up to `2^24` or `2^53` in absolute value can be represented. -/
theorem C108_integer_expressions (hF : F = .f32 ∨ F = .f64) (h2 : 2 ≤ N) (hN : N < 2 ^ 32) (D : Nat) (hD : 1 ≤ D) (hm : D ≤ maxDepth N) (hp : N ^ (D + 1) < 2 ^ 64)
    (e : TExpr Int) (hw : e.Words N D) (hc : e.NoConstProduct D) (f : Int → Fl) (hs : e.Scalars fun n : Int => StandsFor F n (f n))
    (hr : e.Scalars fun n => |n| ≤ 2 ^ F.prec) (hn : e.NumbersIn (fun n => |n| ≤ 2 ^ F.prec) N D) :
    ∃ r, runExpr (floatCoeff F) p N D (e.map f) = .ok r ∧ ∀ w, ValidWord N w → w.length ≤ maxDepth N →
      ∃ k x, fromLetters p N w = .ok k ∧ Dense.get (tensorBasis p N) r k = .ok x ∧
        (x.getD (floatCoeff F).zero).isFin = true ∧ (x.getD (floatCoeff F).zero).val = if w.length ≤ D then e.value w else 0 := by
  have e1 : (fun n : Int => |n| ≤ 2 ^ F.prec) = Between (-2 ^ F.prec) (2 ^ F.prec) := funext fun n => propext abs_le
  have hb : (0 : Int) ≤ 2 ^ F.prec := by positivity
  rw [e1] at hn hr
  obtain ⟨r, hr⟩ := (C104_exact_signed p N (by omega) hb h2 hN D hD hm hp e hw hc hr).1.2 hn
  obtain ⟨r', h3, h4⟩ := float_expr p N hF (Int.castRingHom Rat) Int.cast_injective (between_num hF le_rfl le_rfl) (rangeInt_guards _ _) (C103_only_panics _ _).1 (by omega) hN D e f hs r hr
  refine ⟨r', h3, fun w hv hl => ?_⟩
  obtain ⟨k, x, k1, k2, k3⟩ := h4 w hv hl
  refine ⟨k, x, k1, k2, k3.2.1, ?_⟩
  rw [k3.2.2, (guarded_value p N (rangeInt_guards _ _) h2 hN hD hm hp e hw hc r hr).2 w hv]
  split_ifs <;> simp

end
/-! ## Cases that meet the hypotheses -/

/-- `(1 + 10 a) (2 - 20 a)`, up to degree 1. -/
def passExpr : TExpr Int := .mul (.add (.term [] 1) (.term [1] 10)) (.add (.term [] 2) (.term [1] (-20)))

theorem passExpr_ok : passExpr.Words 2 1 ∧ passExpr.NoConstProduct 1 ∧ ∀ lo hi : Int, lo ≤ -20 → 10 ≤ hi → passExpr.Scalars (Between lo hi) := by
  refine ⟨⟨⟨⟨by decide, by decide⟩, by decide, by decide⟩, ⟨by decide, by decide⟩, by decide, by decide⟩, ⟨⟨trivial, trivial⟩, ⟨trivial, trivial⟩, by decide⟩, fun lo hi h1 h2 => ?_⟩
  simp only [passExpr, TExpr.Scalars, Between]
  omega

/-- In the integers from -20 to 19 the term 20 does not fit, although the coefficients of the result do. -/
example (p : Profile) : runExprF (rangeInt (-20) 19) p 2 1 passExpr = .panic :=
  (C104_exact_signed p 2 (by omega) (by omega) (by omega) (by omega) 1 le_rfl (by decide +kernel) (by decide) passExpr passExpr_ok.1 passExpr_ok.2.1
    (passExpr_ok.2.2 _ _ (by omega) (by omega))).2.2 fun h => absurd (h.1 [1] (by decide) (by decide)) (by decide +kernel : ¬ ProdIn (Between (-20) 19) 1 0 _ _ [1])

theorem passExpr_numbers : passExpr.NumbersIn (Between (-20) 20) 2 1 := by
  refine ⟨short_words ?_ ?_ ?_, ⟨short_words ?_ ?_ ?_, fun _ _ _ => trivial, fun _ _ _ => trivial⟩, ⟨short_words ?_ ?_ ?_, fun _ _ _ => trivial, fun _ _ _ => trivial⟩⟩
  all_goals first
    | show ProdIn (Between (-20) 20) 1 0 _ _ _; decide +kernel
    | show Between (-20) 20 _; decide +kernel

example (p : Profile) : ∃ r, runExprF (rangeInt (-20) 20) p 2 1 passExpr = .ok r :=
  (C104_exact_signed p 2 (by omega) (by omega) (by omega) (by omega) 1 le_rfl (by decide +kernel) (by decide) passExpr passExpr_ok.1 passExpr_ok.2.1
    (passExpr_ok.2.2 _ _ (by omega) (by omega))).1.2 passExpr_numbers

/-- `(1 + a / 2) (2 - 3/4 a)`, up to degree 1. -/
def dyadicExpr : TExpr Rat := .mul (.add (.term [] 1) (.term [1] (1 / 2))) (.add (.term [] 2) (.term [1] (-3 / 4)))

example (p : Profile) : ∃ r, runExpr (floatCoeff .f32) p 2 1 (dyadicExpr.map .fin) = .ok r ∧ ∃ k x, fromLetters p 2 [1] = .ok k ∧
    Dense.get (tensorBasis p 2) r k = .ok x ∧ (x.getD (floatCoeff .f32).zero).val = 1 / 4 := by
  have t : ∀ {x : Rat} (n e : Int), x ≠ 0 → x = n * 2 ^ e → |n| < 2 ^ 24 → -149 ≤ e → e ≤ 104 → StandsFor .f32 x (.fin x) :=
    fun n e h0 h h1 h2 h3 => ⟨⟨h0, h ▸ quarters n e h1 h2 h3⟩, rfl, rfl⟩
  have t1 : StandsFor .f32 1 (.fin 1) := t 1 0 (by norm_num) (by norm_num) (by decide) (by decide) (by decide)
  have t2 : StandsFor .f32 (1 / 2) (.fin (1 / 2)) := t 1 (-1) (by norm_num) (by norm_num) (by decide) (by decide) (by decide)
  have t3 : StandsFor .f32 2 (.fin 2) := t 2 0 (by norm_num) (by norm_num) (by decide) (by decide) (by decide)
  have t4 : StandsFor .f32 (-3 / 4) (.fin (-3 / 4)) := t (-3) (-2) (by norm_num) (by norm_num) (by decide) (by decide) (by decide)
  obtain ⟨r, h1, h2⟩ := C108_expressions p 2 (.inl rfl) (by omega) (by omega) 1 le_rfl (by decide +kernel) (by decide) dyadicExpr
    ⟨⟨⟨by decide, by decide⟩, by decide, by decide⟩, ⟨by decide, by decide⟩, by decide, by decide⟩ ⟨⟨trivial, trivial⟩, ⟨trivial, trivial⟩, by decide⟩ .fin
    ⟨⟨t1, t2⟩, t3, t4⟩ (by
    refine ⟨short_words ?_ ?_ ?_, ⟨short_words ?_ ?_ ?_, fun _ _ _ => trivial, fun _ _ _ => trivial⟩, ⟨short_words ?_ ?_ ?_, fun _ _ _ => trivial, fun _ _ _ => trivial⟩⟩
    all_goals first
      | exact prodIn_mono sixteenth_num (by decide +kernel)
      | exact sixteenth_num _ (by decide +kernel))
  obtain ⟨k, x, k1, k2, -, k3⟩ := h2 [1] (by decide) (by decide +kernel)
  exact ⟨r, h1, k, x, k1, k2, k3.trans (by decide +kernel)⟩

example (p : Profile) := C108_integer_expressions (F := .f32) p 2 (.inl rfl) (by omega) (by omega) 1 le_rfl (by decide +kernel) (by decide) passExpr passExpr_ok.1 passExpr_ok.2.1
  (fun n => .fin n) (by
    have t : ∀ n : Int, n ≠ 0 → |n| < 2 ^ 24 → StandsFor .f32 n (.fin n) := fun n h0 h =>
      ⟨⟨by exact_mod_cast h0, by simpa using quarters n 0 h (by decide) (by decide)⟩, rfl, rfl⟩
    exact ⟨⟨t 1 (by decide) (by decide), t 10 (by decide) (by decide)⟩, t 2 (by decide) (by decide), t (-20) (by decide) (by decide)⟩)
  ⟨⟨(by decide : |(1 : Int)| ≤ 2 ^ 24), (by decide : |(10 : Int)| ≤ 2 ^ 24)⟩, (by decide : |(2 : Int)| ≤ 2 ^ 24), (by decide : |(-20 : Int)| ≤ 2 ^ 24)⟩ (by
    refine ⟨short_words ?_ ?_ ?_, ⟨short_words ?_ ?_ ?_, fun _ _ _ => trivial, fun _ _ _ => trivial⟩, ⟨short_words ?_ ?_ ?_, fun _ _ _ => trivial, fun _ _ _ => trivial⟩⟩
    all_goals first
      | show ProdIn (fun n : Int => |n| ≤ 2 ^ 24) 1 0 _ _ _; decide +kernel
      | show |(_ : Int)| ≤ 2 ^ 24; decide +kernel)

end RA
