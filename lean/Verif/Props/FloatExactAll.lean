import Verif.Props.ExactAll
import Verif.Props.FloatExactProg

/-!
# Programs with division that floating-point arithmetic runs without rounding (C108)
-/

namespace RA
open Spec TensorKey TensorBasis Fallible DenseAlg

theorem num_standsFor {F : FloatFmt} {q : Rat} (h : NumOf F q) : ∃ x, StandsFor F q x := by
  by_cases c : q = 0
  · subst c
    exact ⟨.zero false, trivial, rfl, rfl⟩
  · exact ⟨.fin q, ⟨c, h⟩, rfl, rfl⟩

/-- Rational numbers that the format can represent; every other result, and division by zero, is a panic. -/
noncomputable def reprField (F : FloatFmt) : FCoeff Rat Rat :=
  guarded (NumOf F) (fun x y => .ok (decide (x = y))) (fun x r => if r = 0 then .panic else guardTo (NumOf F) (x / r)) fun x r => if r = 0 then (.panic, x) else guardIn (NumOf F) x (x / r)

theorem reprField_guards (F : FloatFmt) : (reprField F).Guards (NumOf F) :=
  ⟨rfl, rfl, rfl, by rintro x y _ ⟨⟩; exact decide_eq_true_iff, fun _ => rfl, fun _ _ => rfl, fun _ _ => rfl, fun _ _ => rfl, fun _ _ => rfl⟩

theorem reprField_safe (F : FloatFmt) : (reprField F).OnlyPanics := by
  refine ⟨fun _ _ => ⟨nofun, nofun⟩, fun _ => guardTo_safe, fun _ _ => guardTo_safe, fun x r => ?_, fun _ _ => guardIn_safe, fun _ _ => guardIn_safe,
    fun _ _ => guardIn_safe, fun x r => ?_⟩
  · show (if r = 0 then (.panic : Res Rat) else _).ReturnsOrPanics
    split_ifs
    exacts [⟨nofun, nofun⟩, guardTo_safe]
  · show (if r = 0 then ((.panic : Res Unit), x) else _).1.ReturnsOrPanics
    split_ifs
    exacts [⟨nofun, nofun⟩, guardIn_safe]

theorem reprField_exact (F : FloatFmt) : (reprField F).ExactFor id Eq (fieldCoeff Rat) where
  zero := rfl
  one := rfl
  mone := rfl
  eq x y b h := by cases h; rfl
  uminus _ _ h := guardTo_inv h
  mul _ _ _ h := guardTo_inv h
  div := by
    rintro x r _ z rfl h
    change (if r = 0 then (.panic : Res Rat) else guardTo (NumOf F) (x / r)) = .ok z at h
    split_ifs at h
    exact guardTo_inv h
  addIn _ _ h := guardIn_inv h
  subIn _ _ h := guardIn_inv h
  mulIn _ _ h := guardIn_inv h
  divIn := by
    rintro x r _ rfl h
    change (if r = 0 then ((.panic : Res Unit), x) else guardIn (NumOf F) x (x / r)).1 = .ok () at h
    show id (if r = 0 then ((.panic : Res Unit), x) else guardIn (NumOf F) x (x / r)).2 = x / r
    split_ifs at h ⊢
    exact guardIn_inv h

theorem float_div {F : FloatFmt} (hF : F = .f32 ∨ F = .f64) {x y : Fl} {s r : Rat} (hx : StandsFor F s x) (hy : StandsFor F r y) (hr : r ≠ 0) (h : NumOf F (s / r)) :
    StandsFor F (s / r) ((floatCoeff F).div x y) := by
  obtain ⟨b, hb⟩ : ∃ b, Fl.div F x y = Fl.round F b (x.val / y.val) := by
    obtain ⟨-, h1, -⟩ := hx
    obtain ⟨-, h2, rfl⟩ := hy
    cases x <;> cases y <;> first | exact ⟨_, rfl⟩ | (cases h1; done) | (cases h2; done) | exact (hr rfl).elim
  refine ⟨(C50_closed F hF x y hx.1 hy.1 0).2.2.2.1, ?_⟩
  show (Fl.div F x y).isFin = true ∧ (Fl.div F x y).val = _
  rw [hb, hx.2.2, hy.2.2]
  exact round_val_num F (fmt_ok F hF) b _ h

theorem float_field_ref {F : FloatFmt} (hF : F = .f32 ∨ F = .f64) : FRef True (StandsFor F) (StandsFor F) (reprField F) (.ofCoeff (floatCoeff F)) := by
  have h := float_ref hF (RingHom.id Rat) (fun _ _ h => h) (fun _ h => h) (reprField_guards F) (reprField_safe F)
  refine ⟨h.zero, h.one, h.mone, h.eq, h.uminus, h.mul, ?_, h.addIn, h.subIn, h.mulIn, ?_⟩
  · intro x x' r r' hx hr
    show ResRef True (StandsFor F) (if r = 0 then .panic else guardTo (NumOf F) (x / r)) (.ok ((floatCoeff F).div x' r'))
    by_cases c : r ≠ 0 ∧ NumOf F (x / r)
    · rw [if_neg c.1, guardTo_pos c.2]
      exact ⟨_, rfl, float_div hF hx hr c.1 c.2⟩
    · split_ifs with c1
      · trivial
      · rw [guardTo_neg fun h => c ⟨c1, h⟩]
        trivial
  · intro x x' r r' hx hr
    show OutRef True (StandsFor F) (if r = 0 then (.panic, x) else guardIn (NumOf F) x (x / r)) (.ok (), (floatCoeff F).div x' r')
    by_cases c : r ≠ 0 ∧ NumOf F (x / r)
    · rw [if_neg c.1, guardIn_pos c.2]
      exact ⟨(), rfl, float_div hF hx hr c.1 c.2⟩
    · split_ifs with c1
      · trivial
      · rw [guardIn_neg fun h => c ⟨c1, h⟩]
        trivial

section
variable {F : FloatFmt} (p : Profile) (N : Nat)

/-- C108, all statements.  A floating-point program that may also divide and change single entries, and in which every number that the program computes can be represented, taken
exactly, and no division is by zero, makes no rounding error: it returns, and every coefficient of every register is finite and exact. -/
theorem C108_all_statements (hF : F = .f32 ∨ F = .f64) (h2 : 2 ≤ N) (hN : N < 2 ^ 32) (D : Nat) (hm : D ≤ maxDepth N) (hp : N ^ (D + 1) < 2 ^ 64) (prog : List (PStmt Rat Rat))
    (hs : ∀ s ∈ prog, s.Within N D) (ha : allowedProg (fun _ => 0) prog = true) (prog' : List (PStmt Fl Fl))
    (h : List.Forall₂ (StmtRel (StandsFor F) (StandsFor F)) prog prog')
    (hn : FullNumbersIn (Binary F.prec F.eMin F.eMax) (fun x r => r ≠ 0 ∧ Binary F.prec F.eMin F.eMax (x / r)) (· / ·) N D (fun _ => 0) (fun _ _ => 0) prog) :
    ∃ σ, runProg (floatCoeff F) p N prog' = .ok σ ∧ ∀ i w, ValidWord N w → w.length ≤ maxDepth N →
      ∃ k x, fromLetters p N w = .ok k ∧ Dense.get (tensorBasis p N) (σ i) k = .ok x ∧
        (x.getD (floatCoeff F).zero).isFin = true ∧ (x.getD (floatCoeff F).zero).val = fullProg (· / ·) (fun _ => 0) (fun _ _ => 0) prog i w := by
  have hr : ∀ s ∈ prog, s.FullScalars (NumOf F) := forall₂_left (fun s s' hs => by
    have := scalars_rel (ok := NumOf F) (fun _ _ h => standsFor_num (fmt_ok F hF) h) hs
    cases hs with
    | modify i w f f' hf =>
      intro x hx
      obtain ⟨x', hx'⟩ := num_standsFor hx
      exact standsFor_num (fmt_ok F hF) (hf x x' hx')
    | _ => exact this) h
  obtain ⟨g1, g2⟩ := guarded_returns_all p N (reprField_guards F) (q := (· / ·)) (can := fun x r => r ≠ 0 ∧ NumOf F (x / r)) (fieldCoeff_isField Rat).toIsRing (reprField_exact F)
    (fun _ _ => rfl) zero_div (fun x r => by
      show (if r = 0 then ((.panic : Res Unit), x) else guardIn (NumOf F) x (x / r)).1 = .ok () ↔ _
      split_ifs with c
      · exact ⟨nofun, fun h => (h.1 c).elim⟩
      · rw [guardIn_iff]
        exact ⟨fun h => ⟨c, h⟩, fun h => h.2⟩) (fun x r h => h.2) (numOf_zero F (fmt_ok F hF)) h2 hN hm hp prog hs ha hr
  obtain ⟨τ, hτ⟩ := g1.2 hn
  obtain ⟨σ, h3, h4⟩ := (runProgF_ref p N (float_field_ref hF) h).ret hτ
  refine ⟨σ, by rw [(C103_run_total (floatCoeff F) p N prog' 0 (.term [] (.zero false))).1]; exact h3, fun i w hv hl => ?_⟩
  have hk := fromLetters_ok p N (by omega) hN w hv hl
  have := float_entry N (RingHom.id Rat) (h4 i) w
  refine ⟨_, _, hk, get_word p N (by omega) hN _ w hv hl _ hk, this.2.1, ?_⟩
  rw [this.2.2, ← (g2 τ hτ).2 i w hv hl]
  rfl

end

/-! ## Cases that meet the hypotheses -/

/-- `x = 3 a`, `x = x / 4`, negate the coefficient of `a`. -/
def thirdProg : List (PStmt Rat Rat) := [.word 0 [1] 3, .div 0 4, .modify 0 [1] fun x => -x]
def thirdProgF : List (PStmt Fl Fl) := [.word 0 [1] (.fin 3), .div 0 (.fin 4), .modify 0 [1] Fl.neg]

example (p : Profile) : ∃ σ, runProg (floatCoeff .f32) p 2 thirdProgF = .ok σ ∧ ∃ k x, fromLetters p 2 [1] = .ok k ∧ Dense.get (tensorBasis p 2) (σ 0) k = .ok x ∧
    (x.getD (floatCoeff .f32).zero).val = -3 / 4 := by
  have t : ∀ {x : Rat} (n e : Int), x ≠ 0 → x = n * 2 ^ e → |n| < 2 ^ 24 → -149 ≤ e → e ≤ 104 → StandsFor .f32 x (.fin x) :=
    fun n e h0 h h1 h2 h3 => ⟨⟨h0, n, e, h1, h2, h3, h⟩, rfl, rfl⟩
  have t3 : StandsFor .f32 3 (.fin 3) := t 3 0 (by norm_num) (by norm_num) (by decide) (by decide) (by decide)
  have t4 : StandsFor .f32 4 (.fin 4) := t 4 0 (by norm_num) (by norm_num) (by decide) (by decide) (by decide)
  have hneg : FRel (StandsFor .f32) (fun x => -x) Fl.neg := fun x x' h => ⟨neg_valid _ _ h.1, by rw [neg_isFin]; exact h.2.1, by rw [neg_val, h.2.2]⟩
  obtain ⟨σ, h1, h2⟩ := C108_all_statements p 2 (.inl rfl) (by omega) (by omega) 1 (by decide +kernel) (by decide) thirdProg (fun s h => by
      simp only [thirdProg, List.mem_cons, List.not_mem_nil, or_false] at h
      rcases h with rfl | rfl | rfl
      · exact ⟨by decide, by decide⟩
      · trivial
      · exact ⟨by decide, by decide⟩) (by decide) thirdProgF (.cons (.word _ _ _ _ t3) (.cons (.div _ _ _ t4) (.cons (.modify _ _ _ _ hneg) .nil)))
    ⟨fun _ _ _ => trivial, fun w _ _ _ => ⟨by norm_num, by
      show Binary 24 (-149) 104 ((if w = [1] then (3 : Rat) else 0) / 4)
      split_ifs
      · exact ⟨3, -2, by decide, by decide, by decide, by norm_num⟩
      · exact ⟨0, 0, by decide, by decide, by decide, by norm_num⟩⟩, fun _ _ _ => trivial, trivial⟩
  obtain ⟨k, x, k1, k2, -, k4⟩ := h2 0 [1] (by decide) (by decide +kernel)
  exact ⟨σ, h1, k, x, k1, k2, k4.trans (by decide +kernel)⟩

end RA
