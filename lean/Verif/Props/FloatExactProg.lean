import Verif.Props.ExactRange
import Verif.Props.FloatExpr

/-!
# Programs that floating-point arithmetic runs without rounding (C108)
-/

namespace RA
open Spec TensorKey TensorBasis Fallible DenseAlg

/-- The floating-point value `x` is a value of the format and stands for the number `q`. -/
def StandsFor (F : FloatFmt) (q : Rat) (x : Fl) : Prop := x.Valid F ∧ x.isFin = true ∧ x.val = q

theorem standsFor_num {F : FloatFmt} (hF : Fl.Ok F) {q : Rat} {x : Fl} (h : StandsFor F q x) : NumOf F q := by
  obtain ⟨h1, h2, rfl⟩ := h
  cases x with
  | fin q => exact h1.2
  | zero s => exact numOf_zero F hF
  | _ => cases h2

section
variable {S R : Type} [CommRing S] {ok : S → Prop} {F : FloatFmt}

/-- As long as the results can be represented, floating-point arithmetic is exact. -/
theorem float_ref (hF : F = .f32 ∨ F = .f64) (ι : S →+* Rat) (hι : Function.Injective ι) (hok : ∀ s, ok s → NumOf F (ι s)) {G : FCoeff S R} (hG : G.Guards ok)
    (hp : G.OnlyPanics) : FRef True (fun s x => StandsFor F (ι s) x) (fun _ _ => False) G (.ofCoeff (floatCoeff F)) := by
  have hadd : ∀ {x y : Fl} {s t : S}, StandsFor F (ι s) x → StandsFor F (ι t) y → ok (s + t) → StandsFor F (ι (s + t)) ((floatCoeff F).add x y) := by
    intro x y s t hx hy h
    obtain ⟨b, hb⟩ := add_round F x y hx.2.1 hy.2.1
    have hn := hok _ h
    have := round_val_num F (fmt_ok F hF) b _ hn
    refine ⟨(C50_closed F hF x y hx.1 hy.1 0).1, ?_⟩
    show (Fl.add F x y).isFin = true ∧ (Fl.add F x y).val = _
    rw [hb, hx.2.2, hy.2.2, ← map_add]
    exact this
  have hneg : ∀ {x : Fl} {s : S}, StandsFor F (ι s) x → StandsFor F (ι (-s)) (Fl.neg x) := by
    intro x s hx
    exact ⟨neg_valid F x hx.1, by rw [neg_isFin]; exact hx.2.1, by rw [neg_val, hx.2.2, map_neg]⟩
  have hsub : ∀ {x y : Fl} {s t : S}, StandsFor F (ι s) x → StandsFor F (ι t) y → ok (s - t) → StandsFor F (ι (s - t)) ((floatCoeff F).sub x y) := by
    intro x y s t hx hy h
    rw [sub_eq_add_neg] at h ⊢
    exact hadd hx (hneg hy) h
  have hmul : ∀ {x y : Fl} {s t : S}, StandsFor F (ι s) x → StandsFor F (ι t) y → ok (s * t) → StandsFor F (ι (s * t)) ((floatCoeff F).mul x y) := by
    intro x y s t hx hy h
    refine ⟨(C50_closed F hF x y hx.1 hy.1 0).2.2.1, ?_⟩
    show (Fl.mul F x y).isFin = true ∧ (Fl.mul F x y).val = _
    rw [mul_round F x y hx.2.1 hy.2.1, hx.2.2, hy.2.2, ← map_mul]
    exact round_val_num F (fmt_ok F hF) _ _ (hok _ h)
  have hto : ∀ {s : S} {x : Fl}, (ok s → StandsFor F (ι s) x) → ResRef True (fun s x => StandsFor F (ι s) x) (guardTo ok s) (.ok x) := by
    intro s x h
    by_cases c : ok s
    · rw [guardTo_pos c]
      exact ⟨x, rfl, h c⟩
    · rw [guardTo_neg c]
      trivial
  have hin : ∀ {o s : S} {x : Fl}, (ok s → StandsFor F (ι s) x) → OutRef True (fun s x => StandsFor F (ι s) x) (guardIn ok o s) (.ok (), x) := by
    intro o s x h
    by_cases c : ok s
    · rw [guardIn_pos c]
      exact ⟨(), rfl, h c⟩
    · rw [guardIn_neg c]
      trivial
  have hc := C50_closed F hF .nan .nan trivial trivial 0
  refine ⟨?_, ?_, ?_, ?_, ?_, ?_, ?_, ?_, ?_, ?_, ?_⟩
  · rw [hG.zero, map_zero]
    exact ⟨trivial, rfl, rfl⟩
  · rw [hG.one, map_one]
    exact ⟨hc.2.2.2.2.2.2.2.1, rfl, rfl⟩
  · rw [hG.mone, map_neg, map_one]
    exact ⟨hc.2.2.2.2.2.2.2.2.1, rfl, rfl⟩
  · intro x x' y y' hx hy
    have := (hp.eq x y)
    cases he : G.eq x y with
    | ok b =>
      refine ⟨_, rfl, ?_⟩
      show b = (floatCoeff F).eq x' y'
      rw [Bool.eq_iff_iff, hG.eq x y b he, (C50_eq F x' y').2 hx.1 hy.1 hx.2.1 hy.2.1, hx.2.2, hy.2.2]
      exact hι.eq_iff.symm
    | panic => trivial
    | ub => exact (this.1 he).elim
    | diverge => exact (this.2 he).elim
  · intro x x' hx
    rw [hG.uminus]
    exact hto fun _ => hneg hx
  · intro x x' y y' hx hy
    rw [hG.mul]
    exact hto fun h => hmul hx hy h
  · exact fun _ _ _ _ _ h => h.elim
  · intro x x' y y' hx hy
    rw [hG.addIn]
    exact hin fun h => hadd hx hy h
  · intro x x' y y' hx hy
    rw [hG.subIn]
    exact hin fun h => hsub hx hy h
  · intro x x' y y' hx hy
    rw [hG.mulIn]
    exact hin fun h => hmul hx hy h
  · exact fun _ _ _ _ _ h => h.elim

omit [CommRing S] in
theorem stmtRel_div {S' R' : Type} {Q : S → S' → Prop} {P P' : R → R' → Prop} {s : PStmt S R} {s' : PStmt S' R'} (ha : s.Algebraic) (h : StmtRel Q P s s') : StmtRel Q P' s s' := by
  cases h with
  | div => exact ha.elim
  | modify => exact ha.elim
  | word i w s s' hs => exact .word _ _ _ _ hs
  | terms i l l' hl => exact .terms _ _ _ hl
  | scale i s s' hs => exact .scale _ _ _ hs
  | _ => constructor

omit [CommRing S] in
theorem progRel_div {S' R' : Type} {Q : S → S' → Prop} {P P' : R → R' → Prop} {prog : List (PStmt S R)} {prog' : List (PStmt S' R')} (h : List.Forall₂ (StmtRel Q P) prog prog')
    (ha : ∀ s ∈ prog, s.Algebraic) : List.Forall₂ (StmtRel Q P') prog prog' := by
  induction h with
  | nil => exact .nil
  | cons h1 _ ih => exact .cons (stmtRel_div (ha _ (by simp)) h1) (ih fun s hs => ha s (by simp [hs]))

theorem float_entry (N : Nat) (ι : S →+* Rat) {d : Dense S} {d' : Dense Fl} (h : DRel (fun s x => StandsFor F (ι s) x) d d') (w : List Nat) :
    StandsFor F (ι (val N d w)) ((stored N d' w).getD (floatCoeff F).zero) := by
  have := h.data
  unfold val stored
  cases c : d.data[wordIndex N w]? with
  | none =>
    rw [List.getElem?_eq_none_iff, this.length_eq, ← List.getElem?_eq_none_iff] at c
    rw [c]
    show StandsFor F (ι 0) (.zero false)
    rw [map_zero]
    exact ⟨trivial, rfl, rfl⟩
  | some s =>
    obtain ⟨hlt, hs⟩ := List.getElem?_eq_some_iff.1 c
    have hlt' := this.length_eq ▸ hlt
    rw [List.getElem?_eq_getElem hlt']
    have := this.get hlt hlt'
    simpa [hs] using this

variable (p : Profile) (N : Nat)

/-- What the registers of a floating-point program hold when the program over guarded coefficients returns. -/
theorem float_regs (hF : F = .f32 ∨ F = .f64) (ι : S →+* Rat) (hι : Function.Injective ι) (hok : ∀ s, ok s → NumOf F (ι s)) {G : FCoeff S R} (hG : G.Guards ok)
    (hp : G.OnlyPanics) (h1 : 1 ≤ N) (hN : N < 2 ^ 32) (prog : List (PStmt S R)) (ha : ∀ s ∈ prog, s.Algebraic) (prog' : List (PStmt Fl Fl)) {P : R → Fl → Prop}
    (h : List.Forall₂ (StmtRel (fun s x => StandsFor F (ι s) x) P) prog prog') (σ : Nat → Dense S) (hσ : runProgF G p N prog = .ok σ) :
    ∃ σ', runProg (floatCoeff F) p N prog' = .ok σ' ∧ ∀ i w, ValidWord N w → w.length ≤ maxDepth N →
      ∃ k x, fromLetters p N w = .ok k ∧ Dense.get (tensorBasis p N) (σ' i) k = .ok x ∧ StandsFor F (ι (val N (σ i) w)) (x.getD (floatCoeff F).zero) := by
  obtain ⟨σ', h3, h4⟩ := (runProgF_ref p N (float_ref hF ι hι hok hG hp) (progRel_div h ha)).ret hσ
  refine ⟨σ', by rw [(C103_run_total (floatCoeff F) p N prog' 0 (.term [] (.zero false))).1]; exact h3, fun i w hv hl => ?_⟩
  have hk := fromLetters_ok p N h1 hN w hv hl
  refine ⟨_, _, hk, get_word p N h1 hN _ w hv hl _ hk, ?_⟩
  exact float_entry N ι (h4 i) w

end

/-- Rational numbers that the format can represent; every other result is a panic. -/
noncomputable def reprRat (F : FloatFmt) (R : Type) : FCoeff Rat R := guarded (NumOf F) (fun x y => .ok (decide (x = y))) (fun _ _ => .panic) fun x _ => (.panic, x)

theorem reprRat_guards (F : FloatFmt) (R : Type) : (reprRat F R).Guards (NumOf F) :=
  ⟨rfl, rfl, rfl, by rintro x y _ ⟨⟩; exact decide_eq_true_iff, fun _ => rfl, fun _ _ => rfl, fun _ _ => rfl, fun _ _ => rfl, fun _ _ => rfl⟩

theorem guardTo_safe {S : Type} {ok : S → Prop} {x : S} : (guardTo ok x).ReturnsOrPanics := by
  unfold guardTo
  split_ifs <;> exact ⟨nofun, nofun⟩

theorem guardIn_safe {S : Type} {ok : S → Prop} {o x : S} : (guardIn ok o x).1.ReturnsOrPanics := by
  unfold guardIn
  split_ifs <;> exact ⟨nofun, nofun⟩

theorem reprRat_safe (F : FloatFmt) (R : Type) : (reprRat F R).OnlyPanics :=
  ⟨fun _ _ => ⟨nofun, nofun⟩, fun _ => guardTo_safe, fun _ _ => guardTo_safe, fun _ _ => ⟨nofun, nofun⟩, fun _ _ => guardIn_safe, fun _ _ => guardIn_safe,
    fun _ _ => guardIn_safe, fun _ _ => ⟨nofun, nofun⟩⟩

theorem scalars_rel {S S' R R' : Type} {Q : S → S' → Prop} {P : R → R' → Prop} {ok : S → Prop} (hq : ∀ s s', Q s s' → ok s) {st : PStmt S R} {st' : PStmt S' R'}
    (h : StmtRel Q P st st') : st.Scalars ok := by
  cases h with
  | word i w s s' hs => exact hq _ _ hs
  | scale i s s' hs => exact hq _ _ hs
  | terms i l l' hl =>
    intro e he
    obtain ⟨n, hn, rfl⟩ := List.getElem_of_mem he
    have := hl.get hn (hl.length_eq ▸ hn)
    exact hq _ _ this.2
  | _ => trivial

theorem forall₂_left {A B : Type} {r : A → B → Prop} {q : A → Prop} (hq : ∀ a b, r a b → q a) {l : List A} {l' : List B} (h : List.Forall₂ r l l') : ∀ a ∈ l, q a := by
  induction h with
  | nil => simp
  | cons h1 _ ih =>
    intro a ha
    rcases List.mem_cons.1 ha with rfl | ha
    exacts [hq _ _ h1, ih a ha]

section
variable {F : FloatFmt} {R : Type} (p : Profile) (N : Nat)

/-- C108.  A floating-point program in which every number that the program computes can be represented, taken exactly, makes no rounding error: it returns, and every
coefficient of every register is finite and exact. -/
theorem C108_exact (hF : F = .f32 ∨ F = .f64) (h2 : 2 ≤ N) (hN : N < 2 ^ 32) (D : Nat) (hm : D ≤ maxDepth N) (hp : N ^ (D + 1) < 2 ^ 64) (prog : List (PStmt Rat R))
    (hs : ∀ s ∈ prog, s.Within N D ∧ s.Algebraic) (ha : allowedProg (fun _ => 0) prog = true) (prog' : List (PStmt Fl Fl)) {P : R → Fl → Prop}
    (h : List.Forall₂ (StmtRel (StandsFor F) P) prog prog') (hn : NumbersIn (Binary F.prec F.eMin F.eMax) N D (fun _ _ => 0) prog) :
    ∃ σ, runProg (floatCoeff F) p N prog' = .ok σ ∧ ∀ i w, ValidWord N w → w.length ≤ maxDepth N →
      ∃ k x, fromLetters p N w = .ok k ∧ Dense.get (tensorBasis p N) (σ i) k = .ok x ∧
        (x.getD (floatCoeff F).zero).isFin = true ∧ (x.getD (floatCoeff F).zero).val = valueProg prog i w := by
  have hr : ∀ s ∈ prog, s.Scalars (NumOf F) := forall₂_left (fun _ _ hs => scalars_rel (ok := NumOf F) (fun _ _ h => standsFor_num (fmt_ok F hF) h) hs) h
  obtain ⟨g1, g2⟩ := guarded_returns p N (reprRat_guards F R) (numOf_zero F (fmt_ok F hF)) h2 hN hm hp prog hs ha hr
  obtain ⟨τ, hτ⟩ := g1.2 hn
  obtain ⟨σ, h3, h4⟩ := float_regs p N hF (RingHom.id Rat) (fun _ _ h => h) (fun _ h => h) (reprRat_guards F R) (reprRat_safe F R) (by omega) hN prog
    (fun s h => (hs s h).2) prog' h τ hτ
  refine ⟨σ, h3, fun i w hv hl => ?_⟩
  obtain ⟨k, x, k1, k2, k3⟩ := h4 i w hv hl
  exact ⟨k, x, k1, k2, k3.2.1, by rw [k3.2.2, ← (g2 τ hτ).2 i w hv hl]; rfl⟩

theorem between_num (hF : F = .f32 ∨ F = .f64) {lo hi : Int} (hlo : -2 ^ F.prec ≤ lo) (hhi : hi ≤ 2 ^ F.prec) (n : Int) (h : Between lo hi n) : NumOf F ((Int.castRingHom Rat) n) :=
  numOf_int F (fmt_ok F hF) (by rcases hF with rfl | rfl <;> decide) (by rcases hF with rfl | rfl <;> decide) n (abs_le.2 ⟨hlo.trans h.1, h.2.trans hhi⟩)

/-- C108, integers: if checked integers between `-2^24` and `2^24` (`f32`) or `-2^53` and `2^53` (`f64`) run the program without a panic, then floating-point numbers run it without a
rounding error. -/
theorem C108_checked (hF : F = .f32 ∨ F = .f64) {lo hi : Int} (hlo : -2 ^ F.prec ≤ lo) (hhi : hi ≤ 2 ^ F.prec) (h2 : 2 ≤ N) (hN : N < 2 ^ 32) (D : Nat) (hm : D ≤ maxDepth N)
    (hp : N ^ (D + 1) < 2 ^ 64) (prog : List (PStmt Int Int)) (hs : ∀ s ∈ prog, s.Within N D ∧ s.Algebraic) (prog' : List (PStmt Fl Fl)) {P : Int → Fl → Prop}
    (h : List.Forall₂ (StmtRel (fun (n : Int) x => StandsFor F n x) P) prog prog') (τ : Nat → Dense Int) (hτ : runProgF (rangeInt lo hi) p N prog = .ok τ) :
    ∃ σ, runProg (floatCoeff F) p N prog' = .ok σ ∧ ∀ i w, ValidWord N w → w.length ≤ maxDepth N →
      ∃ k x, fromLetters p N w = .ok k ∧ Dense.get (tensorBasis p N) (σ i) k = .ok x ∧
        (x.getD (floatCoeff F).zero).isFin = true ∧ (x.getD (floatCoeff F).zero).val = valueProg prog i w := by
  obtain ⟨σ, h3, h4⟩ := float_regs p N hF (Int.castRingHom Rat) Int.cast_injective (between_num hF hlo hhi) (rangeInt_guards lo hi) (C103_only_panics lo hi).1 (by omega) hN prog
    (fun s h => (hs s h).2) prog' h τ hτ
  refine ⟨σ, h3, fun i w hv hl => ?_⟩
  obtain ⟨k, x, k1, k2, k3⟩ := h4 i w hv hl
  obtain ⟨y, y1, y2⟩ := C103_program_values p N truncCoeff_isRing (C103_integers lo hi) h2 hN D hm hp prog hs prog
    (List.forall₂_same.2 fun s' h' => stmtRel_same (hs s' h').2 (by cases s' <;> first | trivial | exact fun _ _ => rfl)) τ hτ i w _ hv hl k1
  rw [get_word p N (by omega) hN (τ i) w hv hl _ k1] at y1
  cases y1
  refine ⟨k, x, k1, k2, k3.2.1, ?_⟩
  rw [k3.2.2, ← y2]
  rfl

/-- C108, integers: if every number that an integer program computes is between `-2^24` and `2^24` (`f32`) or between `-2^53` and `2^53` (`f64`), floating-point numbers run it
without a rounding error. -/
theorem C108_integers (hF : F = .f32 ∨ F = .f64) (h2 : 2 ≤ N) (hN : N < 2 ^ 32) (D : Nat) (hm : D ≤ maxDepth N) (hp : N ^ (D + 1) < 2 ^ 64) (prog : List (PStmt Int Int))
    (hs : ∀ s ∈ prog, s.Within N D ∧ s.Algebraic) (ha : allowedProg (fun _ => 0) prog = true) (hr : ∀ s ∈ prog, s.Scalars fun n => |n| ≤ 2 ^ F.prec)
    (prog' : List (PStmt Fl Fl)) {P : Int → Fl → Prop} (h : List.Forall₂ (StmtRel (fun (n : Int) x => StandsFor F n x) P) prog prog')
    (hn : NumbersIn (fun n => |n| ≤ 2 ^ F.prec) N D (fun _ _ => 0) prog) :
    ∃ σ, runProg (floatCoeff F) p N prog' = .ok σ ∧ ∀ i w, ValidWord N w → w.length ≤ maxDepth N →
      ∃ k x, fromLetters p N w = .ok k ∧ Dense.get (tensorBasis p N) (σ i) k = .ok x ∧
        (x.getD (floatCoeff F).zero).isFin = true ∧ (x.getD (floatCoeff F).zero).val = valueProg prog i w := by
  have h1 : (1 : Int) ≤ 2 ^ F.prec := one_le_pow₀ (by norm_num)
  have e : (fun n : Int => |n| ≤ 2 ^ F.prec) = Between (-2 ^ F.prec) (2 ^ F.prec) := funext fun n => propext abs_le
  rw [e] at hn hr
  obtain ⟨τ, hτ⟩ := (C105_exact_signed p N (by omega) h1 h2 hN D hm hp prog hs ha hr).1.2 hn
  exact C108_checked p N hF le_rfl le_rfl h2 hN D hm hp prog hs prog' h τ hτ

/-- C108, magnitudes: it is enough that, after each statement, the absolute values of all terms add up to at most `2^24` or `2^53` for each register and each word. -/
theorem C108_magnitudes (hF : F = .f32 ∨ F = .f64) (h2 : 2 ≤ N) (hN : N < 2 ^ 32) (D : Nat) (hm : D ≤ maxDepth N) (hp : N ^ (D + 1) < 2 ^ 64) (prog : List (PStmt Int Int))
    (hs : ∀ s ∈ prog, s.Within N D ∧ s.Algebraic) (ha : allowedProg (fun _ => 0) prog = true) (prog' : List (PStmt Fl Fl)) {P : Int → Fl → Prop}
    (h : List.Forall₂ (StmtRel (fun (n : Int) x => StandsFor F n x) P) prog prog') (hB : MassBelow Int.natAbs N D (2 ^ F.prec) (fun _ _ => 0) prog) :
    ∃ σ, runProg (floatCoeff F) p N prog' = .ok σ ∧ ∀ i w, ValidWord N w → w.length ≤ maxDepth N →
      ∃ k x, fromLetters p N w = .ok k ∧ Dense.get (tensorBasis p N) (σ i) k = .ok x ∧
        (x.getD (floatCoeff F).zero).isFin = true ∧ (x.getD (floatCoeff F).zero).val = valueProg prog i w := by
  obtain ⟨τ, hτ, -⟩ := C105_returns p N (C104_integers (lo := -2 ^ F.prec) (hi := 2 ^ F.prec) (B := 2 ^ F.prec) (by push_cast; exact le_rfl) (by push_cast; exact le_rfl))
    h2 hN D hm hp prog hs ha hB
  exact C108_checked p N hF le_rfl le_rfl h2 hN D hm hp prog hs prog' h τ hτ

end

/-! ## The hypothesis on the numbers in between -/

/-- `x = 2^53 + 1; x = x - 2^53`, in rational and in floating-point numbers. -/
def lostProg : List (PStmt Rat Unit) := [.word 0 [] (2 ^ 53), .word 1 [] 1, .add 0 1, .word 1 [] (2 ^ 53), .sub 0 1]
def lostProgF : List (PStmt Fl Fl) := [.word 0 [] (.fin (2 ^ 53)), .word 1 [] (.fin 1), .add 0 1, .word 1 [] (.fin (2 ^ 53)), .sub 0 1]

/-- C108.  The numbers in between matter: here all scalars and the result 1 can be represented, but the sum `2^53 + 1` cannot, and the program returns 0. -/
theorem C108_in_between : ∃ (prog : List (PStmt Rat Unit)) (prog' : List (PStmt Fl Fl)) (σ : Nat → Dense Fl),
    List.Forall₂ (StmtRel (StandsFor .f64) fun _ _ => True) prog prog' ∧ (∀ s ∈ prog, s.Within 2 1 ∧ s.Algebraic) ∧ allowedProg (fun _ => 0) prog = true ∧
    runProg (floatCoeff .f64) .debug 2 prog' = .ok σ ∧ valueProg prog 0 [] = 1 ∧ (σ 0).data = [.zero false] := by
  have h53 : StandsFor .f64 (2 ^ 53) (.fin (2 ^ 53)) := ⟨⟨by norm_num, 1, 53, by decide, by decide, by decide, by norm_num⟩, rfl, rfl⟩
  have h1 : StandsFor .f64 1 (.fin 1) := ⟨(C50_closed .f64 (.inr rfl) .nan .nan trivial trivial 0).2.2.2.2.2.2.2.1, rfl, rfl⟩
  have hrun : ((runProg (floatCoeff .f64) .debug 2 lostProgF) >>= fun σ => .ok ((σ 0).data)) = .ok [.zero false] := by decide +kernel
  obtain ⟨σ, hσ, he⟩ := bind_ok_inv hrun
  cases hd : (σ 0).data with
  | nil => rw [hd] at he; cases he
  | cons x l =>
    rw [hd] at he
    cases he
    refine ⟨lostProg, lostProgF, σ, .cons (.word _ _ _ _ h53) (.cons (.word _ _ _ _ h1) (.cons (.add _ _) (.cons (.word _ _ _ _ h53) (.cons (.sub _ _) .nil)))), fun s h => ?_, rfl, hσ, ?_, hd⟩
    · simp only [lostProg, List.mem_cons, List.not_mem_nil, or_false] at h
      rcases h with rfl | rfl | rfl | rfl | rfl
      all_goals first | exact ⟨⟨by decide, by decide⟩, trivial⟩ | exact ⟨trivial, trivial⟩
    · decide +kernel

/-! ## Examples -/

/-- `x = 1 + a / 2`, `y = 2 - 3/4 a`, `z = x y` up to degree 1, `z = z / 4`. -/
def dyadicProg : List (PStmt Rat Unit) := [.terms 0 [([], 1), ([1], 1 / 2)], .terms 1 [([], 2), ([1], -3 / 4)], .mul 2 0 1 1, .scale 2 (1 / 4)]
def dyadicProgF : List (PStmt Fl Fl) := [.terms 0 [([], .fin 1), ([1], .fin (1 / 2))], .terms 1 [([], .fin 2), ([1], .fin (-3 / 4))], .mul 2 0 1 1, .scale 2 (.fin (1 / 4))]

/-- Multiples of `1/16` of absolute value less than `2^20`. -/
def Sixteenth (x : Rat) : Prop := (x * 16).den = 1 ∧ |(x * 16).num| < 2 ^ 24

instance : DecidablePred Sixteenth := fun _ => inferInstanceAs (Decidable (_ ∧ _))

theorem sixteenth_num (x : Rat) (h : Sixteenth x) : NumOf .f32 x := by
  refine ⟨(x * 16).num, -4, h.2, by decide, by decide, ?_⟩
  have := Rat.den_eq_one_iff (x * 16) |>.1 h.1
  rw [this]
  norm_num
  ring

theorem sumsIn_mono {S : Type} [CommRing S] {ok ok' : S → Prop} (h : ∀ s, ok s → ok' s) (l : List S) : ∀ x, SumsIn ok x l → SumsIn ok' x l := by
  induction l with
  | nil => exact fun _ _ => trivial
  | cons t l ih => exact fun x hx => ⟨h _ hx.1, ih _ hx.2⟩

theorem prodIn_mono {S : Type} [CommRing S] {ok ok' : S → Prop} (h : ∀ s, ok s → ok' s) {ε x : S} {f g : List Nat → S} {w : List Nat} (hp : ProdIn ok ε x f g w) :
    ProdIn ok' ε x f g w := ⟨fun t ht => ⟨h _ (hp.1 t ht).1, h _ (hp.1 t ht).2⟩, sumsIn_mono h _ _ hp.2⟩

theorem quarters (n : Int) (e : Int) (hn : |n| < 2 ^ 24) (he : -149 ≤ e) (he' : e ≤ 104) : NumOf .f32 (n * 2 ^ e) := ⟨n, e, hn, he, he', rfl⟩

example (p : Profile) : ∃ σ, runProg (floatCoeff .f32) p 2 dyadicProgF = .ok σ ∧ ∃ k x, fromLetters p 2 [1] = .ok k ∧ Dense.get (tensorBasis p 2) (σ 2) k = .ok x ∧
    (x.getD (floatCoeff .f32).zero).val = 1 / 16 := by
  have q : ∀ {x : Rat} (n e : Int), x = n * 2 ^ e → |n| < 2 ^ 24 → -149 ≤ e → e ≤ 104 → NumOf .f32 x := fun n e h h1 h2 h3 => h ▸ quarters n e h1 h2 h3
  have t : ∀ {x : Rat} (n e : Int), x ≠ 0 → x = n * 2 ^ e → |n| < 2 ^ 24 → -149 ≤ e → e ≤ 104 → StandsFor .f32 x (.fin x) :=
    fun n e h0 h h1 h2 h3 => ⟨⟨h0, q n e h h1 h2 h3⟩, rfl, rfl⟩
  have t1 : StandsFor .f32 1 (.fin 1) := t 1 0 (by norm_num) (by norm_num) (by decide) (by decide) (by decide)
  have t2 : StandsFor .f32 (1 / 2) (.fin (1 / 2)) := t 1 (-1) (by norm_num) (by norm_num) (by decide) (by decide) (by decide)
  have t3 : StandsFor .f32 2 (.fin 2) := t 2 0 (by norm_num) (by norm_num) (by decide) (by decide) (by decide)
  have t4 : StandsFor .f32 (-3 / 4) (.fin (-3 / 4)) := t (-3) (-2) (by norm_num) (by norm_num) (by decide) (by decide) (by decide)
  have t5 : StandsFor .f32 (1 / 4) (.fin (1 / 4)) := t 1 (-2) (by norm_num) (by norm_num) (by decide) (by decide) (by decide)
  obtain ⟨σ, h1, h2⟩ := C108_exact (R := Unit) p 2 (.inl rfl) (by omega) (by omega) 1 (by decide +kernel) (by decide) dyadicProg (fun s h => by
      simp only [dyadicProg, List.mem_cons, List.not_mem_nil, or_false] at h
      rcases h with rfl | rfl | rfl | rfl
      · exact ⟨by simp [PStmt.Within, ValidWord], trivial⟩
      · exact ⟨by simp [PStmt.Within, ValidWord], trivial⟩
      · exact ⟨le_rfl, trivial⟩
      · exact ⟨trivial, trivial⟩) (by decide) dyadicProgF (P := fun _ _ => True)
    (.cons (.terms _ _ _ (.cons ⟨rfl, t1⟩ (.cons ⟨rfl, t2⟩ .nil))) (.cons (.terms _ _ _ (.cons ⟨rfl, t3⟩ (.cons ⟨rfl, t4⟩ .nil)))
      (.cons (.mul _ _ _ _) (.cons (.scale _ _ _ t5) .nil)))) (by
    refine ⟨short_words ?_ ?_ ?_, short_words ?_ ?_ ?_, short_words (fun _ => ?_) (fun _ => ?_) (fun _ => ?_), short_words ?_ ?_ ?_, trivial⟩
    all_goals first
      | exact sumsIn_mono sixteenth_num _ _ (by decide +kernel)
      | exact prodIn_mono sixteenth_num (by decide +kernel)
      | exact sixteenth_num _ (by decide +kernel))
  obtain ⟨k, x, k1, k2, -, k3⟩ := h2 2 [1] (by decide) (by decide +kernel)
  exact ⟨σ, h1, k, x, k1, k2, k3.trans (by decide +kernel)⟩

/-- The program of the examples of C105 in `f32`: a product with cancellation. -/
def passProgF : List (PStmt Fl Fl) := [.terms 0 [([], .fin 1), ([1], .fin 10)], .terms 1 [([], .fin 2), ([1], .fin (-20))], .mul 2 0 1 1]

theorem small_stands (n : Int) (h0 : n ≠ 0) (h : |n| < 2 ^ 24) : StandsFor .f32 n (.fin n) :=
  ⟨⟨by exact_mod_cast h0, n, 0, h, by decide, by decide, by simp⟩, rfl, rfl⟩

theorem passProgF_rel : List.Forall₂ (StmtRel (fun (n : Int) x => StandsFor .f32 n x) fun _ _ => True) passProg passProgF :=
  .cons (.terms _ _ _ (.cons ⟨rfl, small_stands 1 (by decide) (by decide)⟩ (.cons ⟨rfl, small_stands 10 (by decide) (by decide)⟩ .nil)))
    (.cons (.terms _ _ _ (.cons ⟨rfl, small_stands 2 (by decide) (by decide)⟩ (.cons ⟨rfl, small_stands (-20) (by decide) (by decide)⟩ .nil)))
      (.cons (.mul _ _ _ _) .nil))

example (p : Profile) : ∃ σ, runProg (floatCoeff .f32) p 2 passProgF = .ok σ ∧ ∃ k x, fromLetters p 2 [1] = .ok k ∧ Dense.get (tensorBasis p 2) (σ 2) k = .ok x ∧
    (x.getD (floatCoeff .f32).zero).val = 0 := by
  obtain ⟨σ, h1, h2⟩ := C108_integers p 2 (.inl rfl) (by omega) (by omega) 1 (by decide +kernel) (by decide) passProg passProg_ok.1 passProg_ok.2.1 (fun s h => by
      simp only [passProg, List.mem_cons, List.not_mem_nil, or_false] at h
      rcases h with rfl | rfl | rfl
      · simp only [PStmt.Scalars, List.mem_cons, List.not_mem_nil, or_false, forall_eq_or_imp, forall_eq]; decide
      · simp only [PStmt.Scalars, List.mem_cons, List.not_mem_nil, or_false, forall_eq_or_imp, forall_eq]; decide
      · trivial) passProgF passProgF_rel
    ⟨short_words (by exact (by decide +kernel : SumsIn (fun n : Int => |n| ≤ 2 ^ 24) 0 [1])) (by exact (by decide +kernel : SumsIn (fun n : Int => |n| ≤ 2 ^ 24) 0 [10])) trivial,
      short_words (by exact (by decide +kernel : SumsIn (fun n : Int => |n| ≤ 2 ^ 24) 0 [2])) (by exact (by decide +kernel : SumsIn (fun n : Int => |n| ≤ 2 ^ 24) 0 [-20])) trivial,
      short_words (fun _ => by decide +kernel) (fun _ => by decide +kernel) (fun _ => by decide +kernel), trivial⟩
  obtain ⟨k, x, k1, k2, -, k3⟩ := h2 2 [1] (by decide) (by decide +kernel)
  exact ⟨σ, h1, k, x, k1, k2, k3.trans (by decide +kernel)⟩

theorem passProg_mass : MassBelow Int.natAbs 2 1 (2 ^ 24) (fun _ _ => 0) passProg := by
  have h : ∀ {ρ : Nat → List Nat → Int}, (∀ w, ValidWord 2 w → w.length ≤ 1 → ∀ i, ρ i w ≤ 2 ^ 24) → ∀ i w, ValidWord 2 w → w.length ≤ 1 → ρ i w ≤ 2 ^ 24 :=
    fun h i w hv hd => h w hv hd i
  refine ⟨h (short_words ?_ ?_ ?_), h (short_words ?_ ?_ ?_), h (short_words ?_ ?_ ?_), trivial⟩ <;> intro i <;>
    rcases i with _ | _ | _ | i <;> first | decide +kernel | exact (by decide : (0 : Int) ≤ 2 ^ 24)

example (p : Profile) := C108_magnitudes p 2 (.inl rfl) (by omega) (by omega) 1 (by decide +kernel) (by decide) passProg passProg_ok.1 passProg_ok.2.1 passProgF passProgF_rel
  passProg_mass

end RA
