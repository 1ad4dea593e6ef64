import Verif.Props.AlgebraLaws

/-!
# Expressions of tensors (C53), products of words (C54), truncation (C55) and grading (C56)
-/

namespace RA
open Spec TensorKey TensorBasis DenseAlg

section
variable {S R : Type} (C : Coeff S R) (p : Profile) (N : Nat)

/-- Evaluation of an expression with the operations of the crate, every product truncated at `D`. -/
def runExpr (D : Nat) : TExpr S → Res (Dense S)
  | .term w s => do
    let k ← fromLetters p N w
    (DenseAlg.ops C p N).fromKeyScalar k s
  | .add a b => do
    let x ← runExpr D a
    let y ← runExpr D b
    (DenseAlg.ops C p N).add x y
  | .sub a b => do
    let x ← runExpr D a
    let y ← runExpr D b
    (DenseAlg.ops C p N).sub x y
  | .neg a => do
    let x ← runExpr D a
    (DenseAlg.ops C p N).uminus x
  | .smul s a => do
    let x ← runExpr D a
    (DenseAlg.ops C p N).scalarLmultiply x s
  | .mul a b => do
    let x ← runExpr D a
    let y ← runExpr D b
    (DenseAlg.ops C p N).multiply x y (some D)
  | .comm a b => do
    let x ← runExpr D a
    let y ← runExpr D b
    (DenseAlg.ops C p N).commutator C x y (some D)

variable {N} in
theorem coef_sub [CommRing S] (hC : C.IsRing) (a b : Dense S) :
    ∃ r, (DenseAlg.ops C p N).sub a b = .ok r ∧ r.size = max a.size b.size ∧ ∀ w, coef C N r w = coef C N a w - coef C N b w := by
  obtain ⟨r, h1, h3⟩ := Dense.subInplace_data C (Dense.ofVec a.data) b
  refine ⟨r, h1, ?_, fun w => ?_⟩
  · unfold Dense.size
    rw [h3, Dense.combine_length]
    rfl
  · unfold coef stored
    rw [h3, Dense.combine_getElem?, Dense.ofVec_data]
    cases a.data[wordIndex N w]? <;> cases b.data[wordIndex N w]? <;> simp [hC.sub, hC.zero]

variable {N} in
theorem coef_uminus [CommRing S] (hC : C.IsRing) (a : Dense S) :
    ∃ r, (DenseAlg.ops C p N).uminus a = .ok r ∧ r.size = a.size ∧ ∀ w, coef C N r w = - coef C N a w := by
  refine ⟨Dense.ofVec (a.data.map C.uminus), rfl, by simp [Dense.size], fun w => ?_⟩
  unfold coef stored
  rw [Dense.ofVec_data, List.getElem?_map]
  cases a.data[wordIndex N w]? <;> simp [hC.uminus, hC.zero]

/-- The vector of a word: full up to the length of the word, with one entry. -/
theorem fromKeyScalar_word (h2 : 2 ≤ N) (hN : N < 2 ^ 32) (w : List Nat) (hw : ValidWord N w) (hl : w.length ≤ maxDepth N)
    (hp : N ^ (w.length + 1) < 2 ^ 64) (s : S) :
    ∃ r, (do let k ← fromLetters p N w; (DenseAlg.ops C p N).fromKeyScalar k s) = .ok r ∧ FullTo N r w.length ∧
      ∀ u, ValidWord N u → coef C N r u = if u = w then s else C.zero := by
  rw [fromLetters_ok p N (by omega) hN w hw hl, Res.bind_ok]
  have hdim : (tensorBasis p N).dimForKey (keyOf N w) = .ok (geomSum N (w.length + 1)) := by
    show vectorDimensionForKey p N (keyOf N w) = _
    unfold vectorDimensionForKey
    have := maxDepth_le N
    rw [show degree (keyOf N w) = w.length from rfl, addW_ok (by omega), Res.bind_ok, startOfDegree_ok p N h2 _ hp]
  have hb := wordIndex_bounds hw
  refine ⟨_, Dense.fromKeyScalar_ok C _ hdim (keyToIndex_keyOf p N (by omega) hN w hw hl) hb.2 s, ⟨by simp [Dense.size], hp⟩, fun u hu => ?_⟩
  unfold coef stored
  rw [Dense.ofVec_data]
  by_cases h : u = w
  · subst h
    simp [hb.2]
  · have hne : wordIndex N u ≠ wordIndex N w := fun e => h (wordIndex_inj hu hw e)
    rw [if_neg h, List.getElem?_modify_ne _ _ hne.symm, List.getElem?_replicate]
    split_ifs <;> rfl

variable {N} in
theorem exprDeg_le {D : Nat} (e : TExpr S) (h : e.Words N D) : e.deg D ≤ D := by
  induction e with
  | term w s => exact h.2
  | add a b iha ihb | sub a b iha ihb => exact max_le (iha h.1) (ihb h.2)
  | neg a ih | smul _ a ih => exact ih h
  | mul a b | comm a b => exact min_le_left _ _

/-- C53.  Every expression of words, sums, differences, negations, scalar multiples, products and commutators whose products all have a factor of
positive degree is evaluated without panic or undefined behaviour, and the result is the expression's value in the free associative algebra, truncated at
`D`. -/
theorem C53_expressions_partial [CommRing S] (hC : C.IsRing) (h2 : 2 ≤ N) (hN : N < 2 ^ 32) (D : Nat) (hD : 1 ≤ D) (hm : D ≤ maxDepth N)
    (hp : N ^ (D + 1) < 2 ^ 64) (e : TExpr S) (hw : e.Words N D) (hs : e.NoConstProduct D) :
    ∃ r, runExpr C p N D e = .ok r ∧ FullTo N r (e.deg D) ∧
      ∀ w, ValidWord N w → coef C N r w = if w.length ≤ D then e.value w else 0 := by
  have out : ∀ (r : Dense S) (d : Nat), d ≤ D → FullTo N r d → ∀ w, ValidWord N w → ¬ w.length ≤ D → coef C N r w = 0 := by
    intro r d hd hr w hw hl
    have h := (wordIndex_bounds hw).1
    have h' := geomSum_mono (N := N) (a := d + 1) (b := w.length) (by omega)
    have h'' := hr.1
    unfold Dense.size at h''
    unfold coef stored
    rw [List.getElem?_eq_none (by omega), Option.getD_none, hC.zero]
  suffices ∃ r, runExpr C p N D e = .ok r ∧ FullTo N r (e.deg D) ∧ ∀ w, ValidWord N w → w.length ≤ D → coef C N r w = e.value w by
    obtain ⟨r, h1, h3, h4⟩ := this
    refine ⟨r, h1, h3, fun w hw' => ?_⟩
    split_ifs with h
    · exact h4 w hw' h
    · exact out r _ (exprDeg_le e hw) h3 w hw' h
  induction e with
  | term w s =>
    obtain ⟨r, h1, h3, h4⟩ := fromKeyScalar_word C p N h2 hN w hw.1 (hw.2.trans hm) (pow_lt64_mono h2 (by have := hw.2; omega) hp) s
    exact ⟨r, h1, h3, fun u hu _ => by rw [h4 u hu, hC.zero]; rfl⟩
  | add a b iha ihb =>
    obtain ⟨x, x1, x2, x3⟩ := iha hw.1 hs.1
    obtain ⟨y, y1, y2, y3⟩ := ihb hw.2 hs.2
    obtain ⟨r, r1, r2, r3⟩ := coef_add C p (N := N) hC x y
    refine ⟨r, ?_, fullTo_max x2 y2 r2, fun w hw' hl => by rw [r3, x3 w hw' hl, y3 w hw' hl]; rfl⟩
    show (runExpr C p N D a >>= fun x => runExpr C p N D b >>= fun y => (DenseAlg.ops C p N).add x y) = _
    rw [x1, Res.bind_ok, y1, Res.bind_ok, r1]
  | sub a b iha ihb =>
    obtain ⟨x, x1, x2, x3⟩ := iha hw.1 hs.1
    obtain ⟨y, y1, y2, y3⟩ := ihb hw.2 hs.2
    obtain ⟨r, r1, r2, r3⟩ := coef_sub C p (N := N) hC x y
    refine ⟨r, ?_, fullTo_max x2 y2 r2, fun w hw' hl => by rw [r3, x3 w hw' hl, y3 w hw' hl]; rfl⟩
    show (runExpr C p N D a >>= fun x => runExpr C p N D b >>= fun y => (DenseAlg.ops C p N).sub x y) = _
    rw [x1, Res.bind_ok, y1, Res.bind_ok, r1]
  | neg a ih =>
    obtain ⟨x, x1, x2, x3⟩ := ih hw hs
    obtain ⟨r, r1, r2, r3⟩ := coef_uminus C p (N := N) hC x
    refine ⟨r, ?_, ⟨r2.trans x2.1, x2.2⟩, fun w hw' hl => by rw [r3, x3 w hw' hl]; rfl⟩
    show (runExpr C p N D a >>= fun x => (DenseAlg.ops C p N).uminus x) = _
    rw [x1, Res.bind_ok, r1]
  | smul s a ih =>
    obtain ⟨x, x1, x2, x3⟩ := ih hw hs
    obtain ⟨r, r1, r2, r3⟩ := coef_smul C p (N := N) hC x s
    refine ⟨r, ?_, ⟨r2.trans x2.1, x2.2⟩, fun w hw' hl => by rw [r3, x3 w hw' hl]; rfl⟩
    show (runExpr C p N D a >>= fun x => (DenseAlg.ops C p N).scalarLmultiply x s) = _
    rw [x1, Res.bind_ok, r1]
  | mul a b iha ihb =>
    obtain ⟨x, x1, x2, x3⟩ := iha hw.1 hs.1
    obtain ⟨y, y1, y2, y3⟩ := ihb hw.2 hs.2.1
    have h1 := hs.2.2
    obtain ⟨r, r1, r2, r3⟩ := C33_multiply_ring C p N hC h2 x y _ _ D x2 y2 (by omega) (pow_lt64_mono h2 (by omega) hp)
    refine ⟨r, ?_, r2, fun w hw' hl => ?_⟩
    · show (runExpr C p N D a >>= fun x => runExpr C p N D b >>= fun y => (DenseAlg.ops C p N).multiply x y (some D)) = _
      rw [x1, Res.bind_ok, y1, Res.bind_ok, r1]
    · rw [r3 w hw', if_pos hl]
      exact conv_congr_valid N w hw' (fun u hu h => x3 u hu (h.trans hl)) (fun u hu h => y3 u hu (h.trans hl))
  | comm a b iha ihb =>
    obtain ⟨x, x1, x2, x3⟩ := iha hw.1 hs.1
    obtain ⟨y, y1, y2, y3⟩ := ihb hw.2 hs.2.1
    have h1 := hs.2.2
    obtain ⟨r, r1, r2, r3⟩ := C36_commutator C p N hC h2 x y _ _ D x2 y2 (by omega) (pow_lt64_mono h2 (by omega) hp)
    refine ⟨r, ?_, r2, fun w hw' hl => ?_⟩
    · show (runExpr C p N D a >>= fun x => runExpr C p N D b >>= fun y => (DenseAlg.ops C p N).commutator C x y (some D)) = _
      rw [x1, Res.bind_ok, y1, Res.bind_ok, r1]
    · rw [r3 w hw', if_pos hl,
        conv_congr_valid N w hw' (fun u hu h => x3 u hu (h.trans hl)) (fun u hu h => y3 u hu (h.trans hl)),
        conv_congr_valid N w hw' (fun u hu h => y3 u hu (h.trans hl)) (fun u hu h => x3 u hu (h.trans hl))]
      rfl

/-- C53.  The condition on products is exact: an expression with a product of two constants is undefined behaviour. -/
theorem C53_const_product_ub [CommRing S] (hC : C.IsRing) (h2 : 2 ≤ N) (hN : N < 2 ^ 32) (D : Nat) (hD : 1 ≤ D) (hm : D ≤ maxDepth N)
    (hp : N ^ (D + 1) < 2 ^ 64) (e : TExpr S) (hw : e.Words N D) (hs : ¬ e.NoConstProduct D) : runExpr C p N D e = .ub := by
  have ok : ∀ e : TExpr S, e.Words N D → e.NoConstProduct D → ∃ r, runExpr C p N D e = .ok r ∧ FullTo N r (e.deg D) := fun e he hs =>
    let ⟨r, h1, h3, _⟩ := C53_expressions_partial C p N hC h2 hN D hD hm hp e he hs
    ⟨r, h1, h3⟩
  have two : ∀ (a b : TExpr S) (f : Dense S → Dense S → Res (Dense S)), a.Words N D → b.Words N D →
      (¬ a.NoConstProduct D → runExpr C p N D a = .ub) → (¬ b.NoConstProduct D → runExpr C p N D b = .ub) →
      (a.NoConstProduct D → b.NoConstProduct D → ∀ x y, FullTo N x (a.deg D) → FullTo N y (b.deg D) → f x y = .ub) →
      (runExpr C p N D a >>= fun x => runExpr C p N D b >>= fun y => f x y) = .ub := by
    intro a b f ha hb ia ib hf
    by_cases h : a.NoConstProduct D
    · obtain ⟨x, x1, x2⟩ := ok a ha h
      rw [x1, Res.bind_ok]
      by_cases h' : b.NoConstProduct D
      · obtain ⟨y, y1, y2⟩ := ok b hb h'
        rw [y1, Res.bind_ok]
        exact hf h h' x y x2 y2
      · rw [ib h']; rfl
    · rw [ia h]; rfl
  have mulUb : ∀ (x y : Dense S) (dx dy : Nat), FullTo N x dx → FullTo N y dy → ¬ 1 ≤ dx + dy →
      (DenseAlg.ops C p N).multiply x y (some D) = .ub := by
    intro x y dx dy hx hy h
    refine (C34_multiply_ub_iff C p N h2 x y dx dy D (hx.hasDegree h2) (hy.hasDegree h2) (pow_lt64_mono h2 (by omega) hp)).1.mpr ?_
    rintro ⟨h1, _⟩
    omega
  induction e with
  | term w s => exact absurd trivial hs
  | add a b iha ihb => exact two a b _ hw.1 hw.2 (iha hw.1) (ihb hw.2) fun h h' => absurd ⟨h, h'⟩ hs
  | sub a b iha ihb => exact two a b _ hw.1 hw.2 (iha hw.1) (ihb hw.2) fun h h' => absurd ⟨h, h'⟩ hs
  | neg a ih =>
    show (runExpr C p N D a >>= _) = _
    rw [ih hw hs]; rfl
  | smul s a ih =>
    show (runExpr C p N D a >>= _) = _
    rw [ih hw hs]; rfl
  | mul a b iha ihb =>
    refine two a b _ hw.1 hw.2 (iha hw.1) (ihb hw.2) fun h h' x y hx hy => mulUb x y _ _ hx hy fun h1 => hs ⟨h, h', h1⟩
  | comm a b iha ihb =>
    refine two a b _ hw.1 hw.2 (iha hw.1) (ihb hw.2) fun h h' x y hx hy => ?_
    have : (DenseAlg.ops C p N).addMul (DenseAlg.ops C p N).new x y (some D) = .ub := mulUb x y _ _ hx hy fun h1 => hs ⟨h, h', h1⟩
    unfold AlgOps.commutator
    rw [this]; rfl

/-- C53, full statement: every expression in words of length at most `D` evaluates to its value in the free algebra, truncated at `D`. -/
def C53_expressions_full [CommRing S] : Prop :=
  ∀ (D : Nat) (e : TExpr S), 1 ≤ D → D ≤ maxDepth N → N ^ (D + 1) < 2 ^ 64 → e.Words N D →
    ∃ r, runExpr C p N D e = .ok r ∧ ∀ w, ValidWord N w → coef C N r w = if w.length ≤ D then e.value w else 0

/-- C53 is false for every alphabet: a product of two constants is undefined behaviour. -/
theorem C53_expressions_refuted [CommRing S] (hC : C.IsRing) (h2 : 2 ≤ N) (hN : N < 2 ^ 32) :
    ¬ C53_expressions_full C p N := by
  intro h
  have hd : 1 ≤ maxDepth N := (two_le_maxDepth N (by omega) hN).trans' (by omega)
  have hp : N ^ (1 + 1) < 2 ^ 64 := by
    have : N * N ≤ (2 ^ 32 - 1) * (2 ^ 32 - 1) := Nat.mul_le_mul (by omega) (by omega)
    rw [Nat.pow_succ, Nat.pow_one]
    omega
  obtain ⟨r, h1, _⟩ := h 1 (.mul (.term [] 1) (.term [] 1)) le_rfl hd hp
    ⟨⟨by intro x hx; simp at hx, by simp⟩, by intro x hx; simp at hx, by simp⟩
  have := C53_const_product_ub C p N hC h2 (by omega) 1 le_rfl hd hp (.mul (.term [] 1) (.term [] 1))
    ⟨⟨by intro x hx; simp at hx, by simp⟩, by intro x hx; simp at hx, by simp⟩ fun h' => absurd h'.2.2 (by simp [TExpr.deg])
  rw [this] at h1
  cases h1

/-- No empty words in the expression. -/
def NonemptyWords : TExpr S → Prop
  | .term w _ => w ≠ []
  | .add a b | .sub a b | .mul a b | .comm a b => NonemptyWords a ∧ NonemptyWords b
  | .neg a | .smul _ a => NonemptyWords a

/-- C53, what a user can rely on without counting degrees: expressions in non-empty words never fail. -/
theorem C53_nonempty_words [CommRing S] (hC : C.IsRing) (h2 : 2 ≤ N) (hN : N < 2 ^ 32) (D : Nat) (hD : 1 ≤ D) (hm : D ≤ maxDepth N)
    (hp : N ^ (D + 1) < 2 ^ 64) (e : TExpr S) (hw : e.Words N D) (hn : NonemptyWords e) :
    ∃ r, runExpr C p N D e = .ok r ∧ ∀ w k, ValidWord N w → w.length ≤ D → fromLetters p N w = .ok k →
      (DenseAlg.ops C p N).get r k = .ok (if w.length ≤ e.deg D then some (e.value w) else none) := by
  have hd : e.NoConstProduct D ∧ 1 ≤ e.deg D := by
    clear hw
    induction e with
    | term w s => exact ⟨trivial, List.length_pos_iff.2 hn⟩
    | add a b iha ihb | sub a b iha ihb => exact ⟨⟨(iha hn.1).1, (ihb hn.2).1⟩, le_max_of_le_left (iha hn.1).2⟩
    | neg a ih | smul _ a ih => exact ih hn
    | mul a b iha ihb | comm a b iha ihb =>
      have h1 := (iha hn.1).2
      have h1' := (ihb hn.2).2
      exact ⟨⟨(iha hn.1).1, (ihb hn.2).1, by omega⟩, le_min hD (by omega)⟩
  obtain ⟨r, h1, h3, h4⟩ := C53_expressions_partial C p N hC h2 hN D hD hm hp e hw hd.1
  refine ⟨r, h1, fun w k hw' hl hk => ?_⟩
  rw [C33_get C p N (by omega) hN r w hw' (hl.trans hm) k hk]
  have h5 := h4 w hw'
  rw [if_pos hl] at h5
  have hb := wordIndex_bounds hw'
  have hs := h3.1
  unfold Dense.size at hs
  unfold coef stored at h5
  unfold stored
  split_ifs with hle
  · have := geomSum_mono (N := N) (a := w.length + 1) (b := e.deg D + 1) (by omega)
    rw [List.getElem?_eq_getElem (by omega)] at h5 ⊢
    rw [← h5]
    rfl
  · have := geomSum_mono (N := N) (a := e.deg D + 1) (b := w.length) (by omega)
    rw [List.getElem?_eq_none (by omega)]

end

/-- `[1, 2] + 3·(1 2)(1) - 1` over two letters, truncated at degree 3. -/
example : ∃ r, runExpr intCoeff .debug 2 3 (.sub (.add (.comm (.term [1] 1) (.term [2] 1)) (.mul (.term [1, 2] 3) (.term [1] 1))) (.term [] 1)) = .ok r ∧
    r.data = [-1, 0, 0, 0, 1, -1, 0, 0, 0, 3, 0, 0, 0, 0, 0] := ⟨⟨.owned, _, []⟩, by decide +kernel, rfl⟩

example := C53_expressions_partial intCoeff .debug 2 intCoeff_isRing (by omega) (by omega) 3 (by omega) (by decide +kernel) (by decide)
  (.sub (.add (.comm (.term [1] 1) (.term [2] 1)) (.mul (.term [1, 2] 3) (.term [1] 1))) (.term [] 1))
  ⟨⟨⟨⟨by decide, by decide⟩, by decide, by decide⟩, ⟨by decide, by decide⟩, by decide, by decide⟩, by decide, by decide⟩
  ⟨⟨⟨trivial, trivial, by decide⟩, trivial, trivial, by decide⟩, trivial⟩

example : runExpr intCoeff .debug 2 3 (.add (.term [1] 1) (.mul (.term [] 2) (.term [] 3))) = .ub :=
  C53_const_product_ub intCoeff .debug 2 intCoeff_isRing (by omega) (by omega) 3 (by omega) (by decide +kernel) (by decide) _
    ⟨⟨by decide, by decide⟩, ⟨by decide, by decide⟩, by decide, by decide⟩ fun h => absurd h.2.2.2 (by decide)

example := C53_nonempty_words intCoeff .release 2 intCoeff_isRing (by omega) (by omega) 3 (by omega) (by decide +kernel) (by decide)
  (.smul 4 (.mul (.neg (.term [1, 2, 2] 3)) (.term [1] 1))) ⟨⟨by decide, by decide⟩, by decide, by decide⟩ ⟨by simp [NonemptyWords], by simp [NonemptyWords]⟩

example : ¬ C53_expressions_full intCoeff .debug 5 :=
  C53_expressions_refuted intCoeff .debug 5 intCoeff_isRing (by omega) (by omega)

end RA
