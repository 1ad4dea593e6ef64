import Verif.Props.FloatScale
import Verif.Props.Dense

/-!
# Building floating-point vectors from many terms (C85)
-/

namespace RA
open Spec TensorKey TensorBasis DenseAlg Fl

/-- The exact sum of the values. -/
def Spec.sumVals (l : List Fl) : Rat := (l.map Fl.val).sum

/-- The sum of the magnitudes of the values. -/
def Spec.sumMags (l : List Fl) : Rat := (l.map fun x => |x.val|).sum

section
variable (F : FloatFmt)

theorem sumMags_nonneg (l : List Fl) : 0 ≤ sumMags l := by
  apply List.sum_nonneg
  intro x hx
  obtain ⟨e, _, rfl⟩ := List.mem_map.1 hx
  positivity

theorem sumVals_snoc (l : List Fl) (x : Fl) : sumVals (l ++ [x]) = sumVals l + x.val := by simp [sumVals]

theorem sumMags_snoc (l : List Fl) (x : Fl) : sumMags (l ++ [x]) = sumMags l + |x.val| := by simp [sumMags]

theorem sumVals_le (l : List Fl) : |sumVals l| ≤ sumMags l := by
  induction l using List.reverseRecOn with
  | nil => simp [sumVals, sumMags]
  | append_singleton l x ih =>
    rw [sumVals_snoc, sumMags_snoc]
    exact (abs_add_le _ _).trans (by linarith)

theorem foldl_add_snoc (l : List Fl) (x : Fl) : (l ++ [x]).foldl (Fl.add F) (.zero false) = Fl.add F (l.foldl (Fl.add F) (.zero false)) x := by
  rw [List.foldl_append]
  rfl

theorem foldl_add_valid (hF : Fl.Ok F) (l : List Fl) (hl : ∀ x ∈ l, x.Valid F) : (l.foldl (Fl.add F) (.zero false)).Valid F := by
  induction l using List.reverseRecOn with
  | nil => trivial
  | append_singleton l x ih =>
    rw [foldl_add_snoc]
    exact add_valid F hF _ _ (ih fun y hy => hl y (by simp [hy])) (hl x (by simp))

/-- Adding to the initial zero is exact. -/
theorem zero_add_val (hF : Fl.Ok F) (x : Fl) (hx : x.Valid F) (hf : x.isFin = true) :
    (Fl.add F (.zero false) x).isFin = true ∧ (Fl.add F (.zero false) x).val = x.val := by
  obtain ⟨s, hs⟩ := add_round F (.zero false) x rfl hf
  have hv : (Fl.zero false).val + x.val = x.val := by simp [Fl.val]
  rw [hs, hv]
  cases x with
  | fin q => exact round_val_num F hF s q hx.2
  | zero t => simp [Fl.round, Fl.val, Fl.isFin]
  | _ => cases hf

theorem sum_step (u : Rat) (hu : 0 < u) (k : Nat) (s t s' p P : Rat) (ht : |t| ≤ P)
    (h1 : |s - t| ≤ ((1 + u) ^ k - 1) * P) (h3 : |s' - (s + p)| ≤ u * |s + p|) :
    |s' - (t + p)| ≤ ((1 + u) ^ (k + 1) - 1) * (P + |p|) := by
  have e1 : |s + p| ≤ (1 + u) ^ k * P + |p| := by
    calc |s + p| = |(s - t) + t + p| := by ring_nf
      _ ≤ |s - t| + |t| + |p| := abs_add_three _ _ _
      _ ≤ _ := by linarith
  have e2 : |s' - (t + p)| ≤ |s' - (s + p)| + |s - t| := by
    calc |s' - (t + p)| = |(s' - (s + p)) + (s - t)| := by ring_nf
      _ ≤ _ := abs_add_le _ _
  have e3 : u * |s + p| ≤ u * ((1 + u) ^ k * P + |p|) := mul_le_mul_of_nonneg_left e1 hu.le
  have hq : (1 : Rat) ≤ (1 + u) ^ k := one_le_pow₀ (by linarith)
  have e4 : u * |p| ≤ ((1 + u) ^ (k + 1) - 1) * |p| := by
    apply mul_le_mul_of_nonneg_right _ (abs_nonneg p)
    rw [pow_succ]
    nlinarith
  have : ((1 + u) ^ (k + 1) - 1) * (P + |p|) = u * ((1 + u) ^ k * P) + ((1 + u) ^ k - 1) * P + ((1 + u) ^ (k + 1) - 1) * |p| := by
    rw [pow_succ]; ring
  rw [this]
  nlinarith

/-- The rounded sum of `n` numbers: the first addition, to zero, is exact, the other `n - 1` have a relative error each. -/
theorem foldl_add_err (hF : Fl.Ok F) (l : List Fl) (hl : ∀ x ∈ l, x.Valid F) (h : (l.foldl (Fl.add F) (.zero false)).isFin = true) :
    (∀ x ∈ l, x.isFin = true) ∧ |(l.foldl (Fl.add F) (.zero false)).val - sumVals l| ≤ ((1 + relErr F) ^ (l.length - 1) - 1) * sumMags l := by
  induction l using List.reverseRecOn with
  | nil => exact ⟨by simp, by simp [sumVals, sumMags, Fl.val]⟩
  | append_singleton l x ih =>
    have hl' : ∀ y ∈ l, y.Valid F := fun y hy => hl y (by simp [hy])
    have hx := hl x (by simp)
    rw [foldl_add_snoc] at h ⊢
    obtain ⟨f1, f2⟩ := add_fin_inv F _ _ h
    obtain ⟨i1, i2⟩ := ih hl' f1
    refine ⟨?_, ?_⟩
    · intro y hy
      rcases List.mem_append.1 hy with hy | hy
      · exact i1 y hy
      · rw [List.mem_singleton.1 hy]; exact f2
    · rw [sumVals_snoc, sumMags_snoc, List.length_append, List.length_singleton, Nat.add_sub_cancel]
      cases l with
      | nil => simp [sumVals, sumMags, (zero_add_val F hF x hx f2).2]
      | cons y ys =>
        rw [List.length_cons, Nat.add_sub_cancel] at i2
        rw [List.length_cons]
        exact sum_step _ (relErr_pos F) _ _ _ _ _ _ (sumVals_le _) i2 (add_err F _ _ (foldl_add_valid F hF _ hl') hx h)

theorem foldl_add_fin (hF : Fl.Ok F) (l : List Fl) (hl : ∀ x ∈ l, x.Valid F) (hf : ∀ x ∈ l, x.isFin = true)
    (hm : (1 + relErr F) ^ (l.length - 1) * sumMags l ≤ maxNum F) : (l.foldl (Fl.add F) (.zero false)).isFin = true := by
  induction l using List.reverseRecOn with
  | nil => rfl
  | append_singleton l x ih =>
    have hl' : ∀ y ∈ l, y.Valid F := fun y hy => hl y (by simp [hy])
    have hx := hl x (by simp)
    have fx := hf x (by simp)
    rw [sumMags_snoc, List.length_append, List.length_singleton, Nat.add_sub_cancel] at hm
    rw [foldl_add_snoc]
    cases l with
    | nil => exact (zero_add_val F hF x hx fx).1
    | cons y ys =>
      have hu := relErr_pos F
      have hP := sumMags_nonneg (y :: ys)
      rw [List.length_cons] at hm ih
      rw [Nat.add_sub_cancel] at ih
      have q0 : (1 : Rat) ≤ (1 + relErr F) ^ ys.length := one_le_pow₀ (by linarith)
      have q1 : (1 + relErr F) ^ ys.length ≤ (1 + relErr F) ^ (ys.length + 1) := pow_le_pow_right₀ (by linarith) (by omega)
      have b1 := mul_le_mul_of_nonneg_right q1 hP
      have b2 : |x.val| ≤ (1 + relErr F) ^ (ys.length + 1) * |x.val| := le_mul_of_one_le_left (abs_nonneg _) (q0.trans q1)
      have b3 : 0 ≤ |x.val| := abs_nonneg _
      have i1 := ih hl' (fun z hz => hf z (List.mem_append_left _ hz)) (by linarith)
      obtain ⟨_, i2⟩ := foldl_add_err F hF (y :: ys) hl' i1
      rw [List.length_cons, Nat.add_sub_cancel] at i2
      apply add_fin_of F hF _ _ i1 fx
      generalize (List.foldl (Fl.add F) (.zero false) (y :: ys)).val = s at i2 ⊢
      have hv := sumVals_le (y :: ys)
      calc |s + x.val| = |(s - sumVals (y :: ys)) + sumVals (y :: ys) + x.val| := by ring_nf
        _ ≤ |s - sumVals (y :: ys)| + |sumVals (y :: ys)| + |x.val| := abs_add_three _ _ _
        _ ≤ _ := by linarith

/-- Integers whose magnitudes add up to at most `2^prec` are added exactly. -/
theorem foldl_add_int (hF : Fl.Ok F) (h0 : F.eMin ≤ 0) (h1 : (F.prec : Int) ≤ F.eMax) (l : List Fl)
    (hl : ∀ x ∈ l, x.isFin = true ∧ ∃ n : Int, x.val = n) (hm : sumMags l ≤ 2 ^ F.prec) :
    (l.foldl (Fl.add F) (.zero false)).isFin = true ∧ (l.foldl (Fl.add F) (.zero false)).val = sumVals l ∧ ∃ n : Int, sumVals l = n := by
  induction l using List.reverseRecOn with
  | nil => exact ⟨rfl, rfl, 0, by simp [sumVals]⟩
  | append_singleton l x ih =>
    have hs := sumVals_le (l ++ [x])
    obtain ⟨fx, n, hn⟩ := hl x (by simp)
    have hx0 := abs_nonneg x.val
    obtain ⟨i1, i2, m, i3⟩ := ih (fun y hy => hl y (by simp [hy])) (by rw [sumMags_snoc] at hm; linarith)
    rw [foldl_add_snoc]
    obtain ⟨s, e⟩ := add_round F _ x i1 fx
    have hv : sumVals (l ++ [x]) = ((m + n : Int) : Rat) := by rw [sumVals_snoc, i3, hn]; push_cast; rfl
    rw [e, i2, ← sumVals_snoc]
    rw [hv] at hs ⊢
    have hb : |m + n| ≤ 2 ^ F.prec := by exact_mod_cast hs.trans hm
    obtain ⟨r1, r2⟩ := round_val_num F hF s _ (numOf_int F hF h0 h1 (m + n) hb)
    exact ⟨r1, r2, m + n, rfl⟩

/-- A sum that starts at `+0` is never `-0`. -/
theorem add_ne_negzero (hF : Fl.Ok F) (x y : Fl) (hx : x.Valid F) (hy : y.Valid F) (h : x ≠ .zero true) : Fl.add F x y ≠ .zero true := by
  intro he
  have hf : (Fl.add F x y).isFin = true := by rw [he]; rfl
  obtain ⟨f1, f2⟩ := add_fin_inv F x y hf
  have e := add_err F x y hx hy hf
  have hval : x.val + y.val = 0 := by
    by_contra hc
    rw [he] at e
    have h0 : (Fl.zero true).val = 0 := rfl
    rw [h0, zero_sub, abs_neg] at e
    have hp := abs_pos.2 hc
    have hu : relErr F < 1 := zpow_lt_one_of_neg₀ (by norm_num) (by have := hF.prec; omega)
    nlinarith
  have key : ∀ q : Rat, q = 0 → Fl.round F false q ≠ .zero true := by
    rintro q rfl
    unfold Fl.round
    rw [if_pos rfl]
    nofun
  cases x with
  | zero s =>
    cases y with
    | zero t =>
      cases s with
      | true => exact h rfl
      | false => cases he
    | fin q => exact key _ hval he
    | _ => cases f2
  | fin q =>
    cases y with
    | zero t => exact key _ hval he
    | fin r => exact key _ hval he
    | _ => cases f2
  | _ => cases f1

theorem foldl_ne_negzero (hF : Fl.Ok F) (l : List Fl) (hl : ∀ x ∈ l, x.Valid F) : l.foldl (Fl.add F) (.zero false) ≠ .zero true := by
  induction l using List.reverseRecOn with
  | nil => nofun
  | append_singleton l x ih =>
    have hl' : ∀ y ∈ l, y.Valid F := fun y hy => hl y (by simp [hy])
    rw [foldl_add_snoc]
    exact add_ne_negzero F hF _ _ (foldl_add_valid F hF l hl') (hl x (by simp)) (ih hl')

/-! ## `from_iterator` -/

variable (p : Profile) (N : Nat)

/-- C85.  Every finite coefficient of a vector built from valid numbers is the exact sum of the `n` values given for its word, up to a relative error of
`2^-prec` for each of the `n - 1` additions: there is no other error, in particular none from underflow, and all of the values were finite. -/
theorem C85_from_iterator_accuracy (hF : F = .f32 ∨ F = .f64) (h2 : 2 ≤ N) (hN : N < 2 ^ 32) (items : List (List Nat × Fl)) (D : Nat)
    (hw : ∀ e ∈ items, ValidWord N e.1) (hD : ∀ e ∈ items, e.1.length ≤ D) (hex : ∃ e ∈ items, e.1.length = D) (hl : D ≤ maxDepth N)
    (hp : N ^ (D + 1) < 2 ^ 64) (hv : ∀ e ∈ items, e.2.Valid F) (keys : List (TensorKey × Fl))
    (hkeys : items.mapM (fun e => (fun k => (k, e.2)) <$> fromLetters p N e.1) = .ok keys) :
    ∃ r, (Dense.ops (floatCoeff F) (tensorBasis p N)).fromIterator keys = .ok r ∧
      ∀ u ku, ValidWord N u → u.length ≤ D → fromLetters p N u = .ok ku → ∃ x, (Dense.ops (floatCoeff F) (tensorBasis p N)).get r ku = .ok (some x) ∧
        (x.isFin = true → (∀ y ∈ valuesOf items u, y.isFin = true) ∧
          |x.val - sumVals (valuesOf items u)| ≤ ((1 + 2 ^ (-(F.prec : Int))) ^ ((valuesOf items u).length - 1) - 1) * sumMags (valuesOf items u)) ∧
        ((∀ y ∈ valuesOf items u, y.isFin = true) →
          (1 + 2 ^ (-(F.prec : Int))) ^ ((valuesOf items u).length - 1) * sumMags (valuesOf items u) ≤ maxNum F → x.isFin = true) := by
  obtain ⟨r, h1, _, h3⟩ := C18_from_iterator (floatCoeff F) p N h2 hN items D hw hD hex hl hp keys hkeys
  have hvs : ∀ u, ∀ y ∈ valuesOf items u, y.Valid F := by
    intro u y hy
    obtain ⟨e, he, rfl⟩ := List.mem_map.1 hy
    exact hv e (List.mem_filter.1 he).1
  refine ⟨r, h1, fun u ku hu hlu hku => ?_⟩
  have hg := h3 u ku hu (hlu.trans hl) hku
  rw [if_pos hlu] at hg
  exact ⟨_, hg, fun hf => foldl_add_err F (fmt_ok' hF) _ (hvs u) hf, fun hf hm => foldl_add_fin F (fmt_ok' hF) _ (hvs u) hf hm⟩

/-- C85.  If the values are integers and their magnitudes add up to at most `2^24` (`f32`) or `2^53` (`f64`) for every word, the coefficients are exact, and
the order of the terms does not matter at all, not even for the signs of zeros. -/
theorem C85_integers_any_order (hF : F = .f32 ∨ F = .f64) (h2 : 2 ≤ N) (hN : N < 2 ^ 32) (items items' : List (List Nat × Fl)) (hperm : items.Perm items')
    (D : Nat) (hw : ∀ e ∈ items, ValidWord N e.1) (hD : ∀ e ∈ items, e.1.length ≤ D) (hex : ∃ e ∈ items, e.1.length = D) (hl : D ≤ maxDepth N)
    (hp : N ^ (D + 1) < 2 ^ 64) (hv : ∀ e ∈ items, e.2.Valid F ∧ e.2.isFin = true ∧ ∃ n : Int, e.2.val = n)
    (hm : ∀ u, ValidWord N u → sumMags (valuesOf items u) ≤ 2 ^ F.prec) (keys keys' : List (TensorKey × Fl))
    (hkeys : items.mapM (fun e => (fun k => (k, e.2)) <$> fromLetters p N e.1) = .ok keys)
    (hkeys' : items'.mapM (fun e => (fun k => (k, e.2)) <$> fromLetters p N e.1) = .ok keys') :
    ∃ r r', (Dense.ops (floatCoeff F) (tensorBasis p N)).fromIterator keys = .ok r ∧ (Dense.ops (floatCoeff F) (tensorBasis p N)).fromIterator keys' = .ok r' ∧
      ∀ u ku, ValidWord N u → u.length ≤ D → fromLetters p N u = .ok ku → ∃ x, (Dense.ops (floatCoeff F) (tensorBasis p N)).get r ku = .ok (some x) ∧
        (Dense.ops (floatCoeff F) (tensorBasis p N)).get r' ku = .ok (some x) ∧ x.isFin = true ∧ x.val = sumVals (valuesOf items u) := by
  obtain ⟨r, h1, _, h3⟩ := C18_from_iterator (floatCoeff F) p N h2 hN items D hw hD hex hl hp keys hkeys
  obtain ⟨e0, he0, hd0⟩ := hex
  obtain ⟨r', h1', _, h3'⟩ := C18_from_iterator (floatCoeff F) p N h2 hN items' D (fun e he => hw e (hperm.mem_iff.2 he)) (fun e he => hD e (hperm.mem_iff.2 he))
    ⟨e0, hperm.mem_iff.1 he0, hd0⟩ hl hp keys' hkeys'
  refine ⟨r, r', h1, h1', fun u ku hu hlu hku => ?_⟩
  have hg := h3 u ku hu (hlu.trans hl) hku
  have hg' := h3' u ku hu (hlu.trans hl) hku
  rw [if_pos hlu] at hg hg'
  have hpv : (valuesOf items u).Perm (valuesOf items' u) := (hperm.filter _).map _
  have hvs : ∀ y ∈ valuesOf items u, y.Valid F ∧ y.isFin = true ∧ ∃ n : Int, y.val = n := by
    intro y hy
    obtain ⟨e, he, rfl⟩ := List.mem_map.1 hy
    exact hv e (List.mem_filter.1 he).1
  have hvs' : ∀ y ∈ valuesOf items' u, y.Valid F ∧ y.isFin = true ∧ ∃ n : Int, y.val = n := fun y hy => hvs y (hpv.mem_iff.2 hy)
  have hs : sumVals (valuesOf items u) = sumVals (valuesOf items' u) := (hpv.map _).sum_eq
  have hs' : sumMags (valuesOf items u) = sumMags (valuesOf items' u) := (hpv.map _).sum_eq
  have o0 : F.eMin ≤ 0 := by rcases hF with rfl | rfl <;> decide
  have o1 : (F.prec : Int) ≤ F.eMax := by rcases hF with rfl | rfl <;> decide
  obtain ⟨a1, a2, _⟩ := foldl_add_int F (fmt_ok' hF) o0 o1 _ (fun y hy => (hvs y hy).2) (hm u hu)
  obtain ⟨b1, b2, _⟩ := foldl_add_int F (fmt_ok' hF) o0 o1 _ (fun y hy => (hvs' y hy).2) (hs' ▸ hm u hu)
  have hsame := same_of_val F _ _ (foldl_add_valid F (fmt_ok' hF) _ fun y hy => (hvs y hy).1) (foldl_add_valid F (fmt_ok' hF) _ fun y hy => (hvs' y hy).1) a1 b1
    (by rw [a2, b2, hs])
  have heq : (valuesOf items u).foldl (Fl.add F) (.zero false) = (valuesOf items' u).foldl (Fl.add F) (.zero false) := by
    rcases hsame with h | ⟨s, t, hs, ht⟩
    · exact h
    · have n1 := foldl_ne_negzero F (fmt_ok' hF) _ fun y hy => (hvs y hy).1
      have n2 := foldl_ne_negzero F (fmt_ok' hF) _ fun y hy => (hvs' y hy).1
      rw [hs] at n1 ⊢
      rw [ht] at n2 ⊢
      cases s <;> cases t <;> first | rfl | exact absurd rfl n1 | exact absurd rfl n2
  refine ⟨_, hg, ?_, a1, a2⟩
  rw [hg']
  exact congrArg (fun x => Res.ok (some x)) heq.symm

/-- C85.  In general the order of the terms does matter, but two orders differ by no more than twice the bound. -/
theorem C85_order_error (hF : F = .f32 ∨ F = .f64) (h2 : 2 ≤ N) (hN : N < 2 ^ 32) (items items' : List (List Nat × Fl)) (hperm : items.Perm items')
    (D : Nat) (hw : ∀ e ∈ items, ValidWord N e.1) (hD : ∀ e ∈ items, e.1.length ≤ D) (hex : ∃ e ∈ items, e.1.length = D) (hl : D ≤ maxDepth N)
    (hp : N ^ (D + 1) < 2 ^ 64) (hv : ∀ e ∈ items, e.2.Valid F) (keys keys' : List (TensorKey × Fl))
    (hkeys : items.mapM (fun e => (fun k => (k, e.2)) <$> fromLetters p N e.1) = .ok keys)
    (hkeys' : items'.mapM (fun e => (fun k => (k, e.2)) <$> fromLetters p N e.1) = .ok keys') :
    ∃ r r', (Dense.ops (floatCoeff F) (tensorBasis p N)).fromIterator keys = .ok r ∧ (Dense.ops (floatCoeff F) (tensorBasis p N)).fromIterator keys' = .ok r' ∧
      ∀ u ku, ValidWord N u → u.length ≤ D → fromLetters p N u = .ok ku → ∃ x x', (Dense.ops (floatCoeff F) (tensorBasis p N)).get r ku = .ok (some x) ∧
        (Dense.ops (floatCoeff F) (tensorBasis p N)).get r' ku = .ok (some x') ∧ (x.isFin = true → x'.isFin = true →
          |x.val - x'.val| ≤ 2 * (((1 + 2 ^ (-(F.prec : Int))) ^ ((valuesOf items u).length - 1) - 1) * sumMags (valuesOf items u))) := by
  obtain ⟨e0, he0, hd0⟩ := hex
  obtain ⟨r, h1, h3⟩ := C85_from_iterator_accuracy F p N hF h2 hN items D hw hD ⟨e0, he0, hd0⟩ hl hp hv keys hkeys
  obtain ⟨r', h1', h3'⟩ := C85_from_iterator_accuracy F p N hF h2 hN items' D (fun e he => hw e (hperm.mem_iff.2 he)) (fun e he => hD e (hperm.mem_iff.2 he))
    ⟨e0, hperm.mem_iff.1 he0, hd0⟩ hl hp (fun e he => hv e (hperm.mem_iff.2 he)) keys' hkeys'
  refine ⟨r, r', h1, h1', fun u ku hu hlu hku => ?_⟩
  obtain ⟨x, g1, g2, _⟩ := h3 u ku hu hlu hku
  obtain ⟨x', g1', g2', _⟩ := h3' u ku hu hlu hku
  refine ⟨x, x', g1, g1', fun f1 f2 => ?_⟩
  have hpv : (valuesOf items u).Perm (valuesOf items' u) := (hperm.filter _).map _
  have hs : sumVals (valuesOf items u) = sumVals (valuesOf items' u) := (hpv.map _).sum_eq
  have hs' : sumMags (valuesOf items u) = sumMags (valuesOf items' u) := (hpv.map _).sum_eq
  have e1 := (g2 f1).2
  have e2 := (g2' f2).2
  rw [← hs, ← hs', ← hpv.length_eq] at e2
  calc |x.val - x'.val| = |(x.val - sumVals (valuesOf items u)) - (x'.val - sumVals (valuesOf items u))| := by ring_nf
    _ ≤ |x.val - sumVals (valuesOf items u)| + |x'.val - sumVals (valuesOf items u)| := abs_sub _ _
    _ ≤ _ := by linarith

end

/-! ## Cases -/

/-- Three terms for the letter 2 and one for the letter 1. -/
def sumItems : List (List Nat × Fl) := [([2], .fin 5), ([1], .fin (-3)), ([2], .zero true), ([2], .fin (-5))]

theorem sumItems_ok (F : FloatFmt) (hF : F = .f32 ∨ F = .f64) : ∀ e ∈ sumItems, e.2.Valid F ∧ e.2.isFin = true ∧ ∃ n : Int, e.2.val = n := by
  intro e he
  simp only [sumItems, List.mem_cons, List.not_mem_nil, or_false] at he
  rcases he with rfl | rfl | rfl | rfl
  · exact ⟨by exact_mod_cast int_valid 5 (by decide) (by decide) F hF, rfl, 5, by norm_num [Fl.val]⟩
  · exact ⟨by exact_mod_cast int_valid (-3) (by decide) (by decide) F hF, rfl, -3, by norm_num [Fl.val]⟩
  · exact ⟨trivial, rfl, 0, by norm_num [Fl.val]⟩
  · exact ⟨by exact_mod_cast int_valid (-5) (by decide) (by decide) F hF, rfl, -5, by norm_num [Fl.val]⟩

example : ∃ keys, sumItems.mapM (fun e => (fun k => (k, e.2)) <$> fromLetters .debug 3 e.1) = .ok keys ∧
    ∃ r, (Dense.ops (floatCoeff .f32) (tensorBasis .debug 3)).fromIterator keys = .ok r := by
  have hkeys : sumItems.mapM (fun e => (fun k => (k, e.2)) <$> fromLetters .debug 3 e.1) =
      .ok [(⟨1, 1⟩, .fin 5), (⟨1, 0⟩, .fin (-3)), (⟨1, 1⟩, .zero true), (⟨1, 1⟩, .fin (-5))] := by decide +kernel
  obtain ⟨r, h, _⟩ := C85_from_iterator_accuracy .f32 .debug 3 (.inl rfl) (by omega) (by omega) sumItems 1 (by decide) (by decide) (by decide)
    (by decide +kernel) (by decide) (fun e he => (sumItems_ok _ (.inl rfl) e he).1) _ hkeys
  exact ⟨_, hkeys, r, h⟩

example : ∃ keys keys' r r', sumItems.mapM (fun e => (fun k => (k, e.2)) <$> fromLetters .release 3 e.1) = .ok keys ∧
    sumItems.reverse.mapM (fun e => (fun k => (k, e.2)) <$> fromLetters .release 3 e.1) = .ok keys' ∧
    (Dense.ops (floatCoeff .f64) (tensorBasis .release 3)).fromIterator keys = .ok r ∧
    (Dense.ops (floatCoeff .f64) (tensorBasis .release 3)).fromIterator keys' = .ok r' ∧
    (Dense.ops (floatCoeff .f64) (tensorBasis .release 3)).get r ⟨1, 1⟩ = (Dense.ops (floatCoeff .f64) (tensorBasis .release 3)).get r' ⟨1, 1⟩ := by
  have hkeys : sumItems.mapM (fun e => (fun k => (k, e.2)) <$> fromLetters .release 3 e.1) =
      .ok [(⟨1, 1⟩, .fin 5), (⟨1, 0⟩, .fin (-3)), (⟨1, 1⟩, .zero true), (⟨1, 1⟩, .fin (-5))] := by decide +kernel
  have hkeys' : sumItems.reverse.mapM (fun e => (fun k => (k, e.2)) <$> fromLetters .release 3 e.1) =
      .ok [(⟨1, 1⟩, .fin (-5)), (⟨1, 1⟩, .zero true), (⟨1, 0⟩, .fin (-3)), (⟨1, 1⟩, .fin 5)] := by decide +kernel
  have hm : ∀ u, sumMags (valuesOf sumItems u) ≤ 2 ^ FloatFmt.f64.prec := by
    intro u
    have hle : ∀ l l' : List Fl, l.Sublist l' → sumMags l ≤ sumMags l' := by
      intro l l' h
      induction h with
      | slnil => exact le_rfl
      | cons a h ih => exact ih.trans (by simp [sumMags])
      | cons_cons a h ih => simpa [sumMags] using ih
    refine (hle _ (sumItems.map (·.2)) (List.filter_sublist.map _)).trans ?_
    norm_num [sumMags, sumItems, Fl.val, FloatFmt.f64]
  obtain ⟨r, r', h1, h2, h3⟩ := C85_integers_any_order .f64 .release 3 (.inr rfl) (by omega) (by omega) sumItems _ (List.reverse_perm _).symm 1 (by decide) (by decide)
    (by decide) (by decide +kernel) (by decide) (sumItems_ok _ (.inr rfl)) (fun u _ => hm u) _ _ hkeys hkeys'
  obtain ⟨x, e1, e2, _⟩ := h3 [2] ⟨1, 1⟩ (by decide) (by decide) (by decide +kernel)
  exact ⟨_, _, r, r', hkeys, hkeys', h1, h2, e1.trans e2.symm⟩

/-- C85.  The order does matter when the sum is not exact: `2^24 + 1 + 1` for one word is `2^24` in this order and `2^24 + 2` in the other. -/
theorem C85_order_matters (p : Profile) :
    ((Dense.ops (floatCoeff .f32) (tensorBasis p 2)).fromIterator [(⟨1, 1⟩, .fin (2 ^ 24)), (⟨1, 1⟩, .fin 1), (⟨1, 1⟩, .fin 1)] >>= fun r =>
      (Dense.ops (floatCoeff .f32) (tensorBasis p 2)).get r ⟨1, 1⟩) = .ok (some (.fin (2 ^ 24))) ∧
    ((Dense.ops (floatCoeff .f32) (tensorBasis p 2)).fromIterator [(⟨1, 1⟩, .fin 1), (⟨1, 1⟩, .fin 1), (⟨1, 1⟩, .fin (2 ^ 24))] >>= fun r =>
      (Dense.ops (floatCoeff .f32) (tensorBasis p 2)).get r ⟨1, 1⟩) = .ok (some (.fin (2 ^ 24 + 2))) := by
  have key : ∀ x y z t : Fl, [x, y, z].foldl (floatCoeff .f32).add (floatCoeff .f32).zero = t →
      ((Dense.ops (floatCoeff .f32) (tensorBasis p 2)).fromIterator [(⟨1, 1⟩, x), (⟨1, 1⟩, y), (⟨1, 1⟩, z)] >>= fun r =>
        (Dense.ops (floatCoeff .f32) (tensorBasis p 2)).get r ⟨1, 1⟩) = .ok (some t) := by
    intro x y z t ht
    have hk : fromLetters p 2 [2] = .ok ⟨1, 1⟩ := by cases p <;> decide +kernel
    obtain ⟨r, h1, _, h3⟩ := C18_from_iterator (floatCoeff .f32) p 2 (by omega) (by omega) [([2], x), ([2], y), ([2], z)] 1 (by simp [ValidWord]) (by simp) (by simp)
      (by decide +kernel) (by decide) [(⟨1, 1⟩, x), (⟨1, 1⟩, y), (⟨1, 1⟩, z)] (by simp only [List.mapM_cons, List.mapM_nil, hk]; rfl)
    rw [h1, Res.bind_ok, h3 [2] ⟨1, 1⟩ (by decide) (by decide +kernel) hk, ← ht]
    rfl
  exact ⟨key _ _ _ _ (by decide +kernel), key _ _ _ _ (by decide +kernel)⟩

end RA
