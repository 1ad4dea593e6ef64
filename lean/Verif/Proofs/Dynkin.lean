import Verif.Proofs.WordFn
import Verif.Proofs.ConvMore
import Verif.Proofs.LyndonCount
import Mathlib.Algebra.Module.LinearMap.End
import Mathlib.Algebra.Algebra.Basic
import Mathlib.LinearAlgebra.Prod

/-!
# Dynkin's operator: helper lemmas (C96)
-/

namespace RA
open Spec

namespace WordFn
variable {S : Type} [CommRing S]

/-- Multiply every coefficient by the length of its word. -/
def der (f : WordFn S) : WordFn S := fun w => (w.length : S) * f w

theorem der_apply (f : WordFn S) (w : List Nat) : der f w = (w.length : S) * f w := rfl

theorem der_mul (f g : WordFn S) : der (f * g) = der f * g + f * der g := by
  funext w
  rw [add_apply, der_apply, mul_apply_sum, mul_apply_sum, mul_apply_sum, ← List.sum_map_mul_left, ← List.sum_map_add]
  congr 1
  refine List.map_congr_left fun k hk => ?_
  rw [der_apply, der_apply]
  have : (w.length : S) = ((w.take k).length : S) + ((w.drop k).length : S) := by
    rw [← Nat.cast_add, ← List.length_append, List.take_append_drop]
  rw [this]
  ring

theorem der_add (f g : WordFn S) : der (f + g) = der f + der g := by
  funext w
  rw [add_apply, der_apply, der_apply, der_apply, add_apply, mul_add]

theorem der_smul (c : S) (f : WordFn S) : der (c • f) = c • der f := by
  funext w
  rw [smul_apply, der_apply, der_apply, smul_apply]
  ring

theorem der_sub (f g : WordFn S) : der (f - g) = der f - der g := by
  rw [sub_eq_add_neg, ← neg_one_smul S, der_add, der_smul, neg_one_smul, sub_eq_add_neg]

/-- The operator `(h, c) ↦ ([a, h] + c b, 0)`. -/
def adOp (a b : WordFn S) : Module.End S (WordFn S × S) where
  toFun x := (a * x.1 - x.1 * a + x.2 • b, 0)
  map_add' x y := by
    ext1
    · simp only [Prod.fst_add, Prod.snd_add, mul_add, add_mul, add_smul]
      abel
    · simp
  map_smul' c x := by
    ext1
    · simp only [Prod.smul_fst, Prod.smul_snd, RingHom.id_apply, mul_smul', smul_mul, smul_add, smul_sub, smul_eq_mul, mul_smul]
    · simp

theorem adOp_apply (a b h : WordFn S) (c : S) : adOp a b (h, c) = (a * h - h * a + c • b, 0) := rfl

theorem adOp_add (a b a' b' : WordFn S) : adOp (a + a') (b + b') = adOp a b + adOp a' b' := by
  refine LinearMap.ext fun x => ?_
  rcases x with ⟨h, c⟩
  rw [LinearMap.add_apply, adOp_apply, adOp_apply, adOp_apply]
  ext1
  · simp only [Prod.fst_add, mul_add, add_mul, smul_add]
    abel
  · simp

theorem adOp_smul (s : S) (a b : WordFn S) : adOp (s • a) (s • b) = s • adOp a b := by
  refine LinearMap.ext fun x => ?_
  rcases x with ⟨h, c⟩
  rw [LinearMap.smul_apply, adOp_apply, adOp_apply]
  ext1
  · simp only [Prod.smul_fst, mul_smul', smul_mul, smul_add, smul_sub]
    rw [smul_comm]
  · simp

theorem adOp_comm (a b a' b' : WordFn S) :
    adOp (a * a' - a' * a) (a * b' - b' * a - (a' * b - b * a')) = adOp a b * adOp a' b' - adOp a' b' * adOp a b := by
  refine LinearMap.ext fun x => ?_
  rcases x with ⟨h, c⟩
  rw [LinearMap.sub_apply, Module.End.mul_apply, Module.End.mul_apply, adOp_apply, adOp_apply, adOp_apply, adOp_apply, adOp_apply]
  ext1
  · simp only [Prod.fst_sub, mul_add, add_mul, mul_sub, sub_mul, smul_sub, mul_smul', smul_mul, zero_smul, add_zero, mul_assoc]
    abel
  · simp

end WordFn

/-! ## Evaluation of expressions in an algebra -/

section
variable {S A : Type} [CommRing S] [Ring A] [Algebra S A]

/-- Put `z l` for the letter `l`. -/
def evalE (z : Nat → A) : TExpr S → A
  | .term w s => s • (w.map z).prod
  | .add a b => evalE z a + evalE z b
  | .sub a b => evalE z a - evalE z b
  | .neg a => - evalE z a
  | .smul s a => s • evalE z a
  | .mul a b => evalE z a * evalE z b
  | .comm a b => evalE z a * evalE z b - evalE z b * evalE z a

theorem sum_single (z : Nat → A) (N x : Nat) (hx : 1 ≤ x ∧ x ≤ N) (F : Nat → A) (h : ∀ l, l ≠ x → F l = 0) :
    ((List.range' 1 N).map fun l => z l * F l).sum = z x * F x := by
  have : ∀ L : List Nat, L.Nodup → x ∈ L → (L.map fun l => z l * F l).sum = z x * F x := by
    intro L hn hx
    induction L with
    | nil => cases hx
    | cons l L ih =>
      rw [List.nodup_cons] at hn
      rw [List.map_cons, List.sum_cons]
      by_cases hl : l = x
      · subst hl
        rw [List.sum_eq_zero, add_zero]
        intro y hy
        obtain ⟨m, hm, rfl⟩ := List.mem_map.1 hy
        rw [h m (by rintro rfl; exact hn.1 hm), mul_zero]
      · rw [h l hl, mul_zero, zero_add]
        exact ih hn.2 ((List.mem_cons.1 hx).resolve_left fun e => hl e.symm)
  exact this _ List.nodup_range' (by rw [List.mem_range'_1]; omega)

theorem evalDeg_null (N : Nat) (z : Nat → A) (f : List Nat → S) (n : Nat) (h : ∀ w, w.length = n → f w = 0) : evalDeg N z f n = 0 := by
  rw [evalDeg_congr N z (g := fun _ => 0 * 0) fun w _ hl => by rw [h w hl, mul_zero], evalDeg_smul, map_zero, zero_mul]

theorem evalDeg_term (N : Nat) (z : Nat → A) (u : List Nat) (hu : ValidWord N u) (s : S) (n : Nat) :
    evalDeg N z (fun w => if w = u then s else 0) n = if n = u.length then s • (u.map z).prod else 0 := by
  split_ifs with h
  · subst h
    induction u with
    | nil => rw [List.length_nil, evalDeg_zero]; simp [Algebra.algebraMap_eq_smul_one]
    | cons x u ih =>
      have hx := hu x (by simp)
      rw [List.length_cons, evalDeg_succ, sum_single z N x ⟨by omega, by omega⟩, List.map_cons, List.prod_cons]
      · have := ih fun l hl => hu l (by simp [hl])
        simp only [List.cons.injEq, true_and]
        rw [this, mul_smul_comm]
      · intro l hl
        refine evalDeg_null N z _ _ fun w _ => if_neg ?_
        rw [List.cons.injEq]
        exact fun h => hl h.1
  · refine evalDeg_null N z _ _ fun w hw => if_neg ?_
    rintro rfl
    exact h hw.symm

theorem sum_extend (F : Nat → A) (B M : Nat) (h : ∀ n, B < n → F n = 0) (hM : B ≤ M) : ∑ n ∈ Finset.range (B + 1), F n = ∑ n ∈ Finset.range (M + 1), F n := by
  apply Finset.sum_subset
  · intro i hi
    rw [Finset.mem_range] at hi ⊢
    omega
  · intro i _ hi
    rw [Finset.mem_range] at hi
    exact h i (by omega)

/-- The value of an expression in an algebra is the sum of its homogeneous parts, evaluated. -/
theorem evalE_sum (N : Nat) (z : Nat → A) (e : TExpr S) (D : Nat) (he : e.Words N D) :
    ∃ B, (∀ n, B < n → evalDeg N z e.value n = 0) ∧ ∑ n ∈ Finset.range (B + 1), evalDeg N z e.value n = evalE z e := by
  have hmul : ∀ a b : TExpr S, (∃ B, (∀ n, B < n → evalDeg N z a.value n = 0) ∧ ∑ n ∈ Finset.range (B + 1), evalDeg N z a.value n = evalE z a) →
      (∃ B, (∀ n, B < n → evalDeg N z b.value n = 0) ∧ ∑ n ∈ Finset.range (B + 1), evalDeg N z b.value n = evalE z b) →
      ∃ B, (∀ n, B < n → evalDeg N z (conv a.value b.value) n = 0) ∧
        ∑ n ∈ Finset.range (B + 1), evalDeg N z (conv a.value b.value) n = evalE z a * evalE z b := by
    rintro a b ⟨B, h1, h2⟩ ⟨B', h1', h2'⟩
    refine ⟨B + B', fun n hn => ?_, ?_⟩
    · rw [evalDeg_conv]
      apply Finset.sum_eq_zero
      intro i hi
      rw [Finset.mem_range] at hi
      by_cases h : B < i
      · rw [h1 i h, zero_mul]
      · rw [h1' (n - i) (by omega), mul_zero]
    · rw [← h2, ← h2', ← sum_antidiag _ _ B B' (B + B') le_rfl h1 h1']
      exact Finset.sum_congr rfl fun n _ => evalDeg_conv N z _ _ n
  have hsub : ∀ (f g : List Nat → S) (x y : A), (∃ B, (∀ n, B < n → evalDeg N z f n = 0) ∧ ∑ n ∈ Finset.range (B + 1), evalDeg N z f n = x) →
      (∃ B, (∀ n, B < n → evalDeg N z g n = 0) ∧ ∑ n ∈ Finset.range (B + 1), evalDeg N z g n = y) →
      ∃ B, (∀ n, B < n → evalDeg N z (fun w => f w - g w) n = 0) ∧ ∑ n ∈ Finset.range (B + 1), evalDeg N z (fun w => f w - g w) n = x - y := by
    rintro f g x y ⟨B, h1, h2⟩ ⟨B', h1', h2'⟩
    refine ⟨max B B', fun n hn => ?_, ?_⟩
    · rw [evalDeg_sub, h1 n (by omega), h1' n (by omega), sub_zero]
    · rw [← h2, ← h2', sum_extend _ B (max B B') h1 (by omega), sum_extend _ B' (max B B') h1' (by omega), ← Finset.sum_sub_distrib]
      exact Finset.sum_congr rfl fun n _ => evalDeg_sub N z _ _ n
  have hsmul : ∀ (c : S) (f : List Nat → S) (x : A), (∃ B, (∀ n, B < n → evalDeg N z f n = 0) ∧ ∑ n ∈ Finset.range (B + 1), evalDeg N z f n = x) →
      ∃ B, (∀ n, B < n → evalDeg N z (fun w => c * f w) n = 0) ∧ ∑ n ∈ Finset.range (B + 1), evalDeg N z (fun w => c * f w) n = c • x := by
    rintro c f x ⟨B, h1, h2⟩
    refine ⟨B, fun n hn => by rw [evalDeg_smul, h1 n hn, mul_zero], ?_⟩
    rw [← h2, Algebra.smul_def, Finset.mul_sum]
    exact Finset.sum_congr rfl fun n _ => evalDeg_smul N z _ _ n
  induction e with
  | term w s =>
    refine ⟨w.length, fun n hn => ?_, ?_⟩
    · exact (evalDeg_term N z w he.1 s n).trans (if_neg (by omega))
    · refine (Finset.sum_congr rfl fun n _ => evalDeg_term N z w he.1 s n).trans ?_
      rw [Finset.sum_ite_eq' (Finset.range (w.length + 1)) w.length fun _ => s • (w.map z).prod, if_pos (by rw [Finset.mem_range]; omega)]
      rfl
  | add a b ha hb =>
    have h1 := hsub _ _ _ _ (ha he.1) (hsmul (-1) _ _ (hb he.2))
    have e1 : (fun w => a.value w - -1 * b.value w) = (TExpr.add a b).value := by
      funext w
      simp [TExpr.value]
    have e2 : evalE z a - (-1 : S) • evalE z b = evalE z (.add a b) := by simp [evalE]
    rw [e1, e2] at h1
    exact h1
  | sub a b ha hb => exact hsub _ _ _ _ (ha he.1) (hb he.2)
  | neg a ha =>
    have h1 := hsmul (-1) _ _ (ha he)
    have e1 : (fun w => -1 * a.value w) = (TExpr.neg a).value := by
      funext w
      simp [TExpr.value]
    have e2 : (-1 : S) • evalE z a = evalE z (.neg a) := by simp [evalE]
    rw [e1, e2] at h1
    exact h1
  | smul s a ha => exact hsmul s _ _ (ha he)
  | mul a b ha hb => exact hmul a b (ha he.1) (hb he.2)
  | comm a b ha hb => exact hsub _ _ _ _ (hmul a b (ha he.1) (hb he.2)) (hmul b a (hb he.2) (ha he.1))

end

/-! ## Nested commutators -/

section
variable {S : Type} [CommRing S]

/-- `[l1, [l2, ... [l(n-1), ln]]]`; zero for the empty word. -/
def nested : List Nat → TExpr S
  | [] => .term [1] 0
  | [l] => .term [l] 1
  | l :: m :: w => .comm (.term [l] 1) (nested (m :: w))

theorem nested_cons (l : Nat) (w : List Nat) (hw : w ≠ []) : (nested (l :: w) : TExpr S) = .comm (.term [l] 1) (nested w) := by
  cases w with
  | nil => exact absurd rfl hw
  | cons => rfl

theorem nested_isLie (w : List Nat) : (nested w : TExpr S).IsLie := by
  induction w with
  | nil => rfl
  | cons l w ih =>
    cases w with
    | nil => rfl
    | cons => exact ⟨rfl, ih⟩

theorem nested_words {N : Nat} (hN : 1 ≤ N) (w : List Nat) (hw : ValidWord N w) : (nested w : TExpr S).Words N 1 := by
  induction w with
  | nil => exact ⟨fun m hm => by rw [List.mem_singleton] at hm; omega, by simp⟩
  | cons l w ih =>
    have h1 : (TExpr.term [l] (1 : S)).Words N 1 := ⟨fun m hm => hw m (by rw [List.mem_singleton] at hm; simp [hm]), by simp⟩
    cases w with
    | nil => exact h1
    | cons => exact ⟨h1, ih fun m hm => hw m (by simp [hm])⟩

/-- The coefficient function of an expression as a formal tensor. -/
def wordVal (e : TExpr S) : WordFn S := e.value

/-- The letter `l` as an operator. -/
def adLetter (l : Nat) : Module.End S (WordFn S × S) := WordFn.adOp (wordVal (.term [l] 1)) (wordVal (.term [l] 1))

theorem adLetter_prod (w : List Nat) (hw : w ≠ []) : (w.map (adLetter (S := S))).prod ((0 : WordFn S), (1 : S)) = (wordVal (nested w), 0) := by
  induction w with
  | nil => exact absurd rfl hw
  | cons l w ih =>
    rw [List.map_cons, List.prod_cons, Module.End.mul_apply]
    by_cases h : w = []
    · subst h
      rw [List.map_nil, List.prod_nil, Module.End.one_apply, adLetter, WordFn.adOp_apply, mul_zero, zero_mul, sub_zero, zero_add, one_smul]
      rfl
    · rw [ih h, adLetter, WordFn.adOp_apply, zero_smul, add_zero, nested_cons l w h]
      rfl

/-- A Lie expression acts as its bracket, and on the second component as its derivative. -/
theorem evalE_lie (e : TExpr S) (he : e.IsLie) : evalE (adLetter (S := S)) e = WordFn.adOp (wordVal e) (WordFn.der (wordVal e)) := by
  induction e with
  | term w s =>
    obtain ⟨l, rfl⟩ := List.length_eq_one_iff.1 he
    have h1 : wordVal (.term [l] s) = s • wordVal (.term [l] 1) := by
      funext w
      rw [WordFn.smul_apply]
      simp [wordVal, TExpr.value]
    have h2 : WordFn.der (wordVal (.term [l] (1 : S))) = wordVal (.term [l] 1) := by
      funext w
      rw [WordFn.der_apply]
      by_cases hw : w = [l] <;> simp [wordVal, TExpr.value, hw]
    rw [h1, WordFn.der_smul, h2, WordFn.adOp_smul]
    simp [evalE, adLetter]
  | add a b ha hb =>
    refine (congrArg₂ (· + ·) (ha he.1) (hb he.2)).trans ?_
    rw [← WordFn.adOp_add, ← WordFn.der_add]
    rfl
  | sub a b ha hb =>
    refine (congrArg₂ (· - ·) (ha he.1) (hb he.2)).trans ?_
    have h1 := WordFn.adOp_smul (-1 : S) (wordVal b) (WordFn.der (wordVal b))
    rw [neg_one_smul S (WordFn.adOp (wordVal b) (WordFn.der (wordVal b)))] at h1
    rw [sub_eq_add_neg, ← h1, ← WordFn.adOp_add, ← WordFn.der_smul, ← WordFn.der_add, neg_one_smul, ← sub_eq_add_neg]
    rfl
  | neg a ha =>
    refine (congrArg (- ·) (ha he)).trans ?_
    have h1 := WordFn.adOp_smul (-1 : S) (wordVal a) (WordFn.der (wordVal a))
    rw [neg_one_smul S (WordFn.adOp (wordVal a) (WordFn.der (wordVal a)))] at h1
    rw [← h1, ← WordFn.der_smul, neg_one_smul]
    rfl
  | smul s a ha =>
    refine (congrArg (s • ·) (ha he)).trans ?_
    have h1 := WordFn.adOp_smul s (wordVal a) (WordFn.der (wordVal a))
    rw [← WordFn.der_smul] at h1
    exact h1.symm
  | mul a b => exact absurd he (by simp [TExpr.IsLie])
  | comm a b ha hb =>
    have h1 : evalE (adLetter (S := S)) (.comm a b) = WordFn.adOp (wordVal a) (WordFn.der (wordVal a)) * WordFn.adOp (wordVal b) (WordFn.der (wordVal b)) -
        WordFn.adOp (wordVal b) (WordFn.der (wordVal b)) * WordFn.adOp (wordVal a) (WordFn.der (wordVal a)) := by
      rw [← ha he.1, ← hb he.2]
      rfl
    have h2 : wordVal (.comm a b) = wordVal a * wordVal b - wordVal b * wordVal a := rfl
    rw [h1, ← WordFn.adOp_comm, h2, WordFn.der_sub, WordFn.der_mul, WordFn.der_mul]
    congr 1
    abel

/-- Dynkin, Specht, Wever: replacing each word by its nested commutator multiplies the part of degree `n` of a Lie element by `n`. -/
theorem dynkin (N : Nat) (e : TExpr S) (he : e.IsLie) (D : Nat) (hw : e.Words N D) : ∃ B, ∀ M, B ≤ M → ∀ v,
    ∑ n ∈ Finset.range (M + 1), ((allWords N n).map fun w => e.value w * (nested w : TExpr S).value v).sum = (v.length : S) * e.value v := by
  obtain ⟨B, h1, h2⟩ := evalE_sum N (adLetter (S := S)) e D hw
  refine ⟨B, fun M hM v => ?_⟩
  have h3 := congrArg (fun x : Module.End S (WordFn S × S) => (x ((0 : WordFn S), (1 : S))).1) ((sum_extend _ B M h1 hM).symm.trans (h2.trans (evalE_lie e he)))
  simp only [WordFn.adOp_apply, mul_zero, zero_mul, sub_zero, zero_add, one_smul] at h3
  have h4 : ∀ n, ((evalDeg N (adLetter (S := S)) e.value n) ((0 : WordFn S), (1 : S))).1 v =
      ((allWords N n).map fun w => e.value w * (nested w : TExpr S).value v).sum := by
    intro n
    unfold evalDeg
    induction allWords N n with
    | nil => rfl
    | cons w L ih =>
      rw [List.map_cons, List.sum_cons, List.map_cons, List.sum_cons, LinearMap.add_apply, Prod.fst_add, WordFn.add_apply, ih, LinearMap.smul_apply]
      congr 1
      by_cases hw : w = []
      · subst hw
        have : (nested [] : TExpr S).value v = 0 := by simp [nested, TExpr.value]
        rw [this, List.map_nil, List.prod_nil, Module.End.one_apply, Prod.smul_fst, smul_zero, mul_zero]
        rfl
      · rw [adLetter_prod w hw]
        rfl
  have h5 := congrFun h3 v
  rw [LinearMap.sum_apply, Prod.fst_sum, WordFn.sum_apply] at h5
  rw [← Finset.sum_congr rfl fun n _ => h4 n]
  exact h5

theorem nested_homogeneous (w v : List Nat) (h : v.length ≠ w.length) : (nested w : TExpr S).value v = 0 := by
  induction w generalizing v with
  | nil => simp [nested, TExpr.value]
  | cons l w ih =>
    by_cases hw : w = []
    · subst hw
      refine if_neg ?_
      rintro rfl
      exact h rfl
    · rw [nested_cons l w hw]
      rw [List.length_cons] at h
      have hc : ∀ f g : List Nat → S, (∀ u, u.length ≠ 1 → f u = 0) → (∀ u, u.length ≠ w.length → g u = 0) → conv f g v = 0 ∧ conv g f v = 0 := by
        intro f g hf hg
        rw [conv_eq_sum, conv_eq_sum]
        constructor
        all_goals
          apply List.sum_eq_zero
          intro y hy
          obtain ⟨k, hk, rfl⟩ := List.mem_map.1 hy
          rw [List.mem_range] at hk
        · by_cases h1 : k = 1
          · rw [hg _ (by rw [List.length_drop]; omega), mul_zero]
          · rw [hf _ (by rw [List.length_take]; omega), zero_mul]
        · by_cases h1 : k = w.length
          · rw [hf _ (by rw [List.length_drop]; omega), mul_zero]
          · rw [hg _ (by rw [List.length_take]; omega), zero_mul]
      obtain ⟨c1, c2⟩ := hc (TExpr.term [l] (1 : S)).value (nested w : TExpr S).value (fun u hu => if_neg (by rintro rfl; exact hu rfl)) fun u hu => ih u hu
      simp only [TExpr.value] at c1 c2 ⊢
      rw [c1, c2, sub_zero]

end
end RA
