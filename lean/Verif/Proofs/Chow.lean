import Verif.Proofs.Dynkin
import Verif.Props.LieDim
import Verif.Props.Signature
import Mathlib.Tactic.NoncommRing

/-!
# Paths along the axes: helper lemmas (C97)
-/

namespace RA
open Spec Series WordFn

section
variable {S A : Type} [Field S] [Ring A] [Algebra S A] (Φ : Filt S A)

theorem Series.Filt.exp_first {x : A} (hx : x ∈ Φ.F 1) (D : Nat) (hD : 1 ≤ D) : expTo S D x - (1 + x) ∈ Φ.F 2 := by
  obtain ⟨D, rfl⟩ := Nat.exists_eq_add_of_le' hD
  unfold expTo
  rw [Finset.sum_range_succ', Finset.sum_range_succ']
  simp only [pow_zero, Nat.factorial_zero, Nat.cast_one, inv_one, one_smul, Nat.zero_add, Nat.factorial_one, pow_one]
  rw [show ∀ a : A, a + x + 1 - (1 + x) = a from fun a => by abel]
  refine Submodule.sum_mem _ fun k _ => Submodule.smul_mem _ _ ?_
  exact Φ.anti 2 (k + 1 + 1) (by omega) (Φ.pow_mem' hx _)

/-- The commutator of `1 + x + ...` and `1 + y + ...` in the group begins with `1 + [x, y]`. -/
theorem Series.Filt.group_commutator {a b a' b' x y : A} {n D : Nat} (hn : n + 1 ≤ D) (ha : a * a' - 1 ∈ Φ.F (D + 1)) (hb : b * b' - 1 ∈ Φ.F (D + 1))
    (ha' : a' - 1 ∈ Φ.F 1) (hb' : b' - 1 ∈ Φ.F 1) (hx : x ∈ Φ.F 1) (hy : y ∈ Φ.F n) (hax : a - (1 + x) ∈ Φ.F 2) (hby : b - (1 + y) ∈ Φ.F (n + 1)) :
    a * b * a' * b' - (1 + (x * y - y * x)) ∈ Φ.F (n + 2) := by
  obtain ⟨α, hα⟩ : ∃ α, α = a - (1 + x) := ⟨_, rfl⟩
  obtain ⟨β, hβ⟩ : ∃ β, β = b - (1 + y) := ⟨_, rfl⟩
  rw [← hα] at hax
  rw [← hβ] at hby
  have ea : a = 1 + x + α := by rw [hα]; abel
  have eb : b = 1 + y + β := by rw [hβ]; abel
  have h0 : a * b * a' * b' - (1 + (x * y - y * x)) = (x * β - β * x + (α * y - y * α) + (α * β - β * α)) * (a' * b') + (x * y - y * x) * (a' * b' - 1) +
      (b * (a * a' - 1) * b' + (b * b' - 1)) := by
    have h1 : a * b - b * a = x * y - y * x + (x * β - β * x + (α * y - y * α) + (α * β - β * α)) := by
      rw [ea, eb]
      noncomm_ring
    have h2 : (x * β - β * x + (α * y - y * α) + (α * β - β * α)) = a * b - b * a - (x * y - y * x) := by rw [h1]; abel
    rw [h2]
    noncomm_ring
  have m : ∀ {i j : Nat} {u v : A}, u ∈ Φ.F i → v ∈ Φ.F j → n + 2 ≤ i + j → u * v - v * u ∈ Φ.F (n + 2) := fun {i j u v} hu hv h =>
    Submodule.sub_mem _ (Φ.anti _ _ h (Φ.mul _ _ _ _ hu hv)) (Φ.anti _ _ (by omega) (Φ.mul _ _ _ _ hv hu))
  rw [h0]
  refine Submodule.add_mem _ (Submodule.add_mem _ (Φ.mul_mem_left (Submodule.add_mem _ (Submodule.add_mem _ ?_ ?_) ?_) _) ?_) (Submodule.add_mem _ ?_ ?_)
  · exact m hx hby (by omega)
  · exact m hax hy (by omega)
  · exact m hax hby (by omega)
  · have h1 : x * y - y * x ∈ Φ.F (n + 1) := Submodule.sub_mem _ (Φ.anti _ _ (by omega) (Φ.mul _ _ _ _ hx hy)) (Φ.mul _ _ _ _ hy hx)
    have h2 : a' * b' - 1 ∈ Φ.F 1 := by
      rw [show a' * b' - 1 = (a' - 1) * b' + (b' - 1) by noncomm_ring]
      exact Submodule.add_mem _ (Φ.mul_mem_left ha' _) hb'
    exact Φ.mul (n + 1) 1 _ _ h1 h2
  · exact Φ.anti _ _ (by omega) (Φ.mul_mem_left (Φ.mul_mem_right ha b) b')
  · exact Φ.anti _ _ (by omega) hb

theorem Series.Filt.mul_first {g h x y : A} {k : Nat} (hk : 1 ≤ k) (hx : x ∈ Φ.F k) (hy : y ∈ Φ.F k) (hg : g - (1 + x) ∈ Φ.F (k + 1)) (hh : h - (1 + y) ∈ Φ.F (k + 1)) :
    g * h - (1 + (x + y)) ∈ Φ.F (k + 1) := by
  rw [show g * h - (1 + (x + y)) = (g - (1 + x)) * h + (1 + x) * (h - (1 + y)) + x * y by noncomm_ring]
  exact Submodule.add_mem _ (Submodule.add_mem _ (Φ.mul_mem_left hg _) (Φ.mul_mem_right hh _)) (Φ.anti _ _ (by omega) (Φ.mul _ _ _ _ hx hy))

end

section
variable {S : Type} [Field S]

/-- The product of the exponentials of `c l` over the pairs `(l, c)`. -/
def axisSig (D : Nat) (path : List (Nat × S)) : WordFn S := (path.map fun e => expTo S D (wordVal (.term [e.1] e.2))).prod

/-- The path run backwards. -/
def backPath (path : List (Nat × S)) : List (Nat × S) := path.reverse.map fun e => (e.1, -e.2)

theorem backPath_back (path : List (Nat × S)) : backPath (backPath path) = path := by
  unfold backPath
  rw [← List.map_reverse, List.reverse_reverse, List.map_map, List.map_congr_left (g := id) fun e _ => by simp, List.map_id]

theorem axisSig_append (D : Nat) (a b : List (Nat × S)) : axisSig D (a ++ b) = axisSig D a * axisSig D b := by
  unfold axisSig
  rw [List.map_append, List.prod_append]

theorem term_nil (l : Nat) (c : S) : wordVal (.term [l] c) [] = 0 := by
  show (if [] = [l] then c else 0) = 0
  exact if_neg (by simp)

theorem term_neg (l : Nat) (c : S) : wordVal (.term [l] (-c)) = - wordVal (.term [l] c) := by
  funext w
  show (if w = [l] then -c else 0) = - (if w = [l] then c else 0)
  split_ifs <;> simp

theorem term_smul (l : Nat) (c : S) : wordVal (.term [l] c) = c • wordVal (.term [l] 1) := by
  funext w
  show (if w = [l] then c else 0) = c * (if w = [l] then 1 else 0)
  split_ifs <;> simp

theorem axisSig_back [CharZero S] (D : Nat) (path : List (Nat × S)) : EqTo D (axisSig D path * axisSig D (backPath path)) 1 := by
  have h := prod_reverse_inverse (S := S) D (path.map fun e => wordVal (.term [e.1] e.2)) fun f hf => by
    obtain ⟨e, _, rfl⟩ := List.mem_map.1 hf
    exact term_nil _ _
  rw [List.map_map, ← List.map_reverse, List.map_map] at h
  unfold axisSig backPath
  rw [List.map_map]
  have e : ((fun f : WordFn S => expTo S D (-f)) ∘ fun e : Nat × S => wordVal (.term [e.1] e.2)) =
      (fun e : Nat × S => expTo S D (wordVal (.term [e.1] e.2))) ∘ fun e => (e.1, -e.2) := by
    funext e
    exact congrArg (expTo S D) (term_neg _ _).symm
  rw [e] at h
  exact h

theorem axisSig_back' [CharZero S] (D : Nat) (path : List (Nat × S)) : EqTo D (axisSig D (backPath path) * axisSig D path) 1 := by
  have := axisSig_back D (backPath path)
  rwa [backPath_back] at this

theorem axisSig_nil (D : Nat) (path : List (Nat × S)) : axisSig D path [] = 1 := by
  induction path with
  | nil => rfl
  | cons e path ih =>
    have h := axisSig_append D [e] path
    rw [List.singleton_append] at h
    have h1 : axisSig D [e] [] = 1 := by
      unfold axisSig
      rw [List.map_singleton, List.prod_singleton, expTo_nil D _ (term_nil _ _)]
    rw [h, WordFn.mul_nil, ih, h1, one_mul]

theorem axisSig_sub_one (D : Nat) (path : List (Nat × S)) : axisSig D path - 1 ∈ (wordFilt S).F 1 :=
  (WordFn.mem_order_one _).2 (by rw [WordFn.sub_apply, axisSig_nil, WordFn.one_apply, if_pos rfl, sub_self])

theorem nested_order (w : List Nat) : wordVal (nested w : TExpr S) ∈ (wordFilt S).F w.length := fun v hv => nested_homogeneous w v (by omega)

/-- Every multiple of a nested commutator is the first term of the signature of a path along the axes. -/
theorem nested_path [CharZero S] (D : Nat) (w : List Nat) (hw : w ≠ []) (hl : w.length ≤ D) (c : S) :
    ∃ path : List (Nat × S), (∀ e ∈ path, e.1 ∈ w) ∧ axisSig D path - (1 + c • wordVal (nested w)) ∈ (wordFilt S).F (w.length + 1) := by
  induction w with
  | nil => exact absurd rfl hw
  | cons l w ih =>
    have h1 : wordVal (.term [l] (1 : S)) ∈ (wordFilt S).F 1 := (WordFn.mem_order_one _).2 (term_nil _ _)
    by_cases h : w = []
    · subst h
      refine ⟨[(l, c)], by simp, ?_⟩
      have := (wordFilt S).exp_first (Submodule.smul_mem _ c h1) D hl
      unfold axisSig
      rw [List.map_singleton, List.prod_singleton, term_smul]
      exact this
    · rw [List.length_cons] at hl
      obtain ⟨q, q1, q2⟩ := ih h (by omega)
      refine ⟨[(l, 1)] ++ q ++ backPath [(l, 1)] ++ backPath q, ?_, ?_⟩
      · intro e he
        simp only [backPath, List.mem_append, List.mem_singleton, List.mem_map, List.mem_reverse] at he
        rcases he with ((rfl | he) | ⟨e', rfl, rfl⟩) | ⟨e', he, rfl⟩
        · simp
        · exact List.mem_cons_of_mem _ (q1 e he)
        · simp
        · exact List.mem_cons_of_mem _ (q1 e' he)
      · rw [axisSig_append, axisSig_append, axisSig_append, List.length_cons]
        have e : c • wordVal (nested (l :: w)) = wordVal (.term [l] (1 : S)) * (c • wordVal (nested w)) - (c • wordVal (nested w)) * wordVal (.term [l] 1) := by
          rw [nested_cons l w h, WordFn.smul_mul, WordFn.mul_smul', ← smul_sub]
          rfl
        rw [e]
        refine (wordFilt S).group_commutator (D := D) hl ((eqTo_iff D _ _).1 (axisSig_back D _)) ((eqTo_iff D _ _).1 (axisSig_back D _)) (axisSig_sub_one D _)
          (axisSig_sub_one D _) h1 (Submodule.smul_mem _ c (nested_order w)) ?_ q2
        have := (wordFilt S).exp_first h1 D (by omega)
        unfold axisSig
        rw [List.map_singleton, List.prod_singleton]
        exact this

theorem nested_sum_path [CharZero S] (N D k : Nat) (hk : 1 ≤ k) (hD : k ≤ D) (x : List Nat → S) (L : List (List Nat)) (hL : ∀ w ∈ L, ValidWord N w ∧ w.length = k) :
    ∃ path : List (Nat × S), (∀ e ∈ path, ValidWord N [e.1]) ∧
      axisSig D path - (1 + (L.map fun w => x w • wordVal (nested w : TExpr S)).sum) ∈ (wordFilt S).F (k + 1) := by
  induction L with
  | nil => exact ⟨[], by simp, by simp [axisSig]⟩
  | cons w L ih =>
    obtain ⟨q, q1, q2⟩ := ih fun w hw => hL w (by simp [hw])
    obtain ⟨hv, hl⟩ := hL w (by simp)
    obtain ⟨r, r1, r2⟩ := nested_path D w (by rintro rfl; simp at hl; omega) (by omega) (x w)
    refine ⟨r ++ q, fun e he => ?_, ?_⟩
    · rcases List.mem_append.1 he with he | he
      · intro l hl
        rw [List.mem_singleton] at hl
        exact hv l (hl ▸ r1 e he)
      · exact q1 e he
    · rw [axisSig_append, List.map_cons, List.sum_cons]
      have hm : ∀ w ∈ L, x w • wordVal (nested w : TExpr S) ∈ (wordFilt S).F k := fun w hw => by
        have := nested_order (S := S) w
        rw [(hL w (by simp [hw])).2] at this
        exact Submodule.smul_mem _ _ this
      rw [hl] at r2
      refine (wordFilt S).mul_first hk ?_ (list_sum_mem fun y hy => ?_) r2 q2
      · have := nested_order (S := S) w
        rw [hl] at this
        exact Submodule.smul_mem _ _ this
      · obtain ⟨w, hw, rfl⟩ := List.mem_map.1 hy
        exact hm w hw

/-! ## Tensors over the alphabet -/

/-- The tensors over the first `N` letters, a subring. -/
def overLetters (S : Type) [Field S] (N : Nat) : Subalgebra S (WordFn S) where
  carrier := {f | ∀ w, ¬ ValidWord N w → f w = 0}
  mul_mem' := by
    intro a b ha hb w hw
    rw [WordFn.mul_apply_sum]
    apply List.sum_eq_zero
    intro y hy
    obtain ⟨k, _, rfl⟩ := List.mem_map.1 hy
    by_cases h : ValidWord N (w.take k)
    · rw [hb (w.drop k) fun h' => hw ?_, mul_zero]
      rw [← List.take_append_drop k w]
      intro l hl
      exact (List.mem_append.1 hl).elim (h l) (h' l)
    · rw [ha _ h, zero_mul]
  add_mem' := fun {a b} ha hb w hw => by rw [WordFn.add_apply, ha w hw, hb w hw, add_zero]
  algebraMap_mem' := fun c w hw => by
    rw [Algebra.algebraMap_eq_smul_one, WordFn.smul_apply, WordFn.one_apply, if_neg, mul_zero]
    rintro rfl
    exact hw fun l hl => by simp at hl

theorem mem_overLetters {N : Nat} {f : WordFn S} : f ∈ overLetters S N ↔ ∀ w, ¬ ValidWord N w → f w = 0 := Iff.rfl

theorem axisSig_over (N D : Nat) (path : List (Nat × S)) (h : ∀ e ∈ path, ValidWord N [e.1]) : axisSig D path ∈ overLetters S N := by
  refine Subalgebra.list_prod_mem _ fun y hy => ?_
  obtain ⟨e, he, rfl⟩ := List.mem_map.1 hy
  refine Subalgebra.sum_mem _ fun k _ => Subalgebra.smul_mem _ (Subalgebra.pow_mem _ ?_ k) _
  intro w hw
  exact if_neg fun hc : w = [e.1] => hw (hc ▸ h e he)

theorem axisSig_groupLike [CharZero S] (D : Nat) (path : List (Nat × S)) : GroupLike D (axisSig D path) := by
  have := groupLike_prod (S := S) D (path.map fun e => wordVal (.term [e.1] e.2)) fun f hf => by
    obtain ⟨e, _, rfl⟩ := List.mem_map.1 hf
    have := primitive_letter (S := S) e.1 e.2
    exact ⟨this.1, fun u v hu hv _ => this.2 u v hu hv⟩
  rwa [List.map_map] at this

/-- The first term of a group-like tensor is a combination of nested commutators. -/
theorem first_term [CharZero S] (N : Nat) (hN : 1 ≤ N) (D k : Nat) (hk : k + 1 ≤ D) (h : WordFn S) (hg : GroupLike D h) (hs : h ∈ overLetters S N) (h1 : EqTo k h 1) :
    EqTo (k + 1) h (1 + ((allWords N (k + 1)).map fun w => (((k + 1 : Nat) : S)⁻¹ * h w) • wordVal (nested w : TExpr S)).sum) := by
  classical
  have hz : ∀ u : List Nat, u ≠ [] → u.length ≤ k → h u = 0 := fun u hu hl => by rw [h1 u hl, WordFn.one_apply, if_neg hu]
  have hf : (fun w => if ValidWord N w ∧ w.length ≤ k + 1 ∧ w ≠ [] then h w else 0) ∈ lieSpace S N (· ≤ k + 1) := by
    refine ⟨fun w hw => if_neg fun hc => hw ⟨hc.1, hc.2.1⟩, if_neg (by simp), fun u v hu hv => ?_⟩
    have hu' := List.length_pos_iff.2 hu
    have hv' := List.length_pos_iff.2 hv
    by_cases hl : u.length + v.length ≤ k + 1
    · have h3 := hg.2 u v (by omega)
      rw [hz u hu (by omega), zero_mul] at h3
      refine Eq.trans ?_ h3
      unfold sh
      congr 1
      refine List.map_congr_left fun w hw => ?_
      have hlw := shuffles_length u v w hw
      by_cases hvw : ValidWord N w
      · exact if_pos ⟨hvw, by omega, by rintro rfl; simp at hlw; omega⟩
      · rw [hs w hvw]
        exact if_neg fun hc => hvw hc.1
    · apply List.sum_eq_zero
      intro y hy
      obtain ⟨w, hw, rfl⟩ := List.mem_map.1 hy
      have hlw := shuffles_length u v w hw
      exact if_neg fun hc => hl (by omega)
  obtain ⟨e, e1, e2, e3⟩ := exists_lie_expr N hN (· ≤ k + 1) _ hf
  obtain ⟨B, hB⟩ := dynkin N e e1 1 e2
  intro v hv
  rw [WordFn.add_apply]
  have hsum : ∀ (L : List (List Nat)) (c : List Nat → S), ((L.map fun w => c w • wordVal (nested w : TExpr S)).sum : WordFn S) v =
      (L.map fun w => c w * (nested w : TExpr S).value v).sum := by
    intro L c
    induction L with
    | nil => rfl
    | cons w L ih =>
      rw [List.map_cons, List.map_cons, List.sum_cons, List.sum_cons, WordFn.add_apply, ih]
      rfl
  rw [hsum]
  by_cases hlv : v.length = k + 1
  · have hb := hB (max B (k + 1)) (le_max_left _ _) v
    rw [Finset.sum_eq_single (k + 1)] at hb
    · have hval : ∀ w ∈ allWords N (k + 1), e.value w = h w := by
        intro w hw
        obtain ⟨hw1, hw2⟩ := (mem_allWords N (k + 1) w).1 hw
        rw [e3]
        exact if_pos ⟨hw1, by omega, by rintro rfl; simp at hw2⟩
      have hev : e.value v = h v := by
        rw [e3]
        by_cases hvv : ValidWord N v
        · exact if_pos ⟨hvv, by omega, by rintro rfl; simp at hlv⟩
        · rw [hs v hvv]
          exact if_neg fun hc => hvv hc.1
      rw [List.map_congr_left fun w hw => by rw [hval w hw], hev, hlv] at hb
      have hk0 : ((k + 1 : Nat) : S) ≠ 0 := Nat.cast_ne_zero.2 (by omega)
      rw [WordFn.one_apply, if_neg (by rintro rfl; simp at hlv), zero_add]
      have : ((allWords N (k + 1)).map fun w => ((k + 1 : Nat) : S)⁻¹ * h w * (nested w : TExpr S).value v) =
          (allWords N (k + 1)).map fun w => ((k + 1 : Nat) : S)⁻¹ * (h w * (nested w : TExpr S).value v) := List.map_congr_left fun w _ => mul_assoc _ _ _
      rw [this, List.sum_map_mul_left, hb, ← mul_assoc, inv_mul_cancel₀ hk0, one_mul]
    · intro n _ hn
      apply List.sum_eq_zero
      intro y hy
      obtain ⟨w, hw, rfl⟩ := List.mem_map.1 hy
      rw [nested_homogeneous w v (by rw [((mem_allWords N n w).1 hw).2]; omega), mul_zero]
    · intro hc
      exact absurd (Finset.mem_range.2 (by omega)) hc
  · rw [h1 v (by omega), List.sum_eq_zero, add_zero]
    intro y hy
    obtain ⟨w, hw, rfl⟩ := List.mem_map.1 hy
    rw [nested_homogeneous w v (by rw [((mem_allWords N _ w).1 hw).2]; exact hlv), mul_zero]

/-- Chow's theorem up to degree `k`. -/
theorem chow [CharZero S] (N : Nat) (hN : 1 ≤ N) (D : Nat) (g : WordFn S) (hg : GroupLike D g) (hs : g ∈ overLetters S N) (k : Nat) (hk : k ≤ D) :
    ∃ path : List (Nat × S), (∀ e ∈ path, ValidWord N [e.1]) ∧ EqTo k (axisSig D path) g := by
  induction k with
  | zero =>
    refine ⟨[], by simp, fun w hw => ?_⟩
    rw [List.length_eq_zero_iff.1 (by omega : w.length = 0), axisSig_nil, hg.1]
  | succ k ih =>
    obtain ⟨path, h1, h2⟩ := ih (by omega)
    have mono : ∀ {i j : Nat} {a b : WordFn S}, i ≤ j → EqTo j a b → EqTo i a b := fun hij h w hw => h w (hw.trans hij)
    have hb : ∀ e ∈ backPath path, ValidWord N [e.1] := by
      intro e he
      simp only [backPath, List.mem_map, List.mem_reverse] at he
      obtain ⟨e', he, rfl⟩ := he
      exact h1 e' he
    have hh1 : EqTo k (axisSig D (backPath path) * g) 1 := ((EqTo.refl _ _).mul h2.symm).trans (mono (by omega) (axisSig_back' D path))
    have hf := first_term N hN D k hk (axisSig D (backPath path) * g) (groupLike_mul D _ _ (axisSig_groupLike D _) hg)
      (Subalgebra.mul_mem _ (axisSig_over N D _ hb) hs) hh1
    obtain ⟨q, q1, q2⟩ := nested_sum_path N D (k + 1) (by omega) hk (fun w => ((k + 1 : Nat) : S)⁻¹ * (axisSig D (backPath path) * g) w) (allWords N (k + 1))
      fun w hw => (mem_allWords N (k + 1) w).1 hw
    refine ⟨path ++ q, fun e he => (List.mem_append.1 he).elim (h1 e) (q1 e), ?_⟩
    have hq : EqTo (k + 1) (axisSig D q) (axisSig D (backPath path) * g) := ((eqTo_iff (k + 1) _ _).2 q2).trans hf.symm
    rw [axisSig_append]
    refine ((EqTo.refl _ _).mul hq).trans ?_
    rw [← mul_assoc]
    have := (mono hk (axisSig_back D path)).mul (EqTo.refl (k + 1) g)
    rwa [one_mul] at this

end
end RA
