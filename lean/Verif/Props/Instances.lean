import Verif.Props.Iteration
import Verif.Props.IterationMore
import Verif.Props.InplaceRelease
import Verif.Props.Hall
import Verif.Props.HallCache
import Verif.Props.HallShared
import Verif.Props.FloatExpr
import Verif.Props.CoeffRel
import Verif.Props.HashOrder
import Verif.Props.LieDim
import Verif.Props.OneLetter
import Verif.Props.Unwind
import Verif.Props.FreeTensor
import Verif.Props.FloatSum
import Verif.Props.FloatTerm
import Verif.Props.KeysMore
import Verif.Props.FloatExp
import Verif.Props.FloatCommutator

/-!
# Concrete instances

Theorems whose own file shows instances only of a neighbour with the same hypotheses, applied to concrete arguments.
-/

namespace RA
open Spec TensorKey TensorBasis DenseAlg Hall WordFn

example (p : Profile) (n : Nat) := C07_never_past_degree_two p 4 (by omega) (by omega) (by
  intro m h
  rcases Nat.lt_or_ge m 4 with hm | hm
  · revert h; revert m; decide
  · have := Nat.pow_le_pow_right (n := 2) (by omega) hm
    omega) n

example (p : Profile) (n : Nat) := C07_never_past_degree_three p 6 (by omega) (by omega) n

example := C37_inplace_linear_returns intCoeff .release 2 (by omega) (fun x => 3 * x) (.ofVec [3, 1, 0, 4, 4, 4, 4]) (.ofVec [2, 1, 0]) 2 1
  ⟨rfl, by decide⟩ ⟨rfl, by decide⟩ 2 [1, 0] rfl rfl rfl (.inr ⟨by omega, rfl⟩) (by decide)

example := C37_release_scale intCoeff 2 (by omega) (fun x => 3 * x) (.ofVec [3, 1, 0]) (.ofVec [2, 1, 0, 1, 0, 0, 0]) 1 2 1 ⟨rfl, by decide⟩
  ⟨rfl, by decide⟩ 2 [1, 0, 1, 0, 0, 0] rfl rfl rfl (by omega) (by omega) (by omega)

/-- The map of the crate's tests, width 5 and degree 5: the index behind the last one is taken for degree 6, which the map does not have. -/
example (p : Profile) : ∃ m, mapAfter p 5 2 [5, 3] = .ok m ∧ ∀ last, m.getLast? = some last → Hall.RangeMap.findDeg m last = .ok m.length := by
  obtain ⟨m, hm⟩ := C44_returns_partial p 5 2 [5, 3] (by decide) (by omega) (by simp)
  exact ⟨m, hm, fun last hl => (C44_find_deg_boundary p 5 2 [5, 3] m hm (by norm_num) last hl).1⟩

open Hall.Cache in
/-- One thread that has missed the cache and waits for the write lock: it waits or has panicked in every later state. -/
example (p : Profile) (s : State (Fin 3)) (h : Reach p (fun i => i.val) (fun _ => none) (fun _ _ => True) (init (Fin 3) (fun _ => none) 8) s)
    (hi : s.pc 1 = .writing 8) (t : State (Fin 3)) (ht : Reach p (fun i => i.val) (fun _ => none) (fun _ _ => True) s t) :
    t.pc 1 = .writing 8 ∨ t.pc 1 = .panicked :=
  C46_write_never_granted p _ _ _ _ 8 s h 1 8 hi t ht

section
open Hall Hall.Shared

/-- The calls of two threads, one of which grows the set. -/
def twoScripts : Fin 2 → List Op := fun i => if i = 0 then [.isLetter 1, .isLetter 1] else [.growUp 3]

/-- The state after the first thread has entered a lookup and left it, and the second has grown the set and panicked. -/
theorem twoScripts_reach (p : Profile) (i0 : Inner) : ∃ s : State (Fin 2), Reach p 2 (fun i d => i.traitGrowUp d) (fun _ _ => True) (init twoScripts ⟨i0, false⟩) s ∧
    s.log = [(0, .isLetter 1, .ok (.ok (.bool true))), (1, .growUp 3, .panic), (0, .isLetter 1, .ok (.error .readError))] := by
  refine ⟨_, .tail (.tail (.tail (.tail (.tail (.refl _) (.readEnter _ 0 (.isLetter 1) [.isLetter 1] rfl rfl ?_ trivial rfl)) (.readDone _ 0 (.isLetter 1) [.isLetter 1] rfl ?_))
    (.writeEnter _ 1 3 [] rfl ?_ ?_ rfl)) (.writePanic _ 1 3 [] rfl rfl)) (.readPoison _ 0 (.isLetter 1) [] rfl rfl ?_ trivial rfl), rfl⟩
  · intro i d rest h; fin_cases i <;> cases h
  · exact lookup_returns _ _ _ _
  · intro i d rest h; fin_cases i <;> cases h
  · intro i d rest h; fin_cases i <;> cases h
  · intro i d rest h; fin_cases i <;> cases h

example (p : Profile) (i0 : Inner) : (seqRun p 2 (fun i d => i.traitGrowUp d) ⟨i0, false⟩ [.isLetter 1, .growUp 3, .isLetter 1]).1 =
    [.ok (.ok (.bool true)), .panic, .ok (.error .readError)] := by
  obtain ⟨s, h, hl⟩ := twoScripts_reach p i0
  have := (C75_linearizable p 2 _ _ _ _ s h).1
  rw [hl] at this
  exact congrArg Prod.fst this

/-- What comes after the call that grows the set finds the lock poisoned. -/
example (p : Profile) (i0 : Inner) : ∃ s : State (Fin 2), Reach p 2 (fun i d => i.traitGrowUp d) (fun _ _ => True) (init twoScripts ⟨i0, false⟩) s ∧
    ∀ e ∈ s.log.drop 2, e.2.2 = .ok (.error .readError) ∨ e.2.2 = .ok (.error .writeError) := by
  obtain ⟨s, h, hl⟩ := twoScripts_reach p i0
  refine ⟨s, h, ?_⟩
  rw [hl]
  exact C75_grow_up_breaks p 2 _ _ _ s h [(0, .isLetter 1, .ok (.ok (.bool true)))] _ 1 3 .panic hl

/-- From the start some thread can move, and every state can be continued to one in which all calls are answered or their thread has panicked. -/
example (p : Profile) (i0 : Inner) : ∃ t, Step p 2 (fun i d => i.traitGrowUp d) (fun _ _ => True) (init twoScripts ⟨i0, false⟩) t :=
  C75_progress p 2 _ _ twoScripts ⟨i0, false⟩ _ (.refl _) (fun _ _ => ⟨nofun, nofun⟩) (fun _ _ _ => trivial) 0 (by simp [init, twoScripts, pending]) nofun

example (p : Profile) (i0 : Inner) := C75_can_finish p 2 (fun i d => i.traitGrowUp d) _ twoScripts ⟨i0, false⟩ (fun _ _ => ⟨nofun, nofun⟩) (fun _ _ _ => trivial) _
  (twoScripts_reach p i0).choose_spec.1

example (p : Profile) (i0 : Inner) (s : State (Fin 2)) (h : Reach p 2 (fun i d => i.traitGrowUp d) (fun _ _ => True) (init twoScripts ⟨i0, false⟩) s)
    (hs : ∀ t, ¬ Step p 2 (fun i d => i.traitGrowUp d) (fun _ _ => True) s t) :=
  C75_stuck_is_done p 2 (fun i d => i.traitGrowUp d) _ twoScripts ⟨i0, false⟩ (fun _ _ => ⟨nofun, nofun⟩) (fun _ _ _ => trivial) s h hs 1

end

example (p : Profile) := C80_accuracy .f32 p 2 (.inl rfl) le_rfl (by norm_num) 2 (by norm_num) exExpr_ok.2.2.2.2.2.2.1 (by norm_num) exExpr exExpr_ok.1 exExpr_ok.2.1
  (scalars_mono (fun _ h => h.1) _ exExpr_valid)

example (p : Profile) := C80_relative .f32 p 2 (.inl rfl) le_rfl (by norm_num) 2 (by norm_num) exExpr_ok.2.2.2.2.2.2.1 (by norm_num) exExpr exExpr_ok.1 exExpr_ok.2.1
  (scalars_mono (fun _ h => h.1) _ exExpr_valid)

example (p : Profile) (σ : Nat → Dense Fl) (h : runProg (floatCoeff .f32) p 2 [.word 0 [1] .nan, .word 1 [2] (.inf true), .comm 2 0 1 3] = .ok σ) :
    ∀ x ∈ (σ 2).data, x.Valid .f32 :=
  C82_floats_representable .f32 (.inl rfl) p 2 _ (by
    intro st hst
    simp only [List.mem_cons, List.not_mem_nil, or_false] at hst
    rcases hst with rfl | rfl | rfl <;> trivial) σ h 2

example := C83_to_dense (floatCoeff .f32) integerBasis ⟨[(1, .fin 5), (2, .nan)]⟩ ⟨[(2, .nan), (1, .fin 5)]⟩ (by unfold Sparse.WF; decide) (.swap ..)
  (fun e _ => ⟨e.1, rfl⟩) (fun e _ e' _ h => Res.ok.inj h)

/-- What the functions return, compared with the lists of Lyndon words. -/
example (p : Profile) (v : Nat) (h : hallSetSize p 3 3 = .ok v) : v = ∑ n ∈ Finset.Icc 1 3, (lyndonWords 3 n).length := (C92_size ℚ p 3 3 v (by norm_num) h).1

example (p : Profile) : ∃ v, levelSize p 3 4 = .ok v ∧ v = (lyndonWords 3 4).length :=
  have h := C92_level_returns ℚ p 3 4 (by omega) (.inr ((Nat.prime_two.isPrimePow).pow (by omega : 2 ≠ 0))) (by norm_num)
  ⟨_, h, (C92_level ℚ p 3 4 _ (by omega) (by omega) (by norm_num) h).1⟩

example (p : Profile) : ∃ m, mapAfter p 5 2 [5, 3] = .ok m ∧ Hall.RangeMap.get m 4 = .ok (Module.finrank ℚ (lieSpace ℚ 5 (· ≤ 4))) := by
  obtain ⟨m, hm⟩ := C44_returns_partial p 5 2 [5, 3] (by decide) (by omega) (by simp)
  exact ⟨m, hm, C92_range_map ℚ p 5 2 [5, 3] m hm 4 (by decide) (by norm_num)⟩

/-- `3 x^2`, halved and added to itself with the sparse operations. -/
example (p : Profile) := C94_sparse_partial (fieldCoeff Rat) p (fieldCoeff_isField Rat).toIsRing (fieldCoeff_eqLawful Rat)
  [.word 0 [1, 1] 3, .scale 0 (1 / 2), .add 1 0, .add 1 0] (by
    have h2 : 2 ≤ maxDepth 1 := by decide +kernel
    intro s hs
    simp only [List.mem_cons, List.not_mem_nil, or_false] at hs
    rcases hs with rfl | rfl | rfl | rfl <;> simp [PStmt.Within, Linear, ValidWord, h2])

/-- A closure that adds up its arguments and panics when the sum gets larger than ten. -/
example (p : Profile) := C95_unwind intCoeff p 2 (by omega) (.ofVec [7, 7, 7]) (.ofVec [2, 1, 0]) (.ofVec [5, 0, 1]) 1 1 1 1 ⟨by decide, by decide⟩
  ⟨by decide, by decide⟩ ⟨by decide, by decide⟩ (by decide) ⟨by decide, by decide⟩ (Or.inr (by decide)) Int
  (fun t x => if t + x > 10 then (.panic, t) else (.ok x, t + x)) 0 _ rfl

/-- A multiple of the word `1 1`, which squares to zero up to degree three. -/
def pairWord : WordFn Rat := fun w => if w = [1, 1] then 5 else 0

theorem pair_square : EqTo 3 (pairWord * pairWord) 0 := by
  intro w hw
  rw [mul_apply_sum]
  refine (List.sum_eq_zero ?_).trans rfl
  intro y hy
  obtain ⟨k, _, rfl⟩ := List.mem_map.1 hy
  by_cases h1 : w.take k = [1, 1]
  · have h2 : w.drop k ≠ [1, 1] := by
      intro h2
      have := congrArg List.length (List.take_append_drop k w)
      rw [h1, h2] at this
      simp at this
      omega
    simp [pairWord, h2]
  · simp [pairWord, h1]

example := C39_exp_partial (fieldCoeff Rat) (wordOps Rat) id (fieldCoeff_isField Rat) (wordOps_correct Rat) 3 pairWord (.inr ⟨by omega, pair_square⟩)

example (p : Profile) (v : WordFn Rat) := C40_fmexp_partial (fieldCoeff Rat) p (wordOps Rat) id (fieldCoeff_isField Rat) (wordOps_correct Rat) 3 (by omega) v
  pairWord (.inr ⟨by omega, by
    have h : dropConst (id pairWord) = pairWord := by
      funext w
      by_cases hw : w = []
      · subst hw; simp [dropConst, pairWord]
      · simp [dropConst, hw]
    rw [h]
    exact pair_square⟩)

/-- Two words of length 20 over five letters, together longer than a key can hold. -/
example (p : Profile) (ku kv : TensorKey) (hku : fromLetters p 5 (List.replicate 20 3) = .ok ku) (hkv : fromLetters p 5 (List.replicate 20 5) = .ok kv) :
    ∃ k, concatenate p 5 ku kv = .ok k ∧ k.size = 40 :=
  C51_never_detected p 5 (by omega) (by omega) _ _ ku kv (by decide) (by decide) (by decide +kernel) (by decide +kernel) hku hkv

example : ∃ keys keys' r r', (Dense.ops (floatCoeff .f64) (tensorBasis .release 3)).fromIterator keys = .ok r ∧
    (Dense.ops (floatCoeff .f64) (tensorBasis .release 3)).fromIterator keys' = .ok r' := by
  have hkeys : sumItems.mapM (fun e => (fun k => (k, e.2)) <$> fromLetters .release 3 e.1) =
      .ok [(⟨1, 1⟩, .fin 5), (⟨1, 0⟩, .fin (-3)), (⟨1, 1⟩, .zero true), (⟨1, 1⟩, .fin (-5))] := by decide +kernel
  have hkeys' : sumItems.reverse.mapM (fun e => (fun k => (k, e.2)) <$> fromLetters .release 3 e.1) =
      .ok [(⟨1, 1⟩, .fin (-5)), (⟨1, 1⟩, .zero true), (⟨1, 0⟩, .fin (-3)), (⟨1, 1⟩, .fin 5)] := by decide +kernel
  obtain ⟨r, r', h1, h2, _⟩ := C85_order_error .f64 .release 3 (.inr rfl) (by omega) (by omega) sumItems _ (List.reverse_perm _).symm 1 (by decide) (by decide)
    (by decide) (by decide +kernel) (by decide) (fun e he => (sumItems_ok _ (.inr rfl) e he).1) _ _ hkeys hkeys'
  exact ⟨_, _, r, r', h1, h2⟩

/-- The letters have no constant term, so their product has none, with a positive sign although one of the factors has a negative zero. -/
example (p : Profile) (r : Dense Fl) (hr : (DenseAlg.ops (floatCoeff .f32) p 2).multiply scA scB (some 2) = .ok r) : coef (floatCoeff .f32) 2 r [] = .zero false :=
  C86_no_term .f32 p 2 (.inl rfl) (by omega) scA scB r 1 1 2 ⟨by decide, by decide⟩ ⟨by decide, by decide⟩ (by decide) hr [] (by decide) (by
    intro u v x y h hx hy
    obtain ⟨rfl, rfl⟩ := List.append_eq_nil_iff.1 h
    cases hx
    cases hy
    exact ⟨rfl, rfl, .inl rfl⟩)

/-- Thread 0 asks for width 11, which is not in the cache, and comes to wait for the write lock; thread 1 asks for width 12, which is in the cache, and never gets it as
long as thread 0 waits. -/
example (p : Profile) : ∃ s : Cache.State Nat,
    Cache.Reach p (fun i => 11 + i) (fun _ => none) (fun s _ => ∀ j o, s.pc j ≠ .writing o) (Cache.init Nat (fun w => if w = 12 then some 5 else none) 6) s ∧
    s.pc 0 = .writing 6 ∧ s.cache 12 = some 5 ∧ ∀ t : Cache.State Nat,
      Cache.Reach p (fun i => 11 + i) (fun _ => none) (fun s _ => ∀ j o, s.pc j ≠ .writing o) s t → t.pc 0 = .writing 6 → t.pc 1 = .start := by
  obtain ⟨inner, hb, -⟩ := (C46_built_set p 11 none (by simp)).1 (by omega) (by norm_num)
  have h : Cache.Reach p (fun i => 11 + i) (fun _ => none) (fun s _ => ∀ j o, s.pc j ≠ .writing o) (Cache.init Nat (fun w => if w = 12 then some 5 else none) 6) _ :=
    .tail (.tail (.tail (.refl _) (.read _ 0 rfl rfl (by intro j o h; cases h))) (.miss _ 0 (by simp [Cache.State.move]) rfl)) (.built _ 0 inner (by simp [Cache.State.move]) hb)
  have h0 : _ = Cache.Pc.writing 6 := rfl
  exact ⟨_, h, rfl, rfl, fun t ht h1 => C46_waiting_writer_stops_all p _ _ _ (fun _ _ h => h) _ 6 _ h 0 6 rfl t ht h1 1 rfl⟩

/-- The coefficient of `e2 e1` in the commutator does not overflow: its magnitude is 35. -/
example (p : Profile) (x : Dense Fl) (hx : (DenseAlg.ops (floatCoeff .f32) p 2).commutator (floatCoeff .f32) exI exB (some 2) = .ok x) :
    (coef (floatCoeff .f32) 2 x [2, 1]).isFin = true :=
  C76_no_overflow .f32 p 2 (.inl rfl) (by omega) exI exB x 1 1 2 ⟨rfl, by decide⟩ ⟨rfl, by decide⟩ (by decide) (by decide)
    (fun x h => ⟨(exI_ok .f32 (.inl rfl) x h).1, (exI_ok .f32 (.inl rfl) x h).2.1⟩)
    (fun x h => ⟨(exB_ok .f32 (.inl rfl) x h).1, (exB_ok .f32 (.inl rfl) x h).2.1⟩) hx [2, 1] (by decide) (by decide) (by
      unfold commErr
      rw [exI_mag, ex_errs.1, ex_errs.2]
      norm_num [maxNum, FloatFmt.f32])

/-- No coefficient of the logarithm of `1 + 2 e_1 - 3 e_2` overflows. -/
example (p : Profile) : ∃ r, tensorLog (floatCoeff .f32) p 2 1 exGrp = .ok r ∧ ∀ w, ValidWord 2 w → (coef (floatCoeff .f32) 2 r w).isFin = true := by
  have hX : ∀ w : List Nat, w.length ≠ 1 → (fval .f32 2 exGrp - 1) w = 0 := by
    intro w hw
    rw [exGrp_val, if_neg (by rintro rfl; simp at hw), if_neg (by rintro rfl; simp at hw)]
  have hb : ∀ w, |(fval .f32 2 exGrp - 1) w| ≤ 3 := by
    intro w
    rw [exGrp_val]
    split_ifs <;> norm_num
  refine C89_log_finite .f32 p 2 (.inl rfl) (by omega) (by omega) 1 (by omega) (by decide) exGrp 1 le_rfl ⟨rfl, by decide⟩ (by
    intro y hy
    simp only [exGrp, Dense.ofVec, List.mem_cons, List.not_mem_nil, or_false] at hy
    rcases hy with rfl | rfl | rfl
    · exact ⟨by norm_num, 1, 0, by decide, by decide, by decide, by norm_num⟩
    · exact ⟨by norm_num, 2, 0, by decide, by decide, by decide, by norm_num⟩
    · exact ⟨by norm_num, -3, 0, by decide, by decide, by decide, by norm_num⟩) (by rfl) (by
    intro y hy
    simp only [exGrp, Dense.ofVec, List.mem_cons, List.not_mem_nil, or_false] at hy
    rcases hy with rfl | rfl | rfl <;> rfl) 3 (fun v hv _ => prefix_linear 2 _ hX 3 (by norm_num) (fun l h1 h2 => hb [l]) v hv) ?_
  intro w hw hl
  have e : (∑ k ∈ Finset.Ico (1 : Nat) (1 + 1), ((k : Rat)⁻¹) • absW (fval .f32 2 exGrp - 1) ^ k) w = |(fval .f32 2 exGrp - 1) w| := by
    simp [absW]
  rw [e, ex_errs.1, ex_errs.2]
  have h1 : (if w = [] then (1 : Rat) else 0) ≤ 1 := by split_ifs <;> norm_num
  have h2 := hb w
  refine (mul_le_mul_of_nonneg_left (add_le_add_left (add_le_add h1 h2) _) (by norm_num)).trans ?_
  norm_num [maxNum, FloatFmt.f32, Finset.sum_range_succ]

/-- A program with two runs that store the entries of register 0 in different orders; asked for any coefficient, both answer the same. -/
example (p : Profile) : ∃ σ τ : Nat → Sparse TensorKey Int,
    SparseRun intCoeff p 3 [.terms 0 [([1], 5), ([2, 3], -7)]] (fun _ => (Sparse.ops intCoeff).new) (.ok σ) ∧
    SparseRun intCoeff p 3 [.terms 0 [([1], 5), ([2, 3], -7)]] (fun _ => (Sparse.ops intCoeff).new) (.ok τ) ∧
    (σ 0).entries ≠ (τ 0).entries ∧ ∀ i k, (Sparse.ops intCoeff).get (σ i) k = (Sparse.ops intCoeff).get (τ i) k := by
  have h1 := C83_runs (C := intCoeff) (p := p) (N := 3) [.terms 0 [([1], 5), ([2, 3], -7)]] (fun _ => (Sparse.ops intCoeff).new)
  have e : List.foldlM (runSparseStmt intCoeff p 3) (fun _ => (Sparse.ops intCoeff).new) [PStmt.terms 0 [([1], (5 : Int)), ([2, 3], -7)]] =
      .ok (setReg (fun _ => (Sparse.ops intCoeff).new) 0 ⟨[(⟨1, 0⟩, 5), (⟨2, 6⟩, -7)]⟩) := by
    have hk : [([1], (5 : Int)), ([2, 3], -7)].mapM (fun e => (fun k => (k, e.2)) <$> fromLetters p 3 e.1) = .ok [(⟨1, 0⟩, 5), (⟨2, 6⟩, -7)] := by
      cases p <;> decide +kernel
    rw [List.foldlM_cons, runSparseStmt, hk]
    rfl
  rw [e] at h1
  let τ : Nat → Sparse TensorKey Int := setReg (fun _ => (Sparse.ops intCoeff).new) 0 ⟨[(⟨2, 6⟩, -7), (⟨1, 0⟩, 5)]⟩
  have h2 : SparseRun intCoeff p 3 [.terms 0 [([1], 5), ([2, 3], -7)]] (fun _ => (Sparse.ops intCoeff).new) (.ok τ) := by
    cases h1 with
    | step _ _ _ τ' υ _ hp hs hr =>
      refine .step _ _ _ τ' υ _ hp hs ?_
      cases hr with
      | done _ _ hd =>
        refine .done _ _ fun i => (hd i).trans ?_
        unfold τ setReg
        split
        · exact List.Perm.swap _ _ _
        · exact .refl _
    | stop _ _ _ τ' _ _ _ hr => exact absurd rfl (hr _)
  exact ⟨_, τ, h1, h2, by decide +kernel, (C83_programs _ _ _ h1 h2).2.1⟩

end RA
