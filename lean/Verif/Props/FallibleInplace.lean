import Verif.Props.FallibleProduct

/-!
# Coefficient arithmetic that panics: the product in place (C100)
-/

namespace RA
namespace Fallible
open Spec DenseAlg Unw
variable {S R T : Type} (F : FCoeff S R) (p : Profile) (N : Nat)

theorem mulIntoDegreeF_const (h2 : 2 ≤ N) (func : ClosureU S T) (c : S) (b : Dense S) (hb : b.data = [c]) (da o : Nat) (d : Dense S) (t : T)
    (hp : N ^ (o + 1) < 2 ^ 64) (ho : 1 ≤ o) (hod : o ≤ da) (hs : geomSum N (o + 1) ≤ d.data.length) :
    mulIntoDegreeF F p N func b 0 true da 0 () o (d, t) =
      (List.range' (geomSum N o) (N ^ o)).foldlM (fun _ i => inplaceStepF F func i () c) () (asMut d, t) := by
  have e1 : geomSum N (o + 1) = geomSum N o + N ^ o := rfl
  have hp1 : N ^ (0 + 1) < 2 ^ 64 := TensorBasis.pow_lt64_mono h2 (by omega) hp
  unfold mulIntoDegreeF
  rw [subW_ok (Nat.zero_le _)]
  simp only [lift_ok_bind, if_true, Nat.sub_zero]
  rw [Nat.min_eq_left hod]
  unfold mulIntoAssignF
  rw [subW_ok (Nat.le_refl _), Nat.sub_self]
  simp only [lift_ok_bind]
  rw [degreeRange_ok p N h2 0 hp1, degreeRange_ok p N h2 o hp]
  simp only [lift_ok_bind]
  rw [if_neg (by omega), bind_apply, asMutU_bind]
  simp only
  have h4 : sliceUnchecked b.data (geomSum N 0, geomSum N (0 + 1)) = .ok [c] := by
    rw [hb]
    unfold sliceUnchecked
    simp [geomSum]
  have h5 : ∃ x, sliceUnchecked d.data (geomSum N o, geomSum N (o + 1)) = .ok x := by
    unfold sliceUnchecked
    rw [if_pos ⟨by simp only; omega, hs⟩]
    exact ⟨_, rfl⟩
  obtain ⟨x, h5⟩ := h5
  rw [h4, h5]
  simp only [lift_ok_bind]
  rw [subW_ok ho]
  simp only [lift_ok_bind]
  rw [show o - 1 + 1 - o = 0 by omega]
  unfold mulInplaceBufferF
  have h6 : (fun (_ : Unit) i => [c].foldlM (inplaceStepF F func i) ()) = fun _ i => inplaceStepF F func i () c := by
    funext _ i
    rw [List.foldlM_cons]
    exact bind_pure _
  rw [h6, e1, Nat.add_sub_cancel_left]
  rcases List.foldlM (fun (_ : Unit) i => inplaceStepF F func i () c) () (List.range' (geomSum N o) (N ^ o)) (asMut d, t) with ⟨_ | _ | _ | _, s⟩ <;> rfl

/-- The update of the product in place, as an update with two factors. -/
theorem inplaceF_updStep (func : ClosureU S T) (c : S) (L : List Nat) (st : Dense S × T) :
    L.foldlM (fun _ i => inplaceStepF F func i () c) () st = (L.map fun i => ((c, c), i)).foldlM (updStep fun t o a _ => setProduct F func t o a) () st := by
  rw [List.foldlM_map]
  rfl

theorem mulIntoLoopF_const (h2 : 2 ≤ N) (func : ClosureU S T) (c : S) (b : Dense S) (hb : b.data = [c]) (da m : Nat) (d : Dense S) (t : T)
    (hp : N ^ (m + 1) < 2 ^ 64) (hod : m ≤ da) (hs : geomSum N (m + 1) ≤ d.data.length) (hm : 1 ≤ m) :
    (List.range' 1 m).reverse.foldlM (mulIntoDegreeF F p N func b 0 true da 0) () (d, t) =
      ((scaleOrder N m).map (wordIndex N)).foldlM (fun _ i => inplaceStepF F func i () c) () (asMut d, t) := by
  induction m generalizing d t with
  | zero => omega
  | succ m ih =>
    have e1 : geomSum N (m + 1 + 1) = geomSum N (m + 1) + N ^ (m + 1) := rfl
    rw [range'_reverse_head _ (by omega), Nat.add_sub_cancel, List.foldlM_cons, bind_apply,
      mulIntoDegreeF_const F p N h2 func c b hb da (m + 1) d t hp (by omega) hod hs, scaleOrder, List.map_append, wordsOfLength_index, List.foldlM_append,
      bind_apply]
    obtain ⟨l', h3, h4⟩ := updStep_state (fun t o a _ => setProduct F func t o a) ((List.range' (geomSum N (m + 1)) (N ^ (m + 1))).map fun i => ((c, c), i))
      d d.data t
    rw [← inplaceF_updStep] at h4
    unfold asMut
    rcases hq : List.foldlM (fun (_ : Unit) i => inplaceStepF F func i () c) () (List.range' (geomSum N (m + 1)) (N ^ (m + 1)))
      (d.makeMut.writeSlice d.data, t) with ⟨_ | _ | _ | _, d', t'⟩
    · rw [hq] at h4
      simp only at h4
      subst h4
      simp only
      rcases Nat.eq_zero_or_pos m with rfl | hm
      · rfl
      · rw [ih _ _ (TensorBasis.pow_lt64_mono h2 (by omega) hp) (by omega) (by rw [Dense.writeSlice_data]; omega) hm, asMut_again]
    all_goals rfl

theorem mulIntoF_const (h2 : 2 ≤ N) (a b : Dense S) (da D : Nat) (ha : FullTo N a da) (x : S) (hx : b.data = [x]) (func : ClosureU S T) (t : T) :
    mulIntoF F p N func b (some D) (a, t) = (lift (offsetAssignF F b) >>= fun oa =>
      (List.range' 1 (min D da)).reverse.foldlM (mulIntoDegreeF F p N func b oa.1 oa.2 da 0) ()) (a, t) := by
  have hlen : a.data.length = geomSum N (da + 1) := ha.1
  have hb : FullTo N b 0 := ⟨by unfold Dense.size; rw [hx]; rfl, TensorBasis.pow_lt64_mono h2 (by omega) ha.2⟩
  have hs : geomSum N (min D da + 1) ≤ a.data.length := by rw [hlen]; exact geomSum_mono (by omega)
  have b1 := TensorBasis.deg_lt64 h2 ha.2
  unfold mulIntoF
  rw [get_bind]
  simp only
  rw [degree_ok p N h2 a da (ha.hasDegree h2).1 ha.2, degree_ok p N h2 b 0 (hb.hasDegree h2).1 hb.2]
  simp only [lift_ok_bind]
  rw [maxDeg_ok p D da 0 (by omega), Nat.add_zero, lift_ok_bind, bind_apply]
  have hg : growToF F p N (min D da) (a, t) = (.ok (), (a, t)) := by
    rw [growToF_eq]
    unfold growToU
    rw [get_bind]
    simp only [growTo_same (zeroOnly F.zero) p N h2 a da _ (ha.hasDegree h2).1 ha.2 hs, lift_ok_bind]
    rfl
  rw [hg]

/-! ## Coefficients that never panic -/

variable (C : Coeff S R)

/-- The vector has length `n` and is not a shared borrow. -/
def Ready (n : Nat) (st : Dense S × T) : Prop := st.1.data.length = n ∧ asMut st.1 = st.1

theorem Ready.write {n : Nat} {st : Dense S × T} (h : Ready n st) : st.1.writeSlice st.1.data = st.1 := by
  have := h.2
  unfold asMut at this
  rcases hs : st.1 with ⟨_ | _ | _, data, lent⟩ <;> rw [hs] at this
  · rfl
  · cases this
  · exact this

theorem Ready.set {n : Nat} {st : Dense S × T} (h : Ready n st) (l : List S) (hl : l.length = n) (t : T) : Ready n (st.1.writeSlice l, t) := by
  refine ⟨by rw [Dense.writeSlice_data]; exact hl, ?_⟩
  simp only
  conv_lhs => rw [← h.2]
  conv_rhs => rw [← h.2]
  unfold asMut
  rw [write_again, write_write, Dense.writeSlice_data]

theorem inplaceStepF_total (func : ClosureU S T) (n i : Nat) (r : S) (st : Dense S × T) (h : Ready n st) :
    inplaceStepF (.ofCoeff C) func i () r st = inplaceStepU C func i () r st ∧ Ready n (inplaceStepU C func i () r st).2 := by
  unfold inplaceStepF inplaceStepU setProduct FCoeff.ofCoeff
  cases hg : st.1.data[i]? with
  | none => exact ⟨rfl, h⟩
  | some o =>
    simp only
    rcases func st.2 (C.mul o r) with ⟨y | _ | _ | _, t⟩
    · exact ⟨rfl, h.set _ (by rw [List.length_set]; exact h.1) _⟩
    all_goals
      simp only
      rw [set_same _ _ _ hg, h.write]
      exact ⟨rfl, h⟩

theorem mulInplaceBufferF_total (func : ClosureU S T) (n lo len : Nat) (r : List S) (st : Dense S × T) (h : Ready n st) :
    mulInplaceBufferF (.ofCoeff C) func lo len r st = mulInplaceBufferU C func lo len r st :=
  (fold_congr_inv (fun _ i => r.foldlM (inplaceStepF (.ofCoeff C) func i) ()) (fun _ i => r.foldlM (inplaceStepU C func i) ()) (Ready n) _
    (fun _ i _ st hs => fold_congr_inv _ _ (Ready n) r (fun _ b _ st hs => inplaceStepF_total C func n i b st hs) () st hs) () st h).1

theorem asMut_ready (st : Dense S × T) : Ready st.1.data.length (asMut st.1, st.2) := ⟨by rw [asMut_data], asMut_again _ _⟩

theorem splitMulF_total (func : ClosureU S T) (rhs : Dense S) (mid : Nat) (ro rl rr : Nat × Nat) (st : Dense S × T) :
    splitMulF (.ofCoeff C) func rhs mid ro rl rr st = splitMulU C func rhs mid ro rl rr st := by
  unfold splitMulF splitMulU
  rw [asMutU_bind, asMutU_bind]
  by_cases hm : mid ≤ st.1.data.length
  · rw [if_pos hm, if_pos hm]
    refine lift_congr _ _ _ _ fun x hx => ?_
    have h : ro.1 ≤ ro.2 ∧ ro.2 ≤ st.1.data.length - mid := by
      unfold sliceUnchecked at hx
      split_ifs at hx with h
      rw [List.length_drop] at h
      exact h
    refine lift_congr _ _ _ _ fun l _ => ?_
    refine lift_congr _ _ _ _ fun r _ => ?_
    exact (mulIntoBufferF_total C func _ _ st.1.data.length (by omega) l r (asMut st.1, st.2) (asMut_ready st)).1
  · rw [if_neg hm, if_neg hm]

theorem mulIntoDegreeF_total (func : ClosureU S T) (rhs : Dense S) (off : Nat) (as : Bool) (da db : Nat) (u : Unit) (o : Nat) :
    mulIntoDegreeF (.ofCoeff C) p N func rhs off as da db u o = mulIntoDegreeU C p N func rhs off as da db u o := by
  have hs : (splitMulF (.ofCoeff C) func rhs : Nat → Nat × Nat → Nat × Nat → Nat × Nat → Unw (Dense S × T) Unit) = splitMulU C func rhs := by
    funext mid ro rl rr st
    exact splitMulF_total C func rhs mid ro rl rr st
  have h1 : (mulIntoStepF (.ofCoeff C) p N func rhs : Nat → Nat → Unit → Nat → Unw (Dense S × T) Unit) = mulIntoStepU C p N func rhs := by
    funext o m _ k
    unfold mulIntoStepF mulIntoStepU
    rw [hs]
  have h2 : (mulIntoAssignF (.ofCoeff C) p N func rhs : Nat → Nat → Nat → Unw (Dense S × T) Unit) = mulIntoAssignU C p N func rhs := by
    funext off o m st
    unfold mulIntoAssignF mulIntoAssignU
    refine lift_congr _ _ _ _ fun t _ => ?_
    refine lift_congr _ _ _ _ fun rr _ => ?_
    refine lift_congr _ _ _ _ fun ro _ => ?_
    rw [hs]
    split_ifs
    · rfl
    · rw [asMutU_bind, asMutU_bind]
      refine lift_congr _ _ _ _ fun _ _ => ?_
      refine lift_congr _ _ _ _ fun r _ => ?_
      exact mulInplaceBufferF_total C func _ _ _ r _ (asMut_ready st)
  unfold mulIntoDegreeF mulIntoDegreeU
  rw [h1, h2]

end Fallible

section
open Spec Fallible DenseAlg Unw
variable {S R : Type} (F : FCoeff S R) (p : Profile) (N : Nat)

/-- C100.  `multiply_into_impl` with a constant `x` as right factor, which the comparisons find to be neither 0 nor 1: the coefficients of the words are
replaced one by one, longer words first.  If the multiplication or the closure panics, the coefficient at that place is as it was. -/
theorem C100_inplace_scalar (h2 : 2 ≤ N) (a b : Dense S) (da D : Nat) (ha : FullTo N a da) (x : S) (hx : b.data = [x]) (hz : F.eq x F.zero = .ok false)
    (h1 : F.eq x F.one = .ok false) (T : Type) (func : ClosureU S T) (t : T) (q : Res Unit × ((List Nat → S) × T))
    (hq : q = runUpdates (fun t o r _ => setProduct F func t o r) (fun w => (stored N a w).getD F.zero) t
      ((scaleOrder N (min D da)).map fun w => ((w, []), (x, x)))) :
    ∃ left : Dense S, mulIntoF F p N func b (some D) (a, t) = (q.1, (left, q.2.2)) ∧ left.size = a.size ∧ ∀ w, ValidWord N w →
      stored N left w = if w.length ≤ da then some (q.2.1 w) else none := by
  have hlen : a.data.length = geomSum N (da + 1) := ha.1
  have hs : geomSum N (min D da + 1) ≤ a.data.length := by rw [hlen]; exact geomSum_mono (by omega)
  have ho : offsetAssignF F b = .ok (0, true) := by
    unfold offsetAssignF
    rw [hx]
    simp [hz, h1]
  have hst : ∀ w, ValidWord N w → (w.length ≤ da → stored N a w = some ((stored N a w).getD F.zero)) ∧ (¬ w.length ≤ da → stored N a w = none) := by
    intro w hw
    constructor
    · intro hl
      obtain ⟨y, hy⟩ := at?_isSome (l := a.data) hw hl (by rw [hlen])
      have : stored N a w = some y := hy
      rw [this]
      rfl
    · intro hl
      have h4 := (wordIndex_bounds hw).1
      have h5 := geomSum_mono (N := N) (a := da + 1) (b := w.length) (by omega)
      exact List.getElem?_eq_none (by omega)
  rw [mulIntoF_const F p N h2 a b da D ha x hx func t, ho, lift_ok_bind]
  rcases Nat.eq_zero_or_pos (min D da) with h0 | hm
  · rw [h0] at hq ⊢
    subst hq
    refine ⟨a, rfl, rfl, fun w hw => ?_⟩
    by_cases hl : w.length ≤ da
    · rw [if_pos hl]
      exact (hst w hw).1 hl
    · rw [if_neg hl]
      exact (hst w hw).2 hl
  · rw [mulIntoLoopF_const F p N h2 func x b hx da (min D da) a t (TensorBasis.pow_lt64_mono h2 (by omega) ha.2) (by omega) hs hm, inplaceF_updStep]
    have hmem : ∀ w ∈ scaleOrder N (min D da), ValidWord N w ∧ w.length ≤ da := fun w h => ⟨((mem_scaleOrder N).1 h).1, by
      have := ((mem_scaleOrder N).1 h).2
      omega⟩
    obtain ⟨l', i1, i2, i3⟩ := updates_words (fun t o r _ => setProduct F func t o r) N (fun _ => (x, x)) ((scaleOrder N (min D da)).map fun w => (w, []))
      (by simpa using fun w h => (hmem w h).1) a a.data t (fun w => (stored N a w).getD F.zero)
      (by
        intro uv h
        obtain ⟨w, hw, rfl⟩ := List.mem_map.1 h
        rw [List.append_nil]
        exact (hst w (hmem w hw).1).1 (hmem w hw).2) q (by rw [hq, List.map_map]; rfl)
    refine ⟨a.makeMut.writeSlice l', ?_, ?_, fun w hw => ?_⟩
    · rw [← i2, List.map_map, List.map_map]
      simp only [Function.comp_def, List.append_nil]
      rfl
    · unfold Dense.size
      rw [Dense.writeSlice_data, i1]
    · unfold stored
      rw [Dense.writeSlice_data]
      by_cases hl : w.length ≤ da
      · rw [if_pos hl]
        exact (i3 w hw).1 ((hst w hw).1 hl)
      · rw [if_neg hl]
        refine ((i3 w hw).2 fun uv h e => ?_).trans ((hst w hw).2 hl)
        obtain ⟨w', hw', rfl⟩ := List.mem_map.1 h
        rw [List.append_nil] at e
        subst e
        exact hl (hmem _ hw').2

/-- C100.  If one of the two comparisons panics, the vector is as it was. -/
theorem C100_inplace_compare (h2 : 2 ≤ N) (a b : Dense S) (da D : Nat) (ha : FullTo N a da) (x : S) (hx : b.data = [x])
    (h : F.eq x F.zero = .panic ∨ (F.eq x F.zero = .ok false ∧ F.eq x F.one = .panic)) (T : Type) (func : ClosureU S T) (t : T) :
    mulIntoF F p N func b (some D) (a, t) = (.panic, (a, t)) := by
  have ho : offsetAssignF F b = .panic := by
    unfold offsetAssignF
    rw [hx]
    rcases h with h | ⟨h, h'⟩
    · simp only [List.getElem?_cons_zero, h]
      rfl
    · simp only [List.getElem?_cons_zero, h, h']
      rfl
  rw [mulIntoF_const F p N h2 a b da D ha x hx func t, ho]
  rfl

/-- C100.  With coefficients that never panic this is the product in place of `C95`, for all operands. -/
theorem C100_inplace_total {T : Type} (C : Coeff S R) (func : ClosureU S T) (s b : Dense S) (D : Option Nat) (t : T) :
    mulIntoF (.ofCoeff C) p N func b D (s, t) = mulIntoU C p N func b D (s, t) := by
  have h2 : (growToF (.ofCoeff C) p N : Nat → Unw (Dense S × T) Unit) = growToU C p N := by
    funext m st
    exact growToF_eq (FCoeff.ofCoeff C) p N m st
  have h3 : offsetAssignF (.ofCoeff C) b = .ok (offsetAssign C b) := by
    unfold offsetAssignF offsetAssign FCoeff.ofCoeff
    cases b.data[0]? with
    | none => rfl
    | some v =>
      simp only [Res.bind_ok]
      cases C.eq v C.zero
      · cases C.eq v C.one <;> rfl
      · rfl
  have h4 : (mulIntoDegreeF (.ofCoeff C) p N func b : Nat → Bool → Nat → Nat → Unit → Nat → Unw (Dense S × T) Unit) = mulIntoDegreeU C p N func b := by
    funext off as da db u o
    exact mulIntoDegreeF_total p N C func b off as da db u o
  unfold mulIntoF mulIntoU
  rw [h2, h3, h4]
  rfl

/-! ## Examples -/

/-- `(9 + 9 e1 + 40 e2) * 3`, where the third coefficient is out of range. -/
example : mulIntoF checkedInt .debug 2 (fun (t : Unit) x => (.ok x, t)) (.ofVec [3]) (some 5) (.ofVec [9, 9, 40], ()) =
    (.panic, (.ofVec [9, 27, 40], ())) := by decide +kernel

example : ∃ left : Dense Int, mulIntoF checkedInt .debug 2 (fun (t : Unit) x => (.ok x, t)) (.ofVec [3]) (some 5) (.ofVec [9, 9, 40], ()) =
    (.panic, (left, ())) ∧ left.size = 3 ∧ stored 2 left [1] = some 27 ∧ stored 2 left [2] = some 40 := by
  obtain ⟨left, h1, h2, h3⟩ := C100_inplace_scalar checkedInt .debug 2 (by omega) (.ofVec [9, 9, 40]) (.ofVec [3]) 1 5 ⟨rfl, by decide⟩ 3 rfl rfl rfl Unit
    (fun t x => (.ok x, t)) () _ rfl
  refine ⟨left, h1.trans ?_, h2, ?_, ?_⟩
  · rw [Prod.mk.injEq]
    exact ⟨by decide +kernel, rfl⟩
  · rw [h3 [1] (by simp [ValidWord])]
    decide +kernel
  · rw [h3 [2] (by simp [ValidWord])]
    decide +kernel

/-- Coefficients whose comparison panics. -/
example : mulIntoF { checkedInt with eq := fun _ _ => .panic } .release 2 (fun (t : Unit) x => (.ok x, t)) (.ofVec [3]) (some 5) (.ofVec [9, 9, 40], ()) =
    (.panic, (.ofVec [9, 9, 40], ())) :=
  C100_inplace_compare { checkedInt with eq := fun _ _ => .panic } .release 2 (by omega) (.ofVec [9, 9, 40]) (.ofVec [3]) 1 5 ⟨rfl, by decide⟩ 3 rfl
    (.inl rfl) Unit _ ()

end
end RA
