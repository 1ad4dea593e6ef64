import Verif.Proofs.Algebra

/-!
# Lemmas about `multiply_into_impl` (dense.rs:322-418)
-/

namespace RA
open Spec

namespace DenseAlg
variable {S R : Type} (C : Coeff S R) (p : Profile) (N : Nat)

theorem sliceUnchecked_cases (l : List S) (r : Nat × Nat) : (∃ o, sliceUnchecked l r = .ok o ∧ o.length = r.2 - r.1) ∨ sliceUnchecked l r = .ub := by
  by_cases h : r.1 ≤ r.2 ∧ r.2 ≤ l.length
  · obtain ⟨o, h1, h3, _⟩ := sliceUnchecked_ok l r h.1 h.2
    exact Or.inl ⟨o, h1, h3⟩
  · right
    unfold sliceUnchecked
    rw [if_neg h]

/-- Reading the left factor beyond the split point is undefined behaviour. -/
theorem splitMul_ub_lhs (f : S → S) (s b : Dense S) (mid : Nat) (ro rl rr : Nat × Nat) (hm : mid ≤ s.data.length) (h : mid < rl.2) :
    splitMul C s b f mid ro rl rr = .ub := by
  unfold splitMul
  simp only [Dense.makeMut_data]
  rw [if_pos hm]
  have hl : sliceUnchecked (s.data.take mid) rl = .ub := sliceUnchecked_ub _ _ (by rw [List.length_take]; omega)
  rcases sliceUnchecked_cases (s.data.drop mid) ro with ⟨o, ho, _⟩ | ho
  · rw [ho]
    simp only [Res.bind_ok]
    rw [hl]
    rfl
  · rw [ho]
    rfl

/-- A product larger than the target slice is undefined behaviour. -/
theorem splitMul_ub_out (f : S → S) (s b : Dense S) (mid : Nat) (ro rl rr : Nat × Nat) (hm : mid ≤ s.data.length)
    (h : ro.2 - ro.1 < (rl.2 - rl.1) * (rr.2 - rr.1)) : splitMul C s b f mid ro rl rr = .ub := by
  unfold splitMul
  simp only [Dense.makeMut_data]
  rw [if_pos hm]
  rcases sliceUnchecked_cases (s.data.drop mid) ro with ⟨o, ho, lo⟩ | ho
  · rw [ho]
    simp only [Res.bind_ok]
    rcases sliceUnchecked_cases (s.data.take mid) rl with ⟨l, hl, ll⟩ | hl
    · rw [hl]
      simp only [Res.bind_ok]
      rcases sliceUnchecked_cases b.data rr with ⟨r, hr, lr⟩ | hr
      · rw [hr]
        simp only [Res.bind_ok]
        rw [mulIntoBuffer_ub C f o l r (by rw [lo, ll, lr]; exact h)]
        rfl
      · rw [hr]
        rfl
    · rw [hl]
      rfl
  · rw [ho]
    rfl

theorem growTo_same (h2 : 2 ≤ N) (s : Dense S) (ds m : Nat) (hds : DegIs N s ds) (hps : N ^ (ds + 1) < 2 ^ 64)
    (hs : geomSum N (m + 1) ≤ s.data.length) : growTo C p N s m = .ok s := by
  unfold growTo
  rw [degree_ok p N h2 s ds hds hps]
  simp only [Res.bind_ok]
  rw [if_neg]
  · rfl
  · intro hlt
    have h3 := hds.length_le
    have := geomSum_strict (N := N) (a := ds + 1) (b := m + 1) (by omega) (by omega)
    omega

/-- Both operands with representable degree: `multiply_into_impl` is its loop over the grown vector. -/
theorem mulInto_eq (h2 : 2 ≤ N) (f : S → S) (s b s1 : Dense S) (da db D : Nat) (hds : DegIs N s da) (hdb : DegIs N b db)
    (hpa : N ^ (da + 1) < 2 ^ 64) (hpb : N ^ (db + 1) < 2 ^ 64) (hg : growTo C p N s (min D (da + db)) = .ok s1) :
    mulInto C p N s b f (some D) =
      (List.range' 1 (min D (da + db))).reverse.foldlM (mulIntoDegree C p N b f (offsetAssign C b).1 (offsetAssign C b).2 da db) s1 := by
  have b1 := TensorBasis.deg_lt64 h2 hpa
  have b2 := TensorBasis.deg_lt64 h2 hpb
  unfold mulInto
  rw [degree_ok p N h2 s da hds hpa, degree_ok p N h2 b db hdb hpb]
  simp only [Res.bind_ok]
  rw [maxDeg_ok p D da db (by omega)]
  simp only [Res.bind_ok]
  rw [hg]
  rfl

theorem range'_reverse_head (m : Nat) (hm : 1 ≤ m) : (List.range' 1 m).reverse = m :: (List.range' 1 (m - 1)).reverse := by
  obtain ⟨k, rfl⟩ : ∃ k, m = k + 1 := ⟨m - 1, by omega⟩
  rw [List.range'_concat, List.reverse_append, List.reverse_singleton, List.singleton_append]
  congr 1
  omega

theorem offsetAssign_cases (b : Dense S) :
    offsetAssign C b = (1, true) ∨ offsetAssign C b = (1, false) ∨ offsetAssign C b = (0, true) := by
  unfold offsetAssign
  split
  · split_ifs <;> simp
  · simp

/-- `rhs` has constant term 0: the first turn of the loop is undefined behaviour. -/
theorem mulIntoDegree_ub_zero (h2 : 2 ≤ N) (f : S → S) (s b : Dense S) (da db o : Nat) (hp : N ^ (o + 1) < 2 ^ 64) (ho : 1 ≤ o) (hdb : db ≤ o)
    (hs : geomSum N (o + 1) ≤ s.data.length) : mulIntoDegree C p N b f 1 true da db s o = .ub := by
  have hm := geomSum_mono (N := N) (a := min (o - 1) da) (b := o + 1) (by omega)
  have hm2 := geomSum_strict (N := N) (a := min (o - 1) da) (b := min (o - 1) da + 1) (by omega) (by omega)
  have hu : mulIntoAssign C p N b f 1 o (min (o - 1) da) s = .ub := by
    unfold mulIntoAssign
    rw [subW_ok (by omega)]
    simp only [Res.bind_ok]
    rw [degreeRange_ok p N h2 (o - min (o - 1) da) (TensorBasis.pow_lt64_mono h2 (by omega) hp), degreeRange_ok p N h2 o hp,
      degreeRange_ok p N h2 (min (o - 1) da) (TensorBasis.pow_lt64_mono h2 (by omega) hp),
      TensorBasis.startOfDegree_ok p N h2 (min (o - 1) da) (TensorBasis.pow_lt64_mono h2 (by omega) hp)]
    simp only [Res.bind_ok, if_true]
    exact splitMul_ub_lhs C f s b _ _ _ _ (by omega) hm2
  unfold mulIntoDegree
  rw [subW_ok hdb, subW_ok ho]
  simp only [Res.bind_ok, if_true]
  rw [hu]
  rfl

/-- `rhs` has constant term 1 and degree at least 1: the first turn of the loop is undefined behaviour. -/
theorem mulIntoDegree_ub_one (h2 : 2 ≤ N) (f : S → S) (s b : Dense S) (da db o : Nat) (hp : N ^ (o + 1) < 2 ^ 64) (ho : 1 ≤ o) (hdb : db ≤ o)
    (h1 : 1 ≤ db) (hod : o ≤ da + db) (hs : geomSum N (o + 1) ≤ s.data.length) : mulIntoDegree C p N b f 1 false da db s o = .ub := by
  have hm := geomSum_mono (N := N) (a := min (o - 1) da) (b := o + 1) (by omega)
  have hm2 := geomSum_strict (N := N) (a := min (o - 1) da) (b := min (o - 1) da + 1) (by omega) (by omega)
  have hu : mulIntoStep C p N b f o (min (o - 1) da) s (min (o - 1) da) = .ub := by
    unfold mulIntoStep
    rw [subW_ok (by omega)]
    simp only [Res.bind_ok]
    rw [degreeRange_ok p N h2 (o - min (o - 1) da) (TensorBasis.pow_lt64_mono h2 (by omega) hp),
      degreeRange_ok p N h2 (min (o - 1) da) (TensorBasis.pow_lt64_mono h2 (by omega) hp),
      TensorBasis.startOfDegree_ok p N h2 (min (o - 1) da) (TensorBasis.pow_lt64_mono h2 (by omega) hp)]
    simp only [Res.bind_ok]
    exact splitMul_ub_lhs C f s b _ _ _ _ (by omega) hm2
  unfold mulIntoDegree
  rw [subW_ok hdb, subW_ok ho]
  simp only [Res.bind_ok, Bool.false_eq_true, if_false]
  rw [subW_ok (Nat.zero_le _)]
  simp only [Res.bind_ok, Nat.sub_zero]
  rw [show min (o - 1) da + 1 - (o - db) = (min (o - 1) da - (o - db)) + 1 by omega, List.range'_concat, List.reverse_append,
    List.reverse_singleton, List.singleton_append, List.foldlM_cons,
    show o - db + 1 * (min (o - 1) da - (o - db)) = min (o - 1) da by omega, hu]
  rfl

/-- The in-place scaling pass of `offset = 0`. -/
theorem mulIntoAssign_ok (h2 : 2 ≤ N) (f : S → S) (s b : Dense S) (o m : Nat) (hp : N ^ (o + 1) < 2 ^ 64) (hm : m ≤ o)
    (hs : geomSum N (o + 1) ≤ s.data.length) (hb : geomSum N (o - m + 1) ≤ b.data.length) :
    ∃ r s', sliceUnchecked b.data (geomSum N (o - m), geomSum N (o - m + 1)) = .ok r ∧
      mulIntoAssign C p N b f 0 o m s = .ok s' ∧ s'.data.length = s.data.length ∧
      ∀ w, ValidWord N w → at? N s'.data w =
        if w.length = o then (at? N s.data w).map (fun x => r.foldl (fun o r => f (C.mul o r)) x) else at? N s.data w := by
  have hmono := geomSum_mono (N := N) (a := o) (b := o + 1) (by omega)
  obtain ⟨so, ho1, ho2, ho3⟩ := sliceUnchecked_ok s.data (geomSum N o, geomSum N (o + 1)) (by simp only; omega) hs
  obtain ⟨sb, hb1, hb2, hb3⟩ := sliceUnchecked_ok b.data (geomSum N (o - m), geomSum N (o - m + 1)) (geomSum_mono (by omega)) hb
  simp only at ho2 ho3
  refine ⟨sb, s.makeMut.writeSlice (replaceRange s.makeMut.data (geomSum N o, geomSum N (o + 1)) (mulInplaceBuffer C so sb f)), hb1, ?_, ?_, ?_⟩
  · unfold mulIntoAssign
    rw [subW_ok hm]
    simp only [Res.bind_ok]
    rw [degreeRange_ok p N h2 (o - m) (TensorBasis.pow_lt64_mono h2 (by omega) hp), degreeRange_ok p N h2 o hp]
    simp only [Res.bind_ok, Nat.zero_ne_one, if_false]
    rw [Dense.makeMut_data, ho1]
    simp only [Res.bind_ok]
    rw [hb1]
    rfl
  · rw [Dense.writeSlice_data, replaceRange_length _ _ _ (by simp only; omega) (by simpa using hs) (by
      unfold mulInplaceBuffer
      rw [List.length_map]
      exact ho2)]
    simp
  · intro w hw
    have ⟨b1, b2⟩ := wordIndex_bounds hw
    rw [Dense.writeSlice_data]
    unfold at?
    rw [replaceRange_getElem _ _ _ (by simp only; omega) (by simpa using hs) (by
      unfold mulInplaceBuffer
      rw [List.length_map]
      exact ho2), Dense.makeMut_data]
    simp only
    by_cases hlen : w.length = o
    · rw [hlen] at b1 b2
      rw [if_pos hlen, if_pos ⟨b1, b2⟩]
      unfold mulInplaceBuffer
      rw [List.getElem?_map, ho3 _ (by omega), show geomSum N o + (wordIndex N w - geomSum N o) = wordIndex N w by omega]
    · rw [if_neg hlen, if_neg]
      rintro ⟨q1, q2⟩
      rcases Nat.lt_or_gt_of_ne hlen with h | h
      · have : geomSum N (w.length + 1) ≤ geomSum N o := geomSum_mono (by omega)
        omega
      · have : geomSum N (o + 1) ≤ geomSum N w.length := geomSum_mono (by omega)
        omega

/-- `offset = 0`: a turn whose inner loop meets a left degree of at least 1 is undefined behaviour. -/
theorem mulIntoDegree_ub_other (h2 : 2 ≤ N) (f : S → S) (s b : Dense S) (da db o : Nat) (hp : N ^ (o + 1) < 2 ^ 64) (hda : 2 ≤ da) (ho : 2 ≤ o)
    (hdb : db ≤ o) (h1 : 1 ≤ db) (hod : o < da + db) (hs : geomSum N (o + 1) ≤ s.data.length)
    (hb : geomSum N (db + 1) ≤ b.data.length) : mulIntoDegree C p N b f 0 true da db s o = .ub := by
  obtain ⟨_, s1, _, e1, l1, _⟩ := mulIntoAssign_ok C p N h2 f s b o (min o da) hp (by omega) hs
    (by have := geomSum_mono (N := N) (a := o - min o da + 1) (b := db + 1) (by omega); omega)
  have hmono := geomSum_mono (N := N) (a := min o da) (b := o + 1) (by omega)
  have hu : mulIntoStep C p N b f o (min o da) s1 (min o da - 1) = .ub := by
    unfold mulIntoStep
    rw [subW_ok (by omega)]
    simp only [Res.bind_ok]
    rw [degreeRange_ok p N h2 (o - (min o da - 1)) (TensorBasis.pow_lt64_mono h2 (by omega) hp),
      degreeRange_ok p N h2 (min o da - 1) (TensorBasis.pow_lt64_mono h2 (by omega) hp),
      TensorBasis.startOfDegree_ok p N h2 (min o da) (TensorBasis.pow_lt64_mono h2 (by omega) hp)]
    simp only [Res.bind_ok]
    refine splitMul_ub_out C f s1 b _ _ _ _ (by omega) ?_
    simp only [geomSum, Nat.add_sub_cancel_left]
    have hk : 2 ≤ N ^ (min o da - 1) := by
      have := Nat.pow_le_pow_right (n := N) (by omega) (show 1 ≤ min o da - 1 by omega)
      rw [Nat.pow_one] at this
      omega
    have hpos : 0 < N ^ (o - (min o da - 1)) := Nat.pow_pos (by omega)
    have := Nat.mul_le_mul_right (N ^ (o - (min o da - 1))) hk
    omega
  unfold mulIntoDegree
  rw [subW_ok hdb, subW_ok (Nat.zero_le _)]
  simp only [Res.bind_ok, Nat.sub_zero, if_true]
  rw [e1]
  simp only [Res.bind_ok]
  rw [subW_ok (by omega)]
  simp only [Res.bind_ok]
  rw [show min o da - 1 + 1 - (o - db) = (min o da - 1 - (o - db)) + 1 by omega, List.range'_concat, List.reverse_append,
    List.reverse_singleton, List.singleton_append, List.foldlM_cons,
    show o - db + 1 * (min o da - 1 - (o - db)) = min o da - 1 by omega, hu]
  rfl

/-- `offset = 0`: the turn for the top degree `da + db` only scales. -/
theorem mulIntoDegree_top (h2 : 2 ≤ N) (f : S → S) (s b : Dense S) (da db : Nat) (hp : N ^ (da + db + 1) < 2 ^ 64) (hda : 1 ≤ da)
    (hs : geomSum N (da + db + 1) ≤ s.data.length) (hb : geomSum N (db + 1) ≤ b.data.length) :
    ∃ s', mulIntoDegree C p N b f 0 true da db s (da + db) = .ok s' ∧ s'.data.length = s.data.length := by
  obtain ⟨_, s1, _, e1, l1, _⟩ := mulIntoAssign_ok C p N h2 f s b (da + db) (min (da + db) da) hp (by omega) hs
    (by rw [show da + db - min (da + db) da = db by omega]; exact hb)
  refine ⟨s1, ?_, l1⟩
  unfold mulIntoDegree
  rw [subW_ok (by omega), subW_ok (Nat.zero_le _)]
  simp only [Res.bind_ok, Nat.sub_zero, if_true]
  rw [e1]
  simp only [Res.bind_ok]
  rw [subW_ok (by omega)]
  simp only [Res.bind_ok]
  rw [show min (da + db) da - 1 + 1 - (da + db - db) = 0 by omega]
  rfl

/-- `rhs` of degree 0 (`offset = 1`, constant term 1): nothing happens. -/
theorem mulIntoDegree_one_const (f : S → S) (s b : Dense S) (da o : Nat) (ho : 1 ≤ o) :
    mulIntoDegree C p N b f 1 false da 0 s o = .ok s := by
  unfold mulIntoDegree
  rw [subW_ok (Nat.zero_le _), subW_ok ho]
  simp only [Res.bind_ok, Bool.false_eq_true, if_false, Nat.sub_zero]
  rw [subW_ok (Nat.zero_le _)]
  simp only [Res.bind_ok, Nat.sub_zero]
  rw [show min (o - 1) da + 1 - o = 0 by omega]
  rfl

/-- `rhs` of degree 0 with another constant: the entries of degree `o` are scaled. -/
theorem mulIntoDegree_const (h2 : 2 ≤ N) (f : S → S) (s : Dense S) (c : S) (rest : List S) (b : Dense S) (hb : b.data = c :: rest) (da o : Nat)
    (hp : N ^ (o + 1) < 2 ^ 64) (ho : 1 ≤ o) (hod : o ≤ da) (hs : geomSum N (o + 1) ≤ s.data.length) :
    ∃ s', mulIntoDegree C p N b f 0 true da 0 s o = .ok s' ∧ s'.data.length = s.data.length ∧
      ∀ w, ValidWord N w → at? N s'.data w = if w.length = o then (at? N s.data w).map (fun x => f (C.mul x c)) else at? N s.data w := by
  have g1 : geomSum N 1 = 1 := by simp [geomSum]
  obtain ⟨r, s1, hr, e1, l1, g⟩ := mulIntoAssign_ok C p N h2 f s b o (min o da) hp (by omega) hs
    (by rw [show o - min o da + 1 = 1 by omega, g1, hb]; simp)
  have hrc : r = [c] := by
    rw [show o - min o da = 0 by omega] at hr
    simp only [Nat.zero_add, g1, show geomSum N 0 = 0 from rfl, hb] at hr
    unfold sliceUnchecked at hr
    rw [if_pos (by simp)] at hr
    injection hr with hr
    rw [← hr]
    simp
  subst hrc
  refine ⟨s1, ?_, l1, g⟩
  unfold mulIntoDegree
  rw [subW_ok (Nat.zero_le _)]
  simp only [Res.bind_ok, Nat.sub_zero, if_true]
  rw [e1]
  simp only [Res.bind_ok]
  rw [subW_ok (by omega)]
  simp only [Res.bind_ok]
  rw [show min o da - 1 + 1 - o = 0 by omega]
  rfl

theorem mulIntoLoop_const (h2 : 2 ≤ N) (f : S → S) (s : Dense S) (c : S) (rest : List S) (b : Dense S) (hb : b.data = c :: rest) (da m : Nat)
    (hp : N ^ (m + 1) < 2 ^ 64) (hod : m ≤ da) (hs : geomSum N (m + 1) ≤ s.data.length) (L : List Nat) (hL : ∀ o ∈ L, 1 ≤ o ∧ o ≤ m)
    (hnd : L.Nodup) :
    ∃ s', L.foldlM (mulIntoDegree C p N b f 0 true da 0) s = .ok s' ∧ s'.data.length = s.data.length ∧
      ∀ w, ValidWord N w → at? N s'.data w = if w.length ∈ L then (at? N s.data w).map (fun x => f (C.mul x c)) else at? N s.data w := by
  induction L generalizing s with
  | nil => exact ⟨s, rfl, rfl, fun w _ => by simp⟩
  | cons o L ih =>
    rw [List.nodup_cons] at hnd
    have ho := hL o (by simp)
    obtain ⟨s1, h1, h3, h4⟩ := mulIntoDegree_const C p N h2 f s c rest b hb da o (TensorBasis.pow_lt64_mono h2 (by omega) hp) (by omega)
      (by omega) (by have := geomSum_mono (N := N) (a := o + 1) (b := m + 1) (by omega); omega)
    obtain ⟨s', h5, h6, h7⟩ := ih s1 (by omega) (fun o ho => hL o (by simp [ho])) hnd.2
    refine ⟨s', by rw [List.foldlM_cons, h1, Res.bind_ok, h5], by omega, fun w hw => ?_⟩
    rw [h7 w hw, h4 w hw]
    by_cases hwo : w.length = o
    · rw [if_neg (by rw [hwo]; exact hnd.1), if_pos hwo, if_pos (by simp [hwo])]
    · rw [if_neg hwo]
      simp [hwo]

end DenseAlg
end RA
