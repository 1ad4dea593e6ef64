import Verif.Props.Exact

/-!
# In-place products of dense tensors, all cases (C37)
-/

namespace RA
open Spec TensorKey TensorBasis DenseAlg

namespace DenseAlg
variable {S R : Type} (C : Coeff S R) (p : Profile) (N : Nat)

theorem geomSum_one : geomSum N 1 = 1 := by simp [geomSum]

theorem geomSum_two : geomSum N 2 = N + 1 := by simp [geomSum]; omega

/-- The scaling pass, index by index. -/
theorem mulIntoAssign_idx (h2 : 2 ≤ N) (f : S → S) (s b : Dense S) (o m : Nat) (hp : N ^ (o + 1) < 2 ^ 64) (hm : m ≤ o)
    (hs : geomSum N (o + 1) ≤ s.data.length) (hb : geomSum N (o - m + 1) ≤ b.data.length) :
    ∃ r s', sliceUnchecked b.data (geomSum N (o - m), geomSum N (o - m + 1)) = .ok r ∧
      mulIntoAssign C p N b f 0 o m s = .ok s' ∧ s'.data.length = s.data.length ∧
      ∀ i, s'.data[i]? = if geomSum N o ≤ i ∧ i < geomSum N (o + 1) then (s.data[i]?).map (fun x => r.foldl (fun o r => f (C.mul o r)) x)
        else s.data[i]? := by
  have hmono := geomSum_mono (N := N) (a := o) (b := o + 1) (by omega)
  obtain ⟨so, ho1, ho2, ho3⟩ := sliceUnchecked_ok s.data (geomSum N o, geomSum N (o + 1)) (by simp only; omega) hs
  obtain ⟨sb, hb1, hb2, hb3⟩ := sliceUnchecked_ok b.data (geomSum N (o - m), geomSum N (o - m + 1)) (geomSum_mono (by omega)) hb
  simp only at ho2 ho3
  have hl : (mulInplaceBuffer C so sb f).length = geomSum N (o + 1) - geomSum N o := by
    unfold mulInplaceBuffer
    rw [List.length_map]
    exact ho2
  refine ⟨sb, s.makeMut.writeSlice (replaceRange s.makeMut.data (geomSum N o, geomSum N (o + 1)) (mulInplaceBuffer C so sb f)), hb1, ?_, ?_, ?_⟩
  · unfold mulIntoAssign
    rw [subW_ok hm]
    simp only [Res.bind_ok]
    rw [degreeRange_ok p N h2 (o - m) (TensorBasis.pow_lt64_mono h2 (by omega) hp), degreeRange_ok p N h2 o hp]
    simp only [Res.bind_ok, Nat.zero_ne_one, if_false]
    rw [Dense.makeMut_data, ho1]
    simp only [Res.bind_ok]
    rw [hb1]
    rfl
  · rw [Dense.writeSlice_data, replaceRange_length _ _ _ (by simp only; omega) (by simpa using hs) hl]
    simp
  · intro i
    rw [Dense.writeSlice_data, replaceRange_getElem _ _ _ (by simp only; omega) (by simpa using hs) hl, Dense.makeMut_data]
    simp only
    by_cases hi : geomSum N o ≤ i ∧ i < geomSum N (o + 1)
    · rw [if_pos hi, if_pos hi]
      unfold mulInplaceBuffer
      rw [List.getElem?_map, ho3 _ (by omega), show geomSum N o + (i - geomSum N o) = i by omega]
    · rw [if_neg hi, if_neg hi]

/-- The inner loop body for the constant term of `self`, split at index 1: the products go one place to the right of where they belong. -/
theorem mulIntoStep_zero (h2 : 2 ≤ N) (f : S → S) (s b : Dense S) (o : Nat) (ho : 1 ≤ o) (hp : N ^ (o + 1) < 2 ^ 64)
    (hs : geomSum N (o + 1) + 1 ≤ s.data.length) (hb : geomSum N (o + 1) ≤ b.data.length) :
    ∃ s', mulIntoStep C p N b f o 1 s 0 = .ok s' ∧ s'.data.length = s.data.length ∧ s'.data[0]? = s.data[0]? ∧
      (∀ i x y, s.data[0]? = some x → b.data[i]? = some y →
        s'.data[i + 1]? = if geomSum N o ≤ i ∧ i < geomSum N (o + 1) then (s.data[i + 1]?).map (fun z => C.add z (f (C.mul x y)))
          else s.data[i + 1]?) ∧
      ∀ i, geomSum N (o + 1) ≤ i → s'.data[i + 1]? = s.data[i + 1]? := by
  have hmono := geomSum_mono (N := N) (a := o) (b := o + 1) (by omega)
  obtain ⟨so, ho1, ho2, ho3⟩ := sliceUnchecked_ok (s.data.drop 1) (geomSum N o, geomSum N (o + 1)) (by simp only; omega)
    (by simp only [List.length_drop]; omega)
  obtain ⟨sl, hl1, hl2, hl3⟩ := sliceUnchecked_ok (s.data.take 1) (0, 1) (by simp) (by simp only [List.length_take]; omega)
  obtain ⟨sb, hb1, hb2, hb3⟩ := sliceUnchecked_ok b.data (geomSum N o, geomSum N (o + 1)) (by simp only; omega) (by simp only; omega)
  simp only at ho2 ho3 hl2 hl3 hb2 hb3
  obtain ⟨o', m1, m2, m3, m4⟩ := mulIntoBuffer_ok C f so sl sb (by rw [hl2, hb2, ho2]; omega)
  have hstep : mulIntoStep C p N b f o 1 s 0 = splitMul C s b f 1 (geomSum N o, geomSum N (o + 1)) (0, 1) (geomSum N o, geomSum N (o + 1)) := by
    unfold mulIntoStep
    rw [subW_ok (Nat.zero_le _)]
    simp only [Res.bind_ok, Nat.sub_zero]
    rw [degreeRange_ok p N h2 o hp, degreeRange_ok p N h2 0 (TensorBasis.pow_lt64_mono h2 (by omega) hp),
      TensorBasis.startOfDegree_ok p N h2 1 (TensorBasis.pow_lt64_mono h2 (by omega) hp)]
    simp only [Res.bind_ok, Nat.zero_add, geomSum_one]
    rfl
  refine ⟨s.makeMut.writeSlice (s.data.take 1 ++ replaceRange (s.data.drop 1) (geomSum N o, geomSum N (o + 1)) o'), ?_, ?_, ?_, ?_, ?_⟩
  · rw [hstep]
    unfold splitMul
    simp only [Dense.makeMut_data]
    rw [if_pos (by omega), ho1]
    simp only [Res.bind_ok]
    rw [hl1]
    simp only [Res.bind_ok]
    rw [hb1]
    simp only [Res.bind_ok]
    rw [m1]
    rfl
  · rw [Dense.writeSlice_data, List.length_append, replaceRange_length _ _ _ (by simp only; omega) (by simp only [List.length_drop]; omega)
      (by simp only; omega), List.length_take, List.length_drop]
    omega
  · rw [Dense.writeSlice_data, List.getElem?_append_left (by rw [List.length_take]; omega), List.getElem?_take, if_pos (by omega)]
  · intro i x y hx hy
    rw [Dense.writeSlice_data, List.getElem?_append_right (by rw [List.length_take]; omega), List.length_take, Nat.min_eq_left (by omega),
      Nat.add_sub_cancel, replaceRange_getElem _ _ _ (by simp only; omega) (by simp only [List.length_drop]; omega) (by simp only; omega)]
    simp only
    by_cases hi : geomSum N o ≤ i ∧ i < geomSum N (o + 1)
    · rw [if_pos hi, if_pos hi]
      have := m3 0 (i - geomSum N o) x y (by rw [hl3 0 (by omega), List.getElem?_take, if_pos (by omega)]; exact hx)
        (by rw [hb3 _ (by omega), show geomSum N o + (i - geomSum N o) = i by omega]; exact hy)
      rw [Nat.zero_mul, Nat.zero_add, ho3 _ (by omega), show geomSum N o + (i - geomSum N o) = i by omega, List.getElem?_drop, Nat.add_comm 1 i]
        at this
      exact this
    · rw [if_neg hi, if_neg hi, List.getElem?_drop, Nat.add_comm 1 i]
  · intro i hi
    rw [Dense.writeSlice_data, List.getElem?_append_right (by rw [List.length_take]; omega), List.length_take, Nat.min_eq_left (by omega),
      Nat.add_sub_cancel, replaceRange_getElem _ _ _ (by simp only; omega) (by simp only [List.length_drop]; omega) (by simp only; omega)]
    simp only
    rw [if_neg (by omega), List.getElem?_drop, Nat.add_comm 1 i]

/-- The same without room for the shift by one. -/
theorem mulIntoStep_zero_ub (h2 : 2 ≤ N) (f : S → S) (s b : Dense S) (o : Nat) (ho : 1 ≤ o) (hp : N ^ (o + 1) < 2 ^ 64)
    (hs : s.data.length = geomSum N (o + 1)) : mulIntoStep C p N b f o 1 s 0 = .ub := by
  have hpos := geomSum_pos (N := N) (d := o + 1) (by omega)
  unfold mulIntoStep
  rw [subW_ok (Nat.zero_le _)]
  simp only [Res.bind_ok, Nat.sub_zero]
  rw [degreeRange_ok p N h2 o hp, degreeRange_ok p N h2 0 (TensorBasis.pow_lt64_mono h2 (by omega) hp),
    TensorBasis.startOfDegree_ok p N h2 1 (TensorBasis.pow_lt64_mono h2 (by omega) hp)]
  simp only [Res.bind_ok, Nat.zero_add, geomSum_one]
  unfold splitMul
  simp only [Dense.makeMut_data]
  rw [if_pos (by omega), sliceUnchecked_ub _ _ (by simp only [List.length_drop]; omega)]
  rfl

/-- A turn of the outer loop, scaling case, that meets only the constant term of `self`. -/
theorem mulIntoDegree_low (f : S → S) (s s1 b : Dense S) (da o : Nat) (_ : 1 ≤ o) (hda : min o da = 1)
    (h1 : mulIntoAssign C p N b f 0 o 1 s = .ok s1) : mulIntoDegree C p N b f 0 true da o s o = mulIntoStep C p N b f o 1 s1 0 := by
  unfold mulIntoDegree
  rw [subW_ok (Nat.le_refl o), subW_ok (Nat.zero_le _)]
  simp only [Res.bind_ok, Nat.sub_zero, if_true, Nat.sub_self]
  rw [hda, h1]
  simp only [Res.bind_ok]
  rw [subW_ok (Nat.le_refl 1)]
  simp only [Res.bind_ok, Nat.sub_self, Nat.zero_add]
  show List.foldlM _ s1 (List.range' 0 1).reverse = _
  simp only [List.range'_one, List.reverse_singleton, List.foldlM_cons, List.foldlM_nil]
  cases mulIntoStep C p N b f o 1 s1 0 <;> rfl

/-- The turn for the top degree `da + db`, index by index. -/
theorem mulIntoDegree_top_idx (h2 : 2 ≤ N) (f : S → S) (s b : Dense S) (da db : Nat) (hp : N ^ (da + db + 1) < 2 ^ 64) (hda : 1 ≤ da)
    (hs : geomSum N (da + db + 1) ≤ s.data.length) (hb : geomSum N (db + 1) ≤ b.data.length) :
    ∃ r s', mulIntoDegree C p N b f 0 true da db s (da + db) = .ok s' ∧ s'.data.length = s.data.length ∧
      ∀ i, s'.data[i]? = if geomSum N (da + db) ≤ i ∧ i < geomSum N (da + db + 1) then
        (s.data[i]?).map (fun x => List.foldl (fun o r => f (C.mul o r)) x r) else s.data[i]? := by
  obtain ⟨r, s1, _, e1, l1, g⟩ := mulIntoAssign_idx C p N h2 f s b (da + db) (min (da + db) da) hp (by omega) hs
    (by rw [show da + db - min (da + db) da = db by omega]; exact hb)
  refine ⟨r, s1, ?_, l1, g⟩
  unfold mulIntoDegree
  rw [subW_ok (by omega), subW_ok (Nat.zero_le _)]
  simp only [Res.bind_ok, Nat.sub_zero, if_true]
  rw [e1]
  simp only [Res.bind_ok]
  rw [subW_ok (by omega)]
  simp only [Res.bind_ok]
  rw [show min (da + db) da - 1 + 1 - (da + db - db) = 0 by omega]
  rfl

/-- A left factor of degree 0: after scaling, `lhs_deg_max - 1` underflows. -/
theorem mulIntoDegree_lhs_zero (h2 : 2 ≤ N) (f : S → S) (s b : Dense S) (o : Nat) (hp : N ^ (o + 1) < 2 ^ 64)
    (hs : geomSum N (o + 1) ≤ s.data.length) (hb : geomSum N (o + 1) ≤ b.data.length) :
    mulIntoDegree C .debug N b f 0 true 0 o s o = .panic := by
  obtain ⟨_, s1, _, e1, _⟩ := mulIntoAssign_idx C .debug N h2 f s b o 0 hp (by omega) hs hb
  unfold mulIntoDegree
  rw [subW_ok (Nat.le_refl o), subW_ok (Nat.zero_le _)]
  simp only [Res.bind_ok, Nat.sub_zero, if_true]
  rw [show min o 0 = 0 by omega, e1]
  rfl

/-- A turn below the degree of `rhs` underflows. -/
theorem mulIntoDegree_below (f : S → S) (s b : Dense S) (c : Nat) (t : Bool) (da db o : Nat) (h : o < db) :
    mulIntoDegree C .debug N b f c t da db s o = .panic := by
  unfold mulIntoDegree subW
  rw [if_neg (by omega)]
  rfl

/-- The last turn, for a right factor of degree 1 with constant term `x`. -/
theorem mulIntoDegree_last (h2 : 2 ≤ N) (f : S → S) (s b : Dense S) (x : S) (rest : List S) (hx : b.data = x :: rest) (da : Nat) (hda : 1 ≤ da)
    (hp : N ^ 2 < 2 ^ 64) (hs : N + 2 ≤ s.data.length) (hb : b.data.length = N + 1) :
    ∃ s', mulIntoDegree C p N b f 0 true da 1 s 1 = .ok s' ∧ s'.data.length = s.data.length ∧ s'.data[0]? = s.data[0]? ∧
      (∀ i a0 y, s.data[0]? = some a0 → b.data[i]? = some y →
        s'.data[i + 1]? = if 1 ≤ i then (s.data[i + 1]?).map (fun z => C.add (if i + 1 ≤ N then f (C.mul z x) else z) (f (C.mul a0 y)))
          else (s.data[i + 1]?).map (fun z => f (C.mul z x))) ∧
      ∀ i, N + 1 ≤ i → s'.data[i + 1]? = s.data[i + 1]? := by
  have g2 : geomSum N (1 + 1) = N + 1 := geomSum_two N
  have g1 := geomSum_one N
  obtain ⟨r, s1, hr, e1, l1, g⟩ := mulIntoAssign_idx C p N h2 f s b 1 1 hp (by omega) (by omega) (by simp only [Nat.sub_self, Nat.zero_add]; omega)
  have hrx : r = [x] := by
    rw [hx] at hr
    simp only [Nat.sub_self, Nat.zero_add, g1] at hr
    rw [show geomSum N 0 = 0 from rfl] at hr
    have : sliceUnchecked (x :: rest) (0, 1) = .ok [x] := by
      unfold sliceUnchecked
      simp
    exact Res.ok.inj (hr.symm.trans this)
  subst hrx
  obtain ⟨s', e2, l2, h0, g', gt⟩ := mulIntoStep_zero C p N h2 f s1 b 1 (by omega) hp (by omega) (by omega)
  have hz : s1.data[0]? = s.data[0]? := by rw [g, if_neg (by omega)]
  refine ⟨s', (mulIntoDegree_low C p N f s s1 b da 1 (by omega) (by omega) e1).trans e2, by omega, h0.trans hz, ?_, fun i hi => by rw [gt i (by omega), g, if_neg (by omega)]⟩
  intro i a0 y ha hy
  have hi : i < N + 1 := by
    by_contra hc
    rw [List.getElem?_eq_none (by omega)] at hy
    cases hy
  rw [g' i a0 y (hz.trans ha) hy, g (i + 1)]
  simp only [g1, g2, List.foldl_cons, List.foldl_nil]
  by_cases h1 : 1 ≤ i
  · rw [if_pos (by omega), if_pos h1]
    by_cases h3 : i + 1 ≤ N
    · rw [if_pos (by omega), Option.map_map]
      simp only [if_pos h3]
      rfl
    · rw [if_neg (by omega)]
      simp only [if_neg h3]
  · rw [if_neg (by omega), if_neg h1, if_pos (by omega)]

end DenseAlg
section
variable {S R : Type} (C : Coeff S R) (p : Profile) (N : Nat)

/-- Growing a vector does not change its coefficients. -/
theorem growTo_idx (h2 : 2 ≤ N) (a s : Dense S) (da M : Nat) (ha : FullTo N a da) (hM : 1 ≤ M) (hp : N ^ (M + 1) < 2 ^ 64)
    (h : growTo C p N a M = .ok s) :
    s.data.length = geomSum N (max da M + 1) ∧ ∀ i : Nat, (s.data[i]?).getD C.zero = (a.data[i]?).getD C.zero := by
  obtain ⟨s1, g1, g2, g3⟩ := growTo_ok C p N h2 a da M (ha.hasDegree h2).1 ha.2 hp (target_of_full ha hM)
  rw [g1] at h
  cases h
  have hl : a.data.length = geomSum N (da + 1) := ha.1
  refine ⟨?_, fun i => ?_⟩
  · rw [g2, hl]
    rcases Nat.le_total da M with h | h
    · rw [Nat.max_eq_right h, Nat.max_eq_right (geomSum_mono (by omega))]
    · rw [Nat.max_eq_left h, Nat.max_eq_left (geomSum_mono (by omega))]
  · have := g3 _ (validWord_indexWord (by omega) i)
    unfold at? at this
    rw [wordIndex_indexWord] at this
    rw [this]
    split_ifs
    · rfl
    · rfl

/-- C37, the products that return although the right factor is not a number: right factor of degree 1 with a constant term `x` other than 0 and 1, and
either left factor of degree 1 and room for degree 2, or left factor of degree at least 2 cut off at degree 1. -/
theorem C37_inplace_linear_returns (h2 : 2 ≤ N) (f : S → S) (a b : Dense S) (da D : Nat) (ha : FullTo N a da) (hb : FullTo N b 1)
    (x : S) (rest : List S) (hx : b.data = x :: rest) (hz : C.eq x C.zero = false) (h1 : C.eq x C.one = false)
    (hc : (da = 1 ∧ 2 ≤ D) ∨ (2 ≤ da ∧ D = 1)) (hp : N ^ (min D (da + 1) + 1) < 2 ^ 64) :
    ∃ r, (DenseAlg.ops C p N).mulInto a b f (some D) = .ok r := by
  have ho : offsetAssign C b = (0, true) := by
    unfold offsetAssign
    rw [hx]
    simp [hz, h1]
  have hbl : b.data.length = N + 1 := by have := hb.1; unfold Dense.size at this; rw [this]; exact geomSum_two N
  have g2 : geomSum N (1 + 1) = N + 1 := geomSum_two N
  obtain ⟨s, g1, _⟩ := growTo_ok C p N h2 a da (min D (da + 1)) (ha.hasDegree h2).1 ha.2 hp (target_of_full ha (by omega))
  obtain ⟨gl, _⟩ := growTo_idx C p N h2 a s da _ ha (by omega) hp g1
  have h3 : N + 2 ≤ geomSum N 3 := by
    have := geomSum_strict (N := N) (a := 2) (b := 3) (by omega) (by omega)
    have := geomSum_two N
    omega
  have hsl : N + 2 ≤ s.data.length := by
    have := geomSum_mono (N := N) (a := 3) (b := max da (min D (da + 1)) + 1) (by omega)
    omega
  show ∃ r, mulInto C p N a b f (some D) = .ok r
  rw [mulInto_eq C p N h2 f a b s da 1 D (ha.hasDegree h2).1 (hb.hasDegree h2).1 ha.2 hb.2 g1, ho]
  rcases hc with ⟨rfl, hD⟩ | ⟨hda, rfl⟩
  · rw [show min D (1 + 1) = 2 by omega] at *
    obtain ⟨_, s1, e1, l1, _⟩ := mulIntoDegree_top_idx C p N h2 f s b 1 1 hp (by omega) (by rw [gl]; exact geomSum_mono (by omega)) (by omega)
    obtain ⟨s2, e2, _⟩ := mulIntoDegree_last C p N h2 f s1 b x rest hx 1 (by omega) hb.2 (by omega) hbl
    refine ⟨s2, ?_⟩
    show List.foldlM _ s [2, 1] = _
    rw [List.foldlM_cons]
    show (mulIntoDegree C p N b f 0 true 1 1 s (1 + 1) >>= _) = _
    rw [e1, Res.bind_ok, List.foldlM_cons]
    show (mulIntoDegree C p N b f 0 true 1 1 s1 1 >>= _) = _
    rw [e2]
    rfl
  · rw [show min 1 (da + 1) = 1 by omega]
    obtain ⟨s2, e2, _⟩ := mulIntoDegree_last C p N h2 f s b x rest hx da (by omega) hb.2 hsl hbl
    refine ⟨s2, ?_⟩
    show List.foldlM _ s [1] = _
    rw [List.foldlM_cons]
    show (mulIntoDegree C p N b f 0 true da 1 s 1 >>= _) = _
    rw [e2]
    rfl

/-- C37, exactly when a debug build returns from an in-place product with a right factor of degree at least 1.  (The other products panic
or access memory out of bounds, see the theorems of `Props/Inplace.lean`.) -/
theorem C37_debug_returns_iff (h2 : 2 ≤ N) (f : S → S) (a b : Dense S) (da db D : Nat) (ha : FullTo N a da) (hb : FullTo N b db) (hdb : 1 ≤ db)
    (hD : 1 ≤ D) (x : S) (rest : List S) (hx : b.data = x :: rest) (hp : N ^ (min D (da + db) + 1) < 2 ^ 64) :
    (∃ r, (DenseAlg.ops C .debug N).mulInto a b f (some D) = .ok r) ↔
      db = 1 ∧ C.eq x C.zero = false ∧ C.eq x C.one = false ∧ ((da = 1 ∧ 2 ≤ D) ∨ (2 ≤ da ∧ D = 1)) := by
  constructor
  · rintro ⟨r, hr⟩
    have hM : 1 ≤ min D (da + db) := by omega
    have hMb : db ≤ min D (da + db) := by
      by_contra hlt
      cases (C37_inplace_debug_panic C N h2 f a b da db D ha hb hM (by omega) hp).symm.trans hr
    have hz : C.eq x C.zero = false := by
      cases hz : C.eq x C.zero with
      | false => rfl
      | true => cases (C37_inplace_zero_constant_ub C .debug N h2 f a b da db D ha hb x rest hx hz hM hMb hp).symm.trans hr
    have h1 : C.eq x C.one = false := by
      cases h1 : C.eq x C.one with
      | false => rfl
      | true => cases (C37_inplace_one_constant_ub C .debug N h2 f a b da db D ha hb x rest hx hz h1 hdb hM hMb hp).symm.trans hr
    have ho : offsetAssign C b = (0, true) := by
      unfold offsetAssign
      rw [hx]
      simp [hz, h1]
    have hbl : b.data.length = geomSum N (db + 1) := hb.1
    obtain ⟨s, g1, _⟩ := growTo_ok C .debug N h2 a da (min D (da + db)) (ha.hasDegree h2).1 ha.2 hp (target_of_full ha hM)
    obtain ⟨gl, _⟩ := growTo_idx C .debug N h2 a s da _ ha hM hp g1
    have hr' := hr
    change mulInto C .debug N a b f (some D) = .ok r at hr'
    rw [mulInto_eq C .debug N h2 f a b s da db D (ha.hasDegree h2).1 (hb.hasDegree h2).1 ha.2 hb.2 g1, ho,
      range'_reverse_head _ hM, List.foldlM_cons] at hr'
    simp only at hr'
    rcases Nat.lt_or_ge da 2 with hda | hda
    · rcases Nat.eq_zero_or_pos da with rfl | hpos
      · have hMe : min D (0 + db) = db := by omega
        rw [hMe] at hp gl hr'
        rw [mulIntoDegree_lhs_zero C N h2 f s b db hp (by rw [gl]; exact geomSum_mono (by omega)) (by omega)] at hr'
        cases hr'
      · have : da = 1 := by omega
        subst this
        rcases Nat.lt_or_ge db (min D (1 + db)) with hlt | hge
        · have hMe : min D (1 + db) = 1 + db := by omega
          rw [hMe] at hp gl hr'
          refine ⟨?_, hz, h1, .inl ⟨rfl, by omega⟩⟩
          by_contra hne
          obtain ⟨_, s1, e1, l1, _⟩ := mulIntoDegree_top_idx C .debug N h2 f s b 1 db hp (by omega) (by rw [gl]; exact geomSum_mono (by omega))
            (by omega)
          rw [e1, Res.bind_ok, show 1 + db - 1 = db by omega, range'_reverse_head _ hdb, List.foldlM_cons] at hr'
          have hm := geomSum_mono (N := N) (a := db) (b := db + 1) (by omega)
          have hst := geomSum_strict (N := N) (a := db + 1) (b := 1 + db + 1) (by omega) (by omega)
          have hs1 : geomSum N (db + 1) + 1 ≤ s1.data.length := by
            have := geomSum_mono (N := N) (a := 1 + db + 1) (b := max 1 (1 + db) + 1) (by omega)
            omega
          obtain ⟨_, s2, _, e2, l2, _⟩ := mulIntoAssign_idx C .debug N h2 f s1 b db 1 hb.2 hdb (by omega)
            (by rw [show db - 1 + 1 = db by omega]; omega)
          obtain ⟨s3, e3, _⟩ := mulIntoStep_zero C .debug N h2 f s2 b db hdb hb.2 (by omega) (by omega)
          have e4 := (mulIntoDegree_low C .debug N f s1 s2 b 1 db hdb (by omega) e2).trans e3
          rw [e4, Res.bind_ok, range'_reverse_head _ (by omega), List.foldlM_cons,
            mulIntoDegree_below C N f s3 b 0 true 1 db (db - 1) (by omega)] at hr'
          cases hr'
        · have hMe : min D (1 + db) = db := by omega
          rw [hMe] at hp gl hr'
          have hsl : s.data.length = geomSum N (db + 1) := by rw [gl, Nat.max_eq_right hdb]
          have hm := geomSum_mono (N := N) (a := db) (b := db + 1) (by omega)
          obtain ⟨_, s2, _, e2, l2, _⟩ := mulIntoAssign_idx C .debug N h2 f s b db 1 hb.2 hdb (by omega)
            (by rw [show db - 1 + 1 = db by omega]; omega)
          have e4 := (mulIntoDegree_low C .debug N f s s2 b 1 db hdb (by omega) e2).trans
            (mulIntoStep_zero_ub C .debug N h2 f s2 b db hdb hb.2 (by omega))
          rw [e4] at hr'
          cases hr'
    · by_cases hM2 : 2 ≤ min D (da + db)
      · cases (C37_inplace_ub C .debug N h2 f a b da db D ha hb hda hdb hM2 hMb hp).symm.trans hr
      · exact ⟨by omega, hz, h1, .inr ⟨hda, by omega⟩⟩
  · rintro ⟨rfl, hz, h1, hc⟩
    exact C37_inplace_linear_returns C .debug N h2 f a b da D ha hb x rest hx hz h1 hc hp

/-- The entries of the products of `C37_inplace_linear_returns` over a ring, index by index. -/
theorem linear_entries [CommRing S] (hC : C.IsRing) (h2 : 2 ≤ N) (a b : Dense S) (da D : Nat) (ha : FullTo N a da) (hb : FullTo N b 1)
    (x : S) (rest : List S) (hx : b.data = x :: rest) (hz : C.eq x C.zero = false) (h1 : C.eq x C.one = false)
    (hc : (da = 1 ∧ 2 ≤ D) ∨ (2 ≤ da ∧ D = 1)) (hp : N ^ (min D (da + 1) + 1) < 2 ^ 64) :
    ∃ r, (DenseAlg.ops C p N).multiplyInplace a b (some D) = .ok r ∧ r.size = geomSum N (max da (min D (da + 1)) + 1) ∧
      (r.data[0]?).getD 0 = (a.data[0]?).getD 0 ∧ (r.data[1]?).getD 0 = (a.data[1]?).getD 0 * x ∧
      (∀ i, 1 ≤ i → i ≤ N → (r.data[i + 1]?).getD 0 =
        (if i + 1 ≤ N then (a.data[i + 1]?).getD 0 * x else (a.data[i + 1]?).getD 0) + (a.data[0]?).getD 0 * (b.data[i]?).getD 0) ∧
      ∀ i, N + 1 < i → (r.data[i]?).getD 0 = (a.data[i]?).getD 0 := by
  have ho : offsetAssign C b = (0, true) := by
    unfold offsetAssign
    rw [hx]
    simp [hz, h1]
  have hbl : b.data.length = N + 1 := by have := hb.1; unfold Dense.size at this; rw [this]; exact geomSum_two N
  have g2 : geomSum N (1 + 1) = N + 1 := geomSum_two N
  obtain ⟨s, g1, _⟩ := growTo_ok C p N h2 a da (min D (da + 1)) (ha.hasDegree h2).1 ha.2 hp (target_of_full ha (by omega))
  obtain ⟨gl, ge⟩ := growTo_idx C p N h2 a s da _ ha (by omega) hp g1
  rw [hC.zero] at ge
  have h3 : N + 2 ≤ geomSum N 3 := by
    have := geomSum_strict (N := N) (a := 2) (b := 3) (by omega) (by omega)
    have := geomSum_two N
    omega
  have hsl : N + 2 ≤ s.data.length := by
    have := geomSum_mono (N := N) (a := 3) (b := max da (min D (da + 1)) + 1) (by omega)
    omega
  -- the vector before the last turn
  obtain ⟨s1, l1, ge1, hrun⟩ : ∃ s1 : Dense S, s1.data.length = s.data.length ∧ (∀ i : Nat, (s1.data[i]?).getD 0 = (a.data[i]?).getD 0) ∧
      mulInto C p N a b id (some D) = mulIntoDegree C p N b id 0 true da 1 s1 1 := by
    rw [mulInto_eq C p N h2 id a b s da 1 D (ha.hasDegree h2).1 (hb.hasDegree h2).1 ha.2 hb.2 g1, ho]
    rcases hc with ⟨rfl, hD⟩ | ⟨hda, rfl⟩
    · have hMe : min D (1 + 1) = 2 := by omega
      rw [hMe] at hp gl ⊢
      obtain ⟨rr, s1, e1, l1, g⟩ := mulIntoDegree_top_idx C p N h2 id s b 1 1 hp (by omega) (by rw [gl]; exact geomSum_mono (by omega)) (by omega)
      refine ⟨s1, l1, fun i => ?_, ?_⟩
      · rw [g i]
        split_ifs with hi
        · have hai : a.data[i]? = none := by
            have : a.data.length = geomSum N (1 + 1) := ha.1
            exact List.getElem?_eq_none (by omega)
          have hsi := ge i
          have hfold : ∀ l : List S, List.foldl (fun o r => id (C.mul o r)) (0 : S) l = 0 := by
            intro l
            induction l with
            | nil => rfl
            | cons y l ih => rw [List.foldl_cons, id, hC.mul, zero_mul]; exact ih
          rw [hai] at hsi ⊢
          cases hs : s.data[i]? with
          | none => rfl
          | some y =>
            rw [hs] at hsi
            simp only [Option.getD_some, Option.getD_none] at hsi
            simp only [Option.map_some, Option.getD_some, Option.getD_none, hsi]
            exact hfold rr
        · exact ge i
      · show List.foldlM _ s [2, 1] = _
        rw [List.foldlM_cons]
        show (mulIntoDegree C p N b id 0 true 1 1 s (1 + 1) >>= _) = _
        rw [e1, Res.bind_ok, List.foldlM_cons]
        cases mulIntoDegree C p N b id 0 true 1 1 s1 1 <;> rfl
    · refine ⟨s, rfl, ge, ?_⟩
      rw [show min 1 (da + 1) = 1 by omega]
      show List.foldlM _ s [1] = _
      rw [List.foldlM_cons]
      cases mulIntoDegree C p N b id 0 true da 1 s 1 <;> rfl
  obtain ⟨r, e2, l2, r0, g, gt⟩ := mulIntoDegree_last C p N h2 id s1 b x rest hx da (by omega) hb.2 (by omega) hbl
  obtain ⟨a0, ha0⟩ : ∃ a0, s1.data[0]? = some a0 := ⟨s1.data[0]'(by omega), List.getElem?_eq_getElem _⟩
  have hb0 : b.data[0]? = some x := by rw [hx]; rfl
  have ha0' : (a.data[0]?).getD 0 = a0 := by rw [← ge1 0, ha0]; rfl
  refine ⟨r, hrun.trans e2, ?_, ?_, ?_, ?_, ?_⟩
  · unfold Dense.size
    omega
  · rw [r0, ge1]
  · have := g 0 a0 x ha0 hb0
    rw [if_neg (by omega)] at this
    simp only [Nat.zero_add] at this
    rw [this, ← ge1 1]
    cases s1.data[1]? with
    | none => simp
    | some z => simp [hC.mul]
  · intro i hi hiN
    obtain ⟨y, hy⟩ : ∃ y, b.data[i]? = some y := ⟨b.data[i]'(by omega), List.getElem?_eq_getElem _⟩
    rw [g i a0 y ha0 hy, if_pos hi, hy, ha0', ← ge1 (i + 1)]
    have hlt : i + 1 < s1.data.length := by omega
    rw [List.getElem?_eq_getElem hlt]
    simp only [Option.map_some, Option.getD_some, hC.add, id, hC.mul]
  · intro i hi
    obtain ⟨k, rfl⟩ : ∃ k, i = k + 1 := ⟨i - 1, by omega⟩
    rw [gt k (by omega), ge1]

theorem wordIndex_single (l : Nat) : wordIndex N [l] = l := by simp [wordIndex]

theorem wordIndex_pair (k l : Nat) : wordIndex N [k, l] = k * N + l := by simp [wordIndex]

/-- C37, what those products are, over a ring: letters are multiplied by the constant term `x` of the right factor; the products of the constant
term of `self` with the letters of the right factor all land one place to the right of where they belong, the last one on the word (1, 1); and
products of two letters are missing. -/
theorem C37_inplace_linear_actual [CommRing S] (hC : C.IsRing) (h2 : 2 ≤ N) (a b : Dense S) (da D : Nat) (ha : FullTo N a da) (hb : FullTo N b 1)
    (x : S) (rest : List S) (hx : b.data = x :: rest) (hz : C.eq x C.zero = false) (h1 : C.eq x C.one = false)
    (hc : (da = 1 ∧ 2 ≤ D) ∨ (2 ≤ da ∧ D = 1)) (hp : N ^ (min D (da + 1) + 1) < 2 ^ 64) :
    ∃ r, (DenseAlg.ops C p N).multiplyInplace a b (some D) = .ok r ∧ FullTo N r (max da (min D (da + 1))) ∧
      coef C N r [] = coef C N a [] ∧
      (∀ l, 1 ≤ l → l ≤ N → coef C N r [l] = coef C N a [l] * x + if 2 ≤ l then coef C N a [] * coef C N b [l - 1] else 0) ∧
      ∀ w, ValidWord N w → 2 ≤ w.length →
        coef C N r w = coef C N a w + if w = [1, 1] then coef C N a [] * coef C N b [N] else 0 := by
  obtain ⟨r, e, sz, r0, r1, ri, rt⟩ := linear_entries C p N hC h2 a b da D ha hb x rest hx hz h1 hc hp
  have hcf : ∀ (v : Dense S) w, coef C N v w = (v.data[wordIndex N w]?).getD 0 := fun v w => by unfold coef stored; rw [hC.zero]
  have hw0 : wordIndex N [] = 0 := rfl
  refine ⟨r, e, ⟨sz, ?_⟩, ?_, ?_, ?_⟩
  · rcases hc with ⟨rfl, hD⟩ | ⟨hda, rfl⟩
    · exact pow_lt64_mono h2 (by omega) hp
    · rw [show max da (min 1 (da + 1)) = da by omega]
      exact ha.2
  · rw [hcf, hcf, hw0, r0]
  · intro l hl hlN
    simp only [hcf, hw0, wordIndex_single]
    by_cases h : 2 ≤ l
    · obtain ⟨k, rfl⟩ : ∃ k, l = k + 1 := ⟨l - 1, by omega⟩
      rw [if_pos h, ri k (by omega) (by omega), if_pos hlN, Nat.add_sub_cancel]
    · have : l = 1 := by omega
      subst this
      rw [if_neg h, r1, add_zero]
  · intro w hw hl
    have hlo : N + 1 ≤ wordIndex N w := by
      have hb := (wordIndex_bounds hw).1
      have := geomSum_mono (N := N) hl
      have := geomSum_two N
      omega
    simp only [hcf, hw0, wordIndex_single]
    by_cases h11 : w = [1, 1]
    · subst h11
      rw [if_pos rfl, wordIndex_pair, Nat.one_mul, ri N (by omega) (by omega), if_neg (by omega)]
    · rw [if_neg h11, add_zero]
      refine rt _ (Nat.lt_of_le_of_ne hlo fun h => h11 ?_)
      refine wordIndex_inj hw (by intro l hl; simp at hl; omega) ?_
      rw [wordIndex_pair]
      omega

/-- C37, over an integral domain, exactly when multiplying in place by a tensor of degree at least 1 is right in a debug build: both factors have
degree 1, degree 2 is kept, the constant term of the right factor is neither 0 nor 1, that of `self` is 0, and no product of two letters is due. -/
theorem C37_debug_right_iff_partial [CommRing S] [IsDomain S] (hC : C.IsRing) (hE : C.EqLawful) (h2 : 2 ≤ N) (a b : Dense S) (da db D : Nat)
    (ha : FullTo N a da) (hb : FullTo N b db) (hdb : 1 ≤ db) (hD : 1 ≤ D) (hp : N ^ (min D (da + db) + 1) < 2 ^ 64) :
    (∃ r r', (DenseAlg.ops C .debug N).multiply a b (some D) = .ok r ∧ (DenseAlg.ops C .debug N).multiplyInplace a b (some D) = .ok r' ∧
      r'.data = r.data) ↔
      da = 1 ∧ db = 1 ∧ 2 ≤ D ∧ coef C N b [] ≠ 0 ∧ coef C N b [] ≠ 1 ∧ coef C N a [] = 0 ∧
        ((∀ l, 1 ≤ l → l ≤ N → coef C N a [l] = 0) ∨ (∀ l, 1 ≤ l → l ≤ N → coef C N b [l] = 0)) := by
  obtain ⟨x, rest, hx⟩ : ∃ x rest, b.data = x :: rest := by
    cases hd : b.data with
    | nil =>
      have h1 : b.data.length = geomSum N (db + 1) := hb.1
      have := geomSum_pos (N := N) (d := db + 1) (by omega)
      rw [hd] at h1
      simp at h1
      omega
    | cons x rest => exact ⟨x, rest, rfl⟩
  have hbx : coef C N b [] = x := by
    unfold coef stored
    rw [hx]
    rfl
  have eqf : ∀ y : S, C.eq x y = false ↔ x ≠ y := fun y => by rw [Bool.eq_false_iff, ne_eq, ne_eq, hE]
  rw [hbx]
  obtain ⟨r, q1, q2, q3⟩ := C33_multiply_ring C .debug N hC h2 a b da db D ha hb (by omega) hp
  have hpair : ∀ k l, 1 ≤ k → k ≤ N → 1 ≤ l → l ≤ N → ValidWord N [k, l] := by
    intro k l _ _ _ _ m hm
    simp at hm
    omega
  constructor
  · rintro ⟨r0, r', e1, e2, hd⟩
    cases q1.symm.trans e1
    obtain ⟨rfl, hz, h1, hc⟩ := (C37_debug_returns_iff C N h2 id a b da db D ha hb hdb hD x rest hx hp).1 ⟨r', e2⟩
    obtain ⟨r2, f1, f2, f3, f4, f5⟩ := C37_inplace_linear_actual C .debug N hC h2 a b da D ha hb x rest hx hz h1 hc hp
    cases f1.symm.trans e2
    have hco : ∀ w, coef C N r' w = coef C N r w := fun w => by unfold coef stored; rw [hd]
    have hx0 : x ≠ 0 := by have := (eqf _).1 hz; rwa [hC.zero] at this
    have hx1 : x ≠ 1 := by have := (eqf _).1 h1; rwa [hC.one] at this
    have hda : da = 1 ∧ 2 ≤ D := by
      rcases hc with h | ⟨h, rfl⟩
      · exact h
      · exfalso
        have h1 : r'.size = r.size := by unfold Dense.size; rw [hd]
        rw [f2.1, q2.1] at h1
        have := geomSum_strict (N := N) (a := min 1 (da + 1) + 1) (b := max da (min 1 (da + 1)) + 1) (by omega) (by omega)
        omega
    obtain ⟨rfl, hD2⟩ := hda
    have ha0 : coef C N a [] = 0 := by
      have h0 := q3 [] (by simp [ValidWord])
      rw [if_pos (by simp)] at h0
      simp only [conv] at h0
      rw [← hco, f3, hbx] at h0
      by_contra hne
      exact hx1 (mul_left_cancel₀ hne (by rw [← h0, mul_one]))
    refine ⟨rfl, rfl, hD2, hx0, hx1, ha0, ?_⟩
    by_contra hcon
    push Not at hcon
    obtain ⟨⟨k, k1, k2, k3⟩, l, l1, l2, l3⟩ := hcon
    have hw := hpair k l k1 k2 l1 l2
    have h0 := q3 [k, l] hw
    rw [if_pos (by simpa using hD2)] at h0
    simp only [conv] at h0
    have hlong : coef C N a [k, l] = 0 := coef_zero_of_length C N hC (ha.hasDegree h2) _ hw (by simp)
    rw [← hco, f5 [k, l] hw (by simp), ha0, hlong] at h0
    simp only [zero_mul, ite_self, add_zero, zero_add] at h0
    exact mul_ne_zero k3 l3 h0.symm
  · rintro ⟨rfl, rfl, hD2, hx0, hx1, ha0, hor⟩
    obtain ⟨r', f1, f2, f3, f4, f5⟩ := C37_inplace_linear_actual C .debug N hC h2 a b 1 D ha hb x rest hx
      ((eqf _).2 (by rw [hC.zero]; exact hx0)) ((eqf _).2 (by rw [hC.one]; exact hx1)) (.inl ⟨rfl, hD2⟩) hp
    refine ⟨r, r', q1, f1, data_ext_coef C (by omega : 1 ≤ N) ?_ fun w hw => ?_⟩
    · rw [f2.1, q2.1, show max 1 (min D (1 + 1)) = min D (1 + 1) by omega]
    · rw [q3 w hw]
      match w, hw with
      | [], _ => simp [conv, f3, ha0]
      | [l], hw =>
        have hl := hw l (by simp)
        rw [f4 l hl.1 hl.2, if_pos (show [l].length ≤ D from hD)]
        simp [conv, ha0, hbx]
      | [k, l], hw =>
        have hk := hw k (by simp)
        have hl := hw l (by simp)
        have hlong : coef C N a [k, l] = 0 := coef_zero_of_length C N hC (ha.hasDegree h2) _ hw (by simp)
        rw [f5 _ hw (by simp), if_pos (show [k, l].length ≤ D from hD2), hlong]
        simp only [conv, ha0, zero_mul, ite_self, add_zero, zero_add, hlong]
        rcases hor with h | h
        · rw [h k hk.1 hk.2, zero_mul]
        · rw [h l hl.1 hl.2, mul_zero]
      | k :: l :: m :: w, hw =>
        have h3 : coef C N r (k :: l :: m :: w) = 0 :=
          coef_zero_of_length C N hC (q2.hasDegree h2) _ hw (by simp)
        have h4 : coef C N r' (k :: l :: m :: w) = 0 :=
          coef_zero_of_length C N hC (f2.hasDegree h2) _ hw (by simp)
        rw [h4, ← q3 _ hw, h3]

example : (∃ r, (DenseAlg.ops intCoeff .debug 2).mulInto (.ofVec [3, 1, 0]) (.ofVec [2, 1, 0]) id (some 2) = .ok r) :=
  (C37_debug_returns_iff intCoeff 2 (by omega) id (.ofVec [3, 1, 0]) (.ofVec [2, 1, 0]) 1 1 2 ⟨rfl, by decide⟩ ⟨rfl, by decide⟩ (by omega)
    (by omega) 2 [1, 0] rfl (by decide)).2 (by decide)

example := C37_inplace_linear_actual intCoeff .release 2 intCoeff_isRing (by omega) (.ofVec [3, 1, 0, 4, 4, 4, 4]) (.ofVec [2, 1, 0]) 2 1
  ⟨rfl, by decide⟩ ⟨rfl, by decide⟩ 2 [1, 0] rfl rfl rfl (.inr ⟨by omega, rfl⟩) (by decide)

example := (C37_debug_right_iff_partial intCoeff 2 intCoeff_isRing intCoeff_eqLawful (by omega) (.ofVec [0, 1, 7]) (.ofVec [2, 0, 0]) 1 1 3
  ⟨rfl, by decide⟩ ⟨rfl, by decide⟩ (by omega) (by omega) (by decide)).2
  ⟨rfl, rfl, by omega, by decide, by decide, by decide, .inr fun l h1 h2 => by
    obtain rfl | rfl : l = 1 ∨ l = 2 := by omega
    · decide
    · decide⟩

end
end RA
