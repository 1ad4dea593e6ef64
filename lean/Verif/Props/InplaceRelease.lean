import Verif.Props.InplaceExact

/-!
# In-place products of dense tensors in release builds, all cases (C37)

Where a debug build panics on `out_deg - rhs_deg`, a release build wraps around and runs the inner loop over an empty range.
-/

namespace RA
open Spec TensorKey TensorBasis DenseAlg

namespace DenseAlg
variable {S R : Type} (C : Coeff S R) (N : Nat)

/-- The stored coefficients of degree `t`. -/
def lvl (b : Dense S) (t : Nat) : List S := (b.data.take (geomSum N (t + 1))).drop (geomSum N t)

theorem lvl_zero (b : Dense S) (x : S) (rest : List S) (hx : b.data = x :: rest) : lvl N b 0 = [x] := by
  unfold lvl
  rw [hx, show geomSum N (0 + 1) = 1 from geomSum_one N, show geomSum N 0 = 0 from rfl]
  simp

variable {N} in
theorem wordIndex_in_degree {w : List Nat} (hw : ValidWord N w) (o : Nat) :
    (geomSum N o ≤ wordIndex N w ∧ wordIndex N w < geomSum N (o + 1)) ↔ w.length = o := by
  have hb := wordIndex_bounds hw
  constructor
  · intro h
    by_contra hne
    rcases Nat.lt_or_gt_of_ne hne with h1 | h1
    · have := geomSum_mono (N := N) (a := w.length + 1) (b := o) h1
      omega
    · have := geomSum_mono (N := N) (a := o + 1) (b := w.length) h1
      omega
  · rintro rfl
    exact hb

theorem subW_wraps {a b : Nat} (h : a < b) : subW .release 32 a b = .ok (a + 2 ^ 32 - b) := by
  unfold subW
  rw [if_neg (by omega)]

theorem subW_wrap {o db : Nat} (h : o < db) (hdb : db < 64) : ∃ m, subW .release 32 o db = .ok m ∧ 64 ≤ m ∧ m + db = o + 2 ^ 32 := by
  exact ⟨o + 2 ^ 32 - db, subW_wraps h, by omega, by omega⟩

/-- The turns of the outer loop below the degree of `rhs`, `offset = 1`, nothing to assign: nothing happens. -/
theorem mulIntoDegree_skip (f : S → S) (s b : Dense S) (da db o : Nat) (ho : 1 ≤ o) (h : o < db) (hdb : db < 64) :
    mulIntoDegree C .release N b f 1 false da db s o = .ok s := by
  obtain ⟨m, hm, hm64, _⟩ := subW_wrap h hdb
  have hd := h.trans hdb
  unfold mulIntoDegree
  rw [hm, subW_ok ho]
  simp only [Res.bind_ok, Bool.false_eq_true, if_false]
  rw [subW_ok (Nat.zero_le _)]
  simp only [Res.bind_ok]
  rw [show min (o - 1) da - 0 + 1 - m = 0 by omega]
  rfl

/-- The turns of the outer loop below the degree of `rhs`, `offset = 0`: only the scaling pass. -/
theorem mulIntoDegree_scale (f : S → S) (s s' b : Dense S) (da db o : Nat) (ho : 1 ≤ o) (h : o < db) (hdb : db < 64) (hda : 1 ≤ da)
    (h1 : mulIntoAssign C .release N b f 0 o (min o da) s = .ok s') : mulIntoDegree C .release N b f 0 true da db s o = .ok s' := by
  obtain ⟨m, hm, hm64, _⟩ := subW_wrap h hdb
  have hd := h.trans hdb
  unfold mulIntoDegree
  rw [hm, subW_ok (Nat.zero_le _)]
  simp only [Res.bind_ok, Nat.sub_zero, if_true]
  rw [h1]
  simp only [Res.bind_ok]
  rw [subW_ok (by omega)]
  simp only [Res.bind_ok]
  rw [show min o da - 1 + 1 - m = 0 by omega]
  rfl

/-- All those turns. -/
theorem scaleLoop (h2 : 2 ≤ N) (f : S → S) (s b : Dense S) (da db m : Nat) (hda : 1 ≤ da) (hm : m < db) (hp : N ^ (db + 1) < 2 ^ 64)
    (hs : geomSum N (m + 1) ≤ s.data.length) (hb : geomSum N (db + 1) ≤ b.data.length) (L : List Nat) (hL : ∀ o ∈ L, 1 ≤ o ∧ o ≤ m) (hnd : L.Nodup) :
    ∃ s', L.foldlM (mulIntoDegree C .release N b f 0 true da db) s = .ok s' ∧ s'.data.length = s.data.length ∧
      ∀ w, ValidWord N w → at? N s'.data w = if w.length ∈ L then
        (at? N s.data w).map (fun x => (lvl N b (w.length - min w.length da)).foldl (fun o r => f (C.mul o r)) x) else at? N s.data w := by
  have hdb := TensorBasis.deg_lt64 h2 hp
  induction L generalizing s with
  | nil => exact ⟨s, rfl, rfl, fun w _ => by simp⟩
  | cons o L ih =>
    rw [List.nodup_cons] at hnd
    have ho := hL o (by simp)
    have hg1 := geomSum_mono (N := N) (a := o + 1) (b := m + 1) (by omega)
    have hg2 := geomSum_mono (N := N) (a := o - min o da + 1) (b := db + 1) (by omega)
    have hg3 := geomSum_mono (N := N) (a := o - min o da) (b := o - min o da + 1) (by omega)
    obtain ⟨r, s1, hr, e1, l1, g1⟩ := mulIntoAssign_idx C .release N h2 f s b o (min o da) (TensorBasis.pow_lt64_mono h2 (by omega) hp) (by omega)
      (by omega) (by omega)
    have hrl : r = lvl N b (o - min o da) := by
      unfold sliceUnchecked at hr
      rw [if_pos ⟨hg3, by simp only; omega⟩] at hr
      exact (Res.ok.inj hr).symm
    subst hrl
    obtain ⟨s', h5, h6, h7⟩ := ih s1 (by omega) (fun o ho => hL o (by simp [ho])) hnd.2
    refine ⟨s', by rw [List.foldlM_cons, mulIntoDegree_scale C N f s s1 b da db o ho.1 (by omega) (by omega) hda e1, Res.bind_ok, h5], by omega,
      fun w hw => ?_⟩
    rw [h7 w hw]
    have hg := g1 (wordIndex N w)
    simp only [wordIndex_in_degree hw] at hg
    unfold at?
    rw [hg]
    by_cases hwo : w.length = o
    · rw [if_neg (by rw [hwo]; exact hnd.1), if_pos hwo, if_pos (by simp [hwo]), hwo]
    · rw [if_neg hwo]
      simp [hwo]

theorem startOfDegree_release (h2 : 2 ≤ N) (d : Nat) : ∃ v, TensorBasis.startOfDegree .release N d = .ok v := by
  unfold TensorBasis.startOfDegree
  have hpow : ∃ a, powW .release 64 N d = .ok a := by
    unfold powW fitW
    split_ifs
    · exact ⟨_, rfl⟩
    · exact ⟨_, rfl⟩
  obtain ⟨a, ha⟩ := hpow
  rw [ha, Res.bind_ok]
  have hsub : ∃ b, subW .release 64 a 1 = .ok b := by
    unfold subW
    split_ifs
    · exact ⟨_, rfl⟩
    · exact ⟨_, rfl⟩
  obtain ⟨b, hb⟩ := hsub
  rw [hb, Res.bind_ok, subW_ok (by omega), Res.bind_ok]
  unfold divW
  rw [if_neg (by omega)]
  exact ⟨_, rfl⟩

theorem degreeRange_release (h2 : 2 ≤ N) (d : Nat) : ∃ v, TensorBasis.degreeRange .release N d = .ok v := by
  unfold TensorBasis.degreeRange
  obtain ⟨a, ha⟩ := startOfDegree_release N h2 d
  rw [ha, Res.bind_ok]
  have : ∃ e, addW .release 32 d 1 = .ok e := by
    unfold addW fitW
    split_ifs
    · exact ⟨_, rfl⟩
    · exact ⟨_, rfl⟩
  obtain ⟨e, he⟩ := this
  obtain ⟨c, hc⟩ := startOfDegree_release N h2 e
  rw [he, Res.bind_ok, hc, Res.bind_ok]
  exact ⟨_, rfl⟩

variable {N} in
theorem splitMul_cases (f : S → S) (s b : Dense S) (mid : Nat) (ro rl rr : Nat × Nat) (hm : mid ≤ s.data.length) :
    (∃ s', splitMul C s b f mid ro rl rr = .ok s') ∨ splitMul C s b f mid ro rl rr = .ub := by
  unfold splitMul
  simp only [Dense.makeMut_data]
  rw [if_pos hm]
  rcases sliceUnchecked_cases (s.data.drop mid) ro with ⟨o, ho, _⟩ | ho
  · rw [ho]
    simp only [Res.bind_ok]
    rcases sliceUnchecked_cases (s.data.take mid) rl with ⟨l, hl, _⟩ | hl
    · rw [hl]
      simp only [Res.bind_ok]
      rcases sliceUnchecked_cases b.data rr with ⟨r, hr, _⟩ | hr
      · rw [hr]
        simp only [Res.bind_ok]
        rcases Nat.lt_or_ge o.length (l.length * r.length) with h | h
        · rw [mulIntoBuffer_ub C f o l r h]
          exact .inr rfl
        · obtain ⟨o', h1, _⟩ := mulIntoBuffer_ok C f o l r h
          rw [h1]
          exact .inl ⟨_, rfl⟩
      · rw [hr]
        exact .inr rfl
    · rw [hl]
      exact .inr rfl
  · rw [ho]
    exact .inr rfl

theorem subW_release (a b : Nat) : ∃ c, subW .release 32 a b = .ok c := by
  unfold subW
  split_ifs
  · exact ⟨_, rfl⟩
  · exact ⟨_, rfl⟩

/-- The inner loop body with `self` split at index 0. -/
theorem mulIntoStep_zero_cases (h2 : 2 ≤ N) (f : S → S) (b : Dense S) (o : Nat) (s : Dense S) (l : Nat) :
    (∃ s', mulIntoStep C .release N b f o 0 s l = .ok s') ∨ mulIntoStep C .release N b f o 0 s l = .ub := by
  unfold mulIntoStep
  obtain ⟨t, ht⟩ := subW_release o l
  obtain ⟨rr, hrr⟩ := degreeRange_release N h2 t
  obtain ⟨rl, hrl⟩ := degreeRange_release N h2 l
  rw [ht]
  simp only [Res.bind_ok]
  rw [hrr, hrl, TensorBasis.startOfDegree_ok .release N h2 0 (by simp)]
  simp only [Res.bind_ok]
  exact splitMul_cases C f s b _ _ _ _ (Nat.zero_le _)

theorem mulIntoStep_zero_zero (h2 : 2 ≤ N) (hN : N < 2 ^ 64) (f : S → S) (b : Dense S) (o : Nat) (s : Dense S) :
    mulIntoStep C .release N b f o 0 s 0 = .ub := by
  unfold mulIntoStep
  obtain ⟨t, ht⟩ := subW_release o 0
  obtain ⟨rr, hrr⟩ := degreeRange_release N h2 t
  rw [ht]
  simp only [Res.bind_ok]
  rw [hrr, degreeRange_ok .release N h2 0 (by simpa using hN), TensorBasis.startOfDegree_ok .release N h2 0 (by simp)]
  simp only [Res.bind_ok]
  exact splitMul_ub_lhs C f s b _ _ _ _ (Nat.zero_le _) (by simp [geomSum])

theorem foldlM_ub {β : Type} (f : Dense S → β → Res (Dense S)) (hf : ∀ s x, (∃ s', f s x = .ok s') ∨ f s x = .ub) (y : β)
    (hy : ∀ s, f s y = .ub) (L : List β) (s : Dense S) : (L ++ [y]).foldlM f s = .ub := by
  induction L generalizing s with
  | nil =>
    rw [List.nil_append, List.foldlM_cons, hy]
    rfl
  | cons x L ih =>
    rw [List.cons_append, List.foldlM_cons]
    rcases hf s x with ⟨s', h⟩ | h
    · rw [h, Res.bind_ok, ih]
    · rw [h]
      rfl

/-- A left factor of degree 0: `lhs_deg_max - 1` wraps around and the inner loop starts at degree `2^32 - 1`. -/
theorem mulIntoDegree_lhs_zero_release (h2 : 2 ≤ N) (f : S → S) (s b : Dense S) (o db : Nat) (ho : o ≤ db) (hp : N ^ (db + 1) < 2 ^ 64)
    (hs : s.data.length = geomSum N (o + 1)) (hb : geomSum N (db + 1) ≤ b.data.length) :
    mulIntoDegree C .release N b f 0 true 0 db s o = .ub := by
  have hdb := TensorBasis.deg_lt64 h2 hp
  have hg := geomSum_mono (N := N) (a := o + 1) (b := db + 1) (by omega)
  obtain ⟨_, s1, _, e1, l1, _⟩ := mulIntoAssign_idx C .release N h2 f s b o 0 (TensorBasis.pow_lt64_mono h2 (by omega) hp) (by omega) (by omega)
    (by rw [Nat.sub_zero]; omega)
  unfold mulIntoDegree
  rw [subW_ok (Nat.zero_le _)]
  obtain ⟨T, htop, _, hT⟩ := subW_wrap (o := 0) (db := 1) (by omega) (by omega)
  rcases Nat.lt_or_ge o db with hlt | hge
  · obtain ⟨m, hm, hm64, hmW⟩ := subW_wrap hlt (by omega)
    rw [hm]
    simp only [Res.bind_ok, Nat.sub_zero, if_true]
    rw [show min o 0 = 0 by omega, e1]
    simp only [Res.bind_ok]
    rw [htop]
    simp only [Res.bind_ok]
    rw [show T + 1 - m = (db - o - 1) + 1 by omega, List.range'_concat, List.reverse_append, List.reverse_singleton,
      List.singleton_append, List.foldlM_cons, show m + 1 * (db - o - 1) = T by omega]
    have hstep : mulIntoStep C .release N b f o 0 s1 T = .ub := by
      have hsub : subW .release 32 o T = .ok (o + 1) := (subW_wraps (by omega)).trans (congrArg Res.ok (by omega))
      unfold mulIntoStep
      rw [hsub]
      simp only [Res.bind_ok]
      obtain ⟨rl, hrl⟩ := degreeRange_release N h2 T
      rw [degreeRange_ok .release N h2 (o + 1) (TensorBasis.pow_lt64_mono h2 (by omega) hp), hrl,
        TensorBasis.startOfDegree_ok .release N h2 0 (by simp)]
      simp only [Res.bind_ok]
      have hst := geomSum_strict (N := N) (a := o + 1) (b := o + 1 + 1) (by omega) (by omega)
      unfold splitMul
      simp only [Dense.makeMut_data]
      rw [show geomSum N 0 = 0 from rfl, if_pos (Nat.zero_le _), sliceUnchecked_ub _ _ (by simp only [List.length_drop]; omega)]
      rfl
    rw [hstep]
    rfl
  · clear hT
    have : o = db := by omega
    subst this
    rw [subW_ok (Nat.le_refl o)]
    simp only [Res.bind_ok, Nat.sub_zero, if_true, Nat.sub_self]
    rw [show min o 0 = 0 by omega, e1, Res.bind_ok, htop, Res.bind_ok, List.range'_succ, List.reverse_cons]
    have hN : N < 2 ^ 64 := by
      have := TensorBasis.pow_lt64_mono h2 (show 1 ≤ o + 1 by omega) hp
      rwa [Nat.pow_one] at this
    exact foldlM_ub (mulIntoStep C .release N b f o 0) (mulIntoStep_zero_cases C N h2 f b o) 0 (mulIntoStep_zero_zero C N h2 hN f b o)
      (List.range' (0 + 1) T).reverse s1

/-- `rhs` has constant term 0: the first turn is undefined behaviour whatever the degrees. -/
theorem mulIntoDegree_ub_zero_release (h2 : 2 ≤ N) (f : S → S) (s b : Dense S) (da db o : Nat) (hp : N ^ (o + 1) < 2 ^ 64) (ho : 1 ≤ o)
    (hs : geomSum N (o + 1) ≤ s.data.length) : mulIntoDegree C .release N b f 1 true da db s o = .ub := by
  have hm := geomSum_mono (N := N) (a := min (o - 1) da) (b := o + 1) (by omega)
  have hm2 := geomSum_strict (N := N) (a := min (o - 1) da) (b := min (o - 1) da + 1) (by omega) (by omega)
  have hu : mulIntoAssign C .release N b f 1 o (min (o - 1) da) s = .ub := by
    unfold mulIntoAssign
    rw [subW_ok (by omega)]
    simp only [Res.bind_ok]
    rw [degreeRange_ok .release N h2 (o - min (o - 1) da) (TensorBasis.pow_lt64_mono h2 (by omega) hp), degreeRange_ok .release N h2 o hp,
      degreeRange_ok .release N h2 (min (o - 1) da) (TensorBasis.pow_lt64_mono h2 (by omega) hp),
      TensorBasis.startOfDegree_ok .release N h2 (min (o - 1) da) (TensorBasis.pow_lt64_mono h2 (by omega) hp)]
    simp only [Res.bind_ok, if_true]
    exact splitMul_ub_lhs C f s b _ _ _ _ (by omega) hm2
  obtain ⟨c, hc⟩ := subW_release o db
  unfold mulIntoDegree
  rw [hc, subW_ok ho]
  simp only [Res.bind_ok, if_true]
  rw [hu]
  rfl

end DenseAlg

section
variable {S R : Type} (C : Coeff S R) (N : Nat)

/-- C37, release builds: a right factor with constant term 0 is undefined behaviour at every truncation degree from 1. -/
theorem C37_release_zero_constant_ub (h2 : 2 ≤ N) (f : S → S) (a b : Dense S) (da db D : Nat) (ha : FullTo N a da) (hb : FullTo N b db)
    (x : S) (rest : List S) (hx : b.data = x :: rest) (hz : C.eq x C.zero = true) (hM : 1 ≤ min D (da + db))
    (hp : N ^ (min D (da + db) + 1) < 2 ^ 64) : (DenseAlg.ops C .release N).mulInto a b f (some D) = .ub := by
  obtain ⟨s1, g1, g2, _⟩ := growTo_ok C .release N h2 a da (min D (da + db)) (ha.hasDegree h2).1 ha.2 hp (target_of_full ha (by omega))
  have ho : offsetAssign C b = (1, true) := by
    unfold offsetAssign
    rw [hx]
    simp [hz]
  show mulInto C .release N a b f (some D) = _
  rw [mulInto_eq C .release N h2 f a b s1 da db D (ha.hasDegree h2).1 (hb.hasDegree h2).1 ha.2 hb.2 g1, ho,
    range'_reverse_head _ hM, List.foldlM_cons, mulIntoDegree_ub_zero_release C N h2 f s1 b da db _ hp hM (by omega)]
  rfl

/-- C37, release builds, right factor `1 + …` of degree beyond the truncation degree: `self` is padded with zeros and otherwise left alone. -/
theorem C37_release_one_constant (h2 : 2 ≤ N) (f : S → S) (a b : Dense S) (da db D : Nat) (ha : FullTo N a da) (hb : FullTo N b db)
    (x : S) (rest : List S) (hx : b.data = x :: rest) (hz : C.eq x C.zero = false) (h1 : C.eq x C.one = true) (hD : 1 ≤ D) (hlt : D < db) :
    ∃ r, (DenseAlg.ops C .release N).mulInto a b f (some D) = .ok r ∧ r.size = geomSum N (max da D + 1) ∧ ∀ w, coef C N r w = coef C N a w := by
  have hM : min D (da + db) = D := by omega
  have hp : N ^ (D + 1) < 2 ^ 64 := pow_lt64_mono h2 (by omega) hb.2
  obtain ⟨s, g1, _⟩ := growTo_ok C .release N h2 a da D (ha.hasDegree h2).1 ha.2 hp (target_of_full ha hD)
  obtain ⟨gl, ge⟩ := growTo_idx C .release N h2 a s da D ha hD hp g1
  have hdb := deg_lt64 h2 hb.2
  have ho : offsetAssign C b = (1, false) := by
    unfold offsetAssign
    rw [hx]
    simp [hz, h1]
  have hL : ∀ L : List Nat, (∀ o ∈ L, 1 ≤ o ∧ o ≤ D) → L.foldlM (mulIntoDegree C .release N b f 1 false da db) s = .ok s := by
    intro L hL
    induction L with
    | nil => rfl
    | cons o L ih =>
      have := hL o (by simp)
      rw [List.foldlM_cons, mulIntoDegree_skip C N f s b da db o this.1 (by omega) (by omega), Res.bind_ok]
      exact ih fun o ho => hL o (by simp [ho])
  refine ⟨s, ?_, gl, fun w => ge _⟩
  show mulInto C .release N a b f (some D) = _
  rw [mulInto_eq C .release N h2 f a b s da db D (ha.hasDegree h2).1 (hb.hasDegree h2).1 ha.2 hb.2 (by rw [hM]; exact g1), ho, hM]
  exact hL _ (by intro o ho; rw [List.mem_reverse, List.mem_range'_1] at ho; omega)

/-- C37, release builds, any other constant term and a degree beyond the truncation degree: every coefficient of degree `d ≥ 1` up to `D` is multiplied
by all coefficients of degree `d - da` of the right factor in turn (by its constant term if `d ≤ da`). -/
theorem C37_release_scale (h2 : 2 ≤ N) (f : S → S) (a b : Dense S) (da db D : Nat) (ha : FullTo N a da) (hb : FullTo N b db)
    (x : S) (rest : List S) (hx : b.data = x :: rest) (hz : C.eq x C.zero = false) (h1 : C.eq x C.one = false) (hD : 1 ≤ D) (hlt : D < db)
    (hda : 1 ≤ da) :
    ∃ r, (DenseAlg.ops C .release N).mulInto a b f (some D) = .ok r ∧ r.size = geomSum N (max da D + 1) ∧
      ∀ w, ValidWord N w → coef C N r w = if 1 ≤ w.length ∧ w.length ≤ D then
        (lvl N b (w.length - min w.length da)).foldl (fun o r => f (C.mul o r)) (coef C N a w) else coef C N a w := by
  have hM : min D (da + db) = D := by omega
  have hp : N ^ (D + 1) < 2 ^ 64 := pow_lt64_mono h2 (by omega) hb.2
  obtain ⟨s, g1, _⟩ := growTo_ok C .release N h2 a da D (ha.hasDegree h2).1 ha.2 hp (target_of_full ha hD)
  obtain ⟨gl, ge⟩ := growTo_idx C .release N h2 a s da D ha hD hp g1
  have ho : offsetAssign C b = (0, true) := by
    unfold offsetAssign
    rw [hx]
    simp [hz, h1]
  have hbl : geomSum N (db + 1) ≤ b.data.length := by have := hb.1; unfold Dense.size at this; omega
  obtain ⟨r, e, l, g⟩ := scaleLoop C N h2 f s b da db D hda hlt hb.2 (by rw [gl]; exact geomSum_mono (by omega)) hbl (List.range' 1 D).reverse
    (by intro o ho; rw [List.mem_reverse, List.mem_range'_1] at ho; omega) ((List.reverse_perm _).nodup_iff.2 List.nodup_range')
  refine ⟨r, ?_, l.trans gl, fun w hw => ?_⟩
  · show mulInto C .release N a b f (some D) = _
    rw [mulInto_eq C .release N h2 f a b s da db D (ha.hasDegree h2).1 (hb.hasDegree h2).1 ha.2 hb.2 (by rw [hM]; exact g1), ho, hM]
    exact e
  · have hg := g w hw
    have hge : (at? N s.data w).getD C.zero = coef C N a w := ge _
    show (at? N r.data w).getD C.zero = _
    rw [hg]
    simp only [List.mem_reverse, List.mem_range'_1]
    by_cases hc : 1 ≤ w.length ∧ w.length ≤ D
    · rw [if_pos (by omega), if_pos hc]
      obtain ⟨y, hy⟩ := at?_isSome (l := s.data) hw hc.2 (by rw [gl]; exact geomSum_mono (by omega))
      rw [hy] at hge ⊢
      rw [Option.map_some, Option.getD_some, ← hge, Option.getD_some]
    · rw [if_neg (by omega), if_neg hc, hge]

theorem foldl_zero_mul [CommRing S] (hC : C.IsRing) (l : List S) : List.foldl (fun o r => id (C.mul o r)) (0 : S) l = 0 := by
  induction l with
  | nil => rfl
  | cons y l ih => rw [List.foldl_cons, id, hC.mul, zero_mul]; exact ih

/-- The same over a ring: the coefficients of degree 1 to `D` are multiplied by the constant term of the right factor, as if it were a number. -/
theorem C37_release_scale_ring [CommRing S] (hC : C.IsRing) (h2 : 2 ≤ N) (a b : Dense S) (da db D : Nat) (ha : FullTo N a da) (hb : FullTo N b db)
    (x : S) (rest : List S) (hx : b.data = x :: rest) (hz : C.eq x C.zero = false) (h1 : C.eq x C.one = false) (hD : 1 ≤ D) (hlt : D < db)
    (hda : 1 ≤ da) :
    ∃ r, (DenseAlg.ops C .release N).multiplyInplace a b (some D) = .ok r ∧ r.size = geomSum N (max da D + 1) ∧
      ∀ w, ValidWord N w → coef C N r w = if 1 ≤ w.length ∧ w.length ≤ D then coef C N a w * x else coef C N a w := by
  obtain ⟨r, e, sz, g⟩ := C37_release_scale C N h2 id a b da db D ha hb x rest hx hz h1 hD hlt hda
  refine ⟨r, e, sz, fun w hw => ?_⟩
  rw [g w hw]
  split_ifs with hc
  · by_cases hd : w.length ≤ da
    · rw [show w.length - min w.length da = 0 by omega, lvl_zero N b x rest hx, List.foldl_cons, List.foldl_nil, id, hC.mul]
    · have h0 : coef C N a w = 0 := coef_zero_of_length C N hC (ha.hasDegree h2) w hw (by omega)
      rw [h0, foldl_zero_mul C hC, zero_mul]
  · rfl

/-- C37, release builds, left factor of degree 1 and nothing truncated: the turns above and at the degree of the right factor. -/
theorem release_top (h2 : 2 ≤ N) (f : S → S) (a b : Dense S) (db D : Nat) (ha : FullTo N a 1) (hb : FullTo N b db) (hdb : 1 ≤ db)
    (x : S) (rest : List S) (hx : b.data = x :: rest) (hz : C.eq x C.zero = false) (h1 : C.eq x C.one = false) (hD : db + 1 ≤ D)
    (hp : N ^ (db + 2) < 2 ^ 64) :
    ∃ (s s1 s2 s3 : Dense S) (r1 r2 : List S), growTo C .release N a (db + 1) = .ok s ∧ s.data.length = geomSum N (db + 2) ∧
      s1.data.length = s.data.length ∧
      (∀ i, s1.data[i]? = if geomSum N (1 + db) ≤ i ∧ i < geomSum N (1 + db + 1) then
        (s.data[i]?).map (fun x => List.foldl (fun o r => f (C.mul o r)) x r1) else s.data[i]?) ∧
      s2.data.length = s.data.length ∧
      (∀ i, s2.data[i]? = if geomSum N db ≤ i ∧ i < geomSum N (db + 1) then
        (s1.data[i]?).map (fun x => List.foldl (fun o r => f (C.mul o r)) x r2) else s1.data[i]?) ∧
      s3.data.length = s.data.length ∧ s3.data[0]? = s2.data[0]? ∧
      (∀ i x y, s2.data[0]? = some x → b.data[i]? = some y →
        s3.data[i + 1]? = if geomSum N db ≤ i ∧ i < geomSum N (db + 1) then (s2.data[i + 1]?).map (fun z => C.add z (f (C.mul x y)))
          else s2.data[i + 1]?) ∧
      (∀ i, geomSum N (db + 1) ≤ i → s3.data[i + 1]? = s2.data[i + 1]?) ∧
      mulInto C .release N a b f (some D) = (List.range' 1 (db - 1)).reverse.foldlM (mulIntoDegree C .release N b f 0 true 1 db) s3 := by
  have hM : min D (1 + db) = db + 1 := by omega
  have ho : offsetAssign C b = (0, true) := by
    unfold offsetAssign
    rw [hx]
    simp [hz, h1]
  have hbl : b.data.length = geomSum N (db + 1) := hb.1
  obtain ⟨s, g1, _⟩ := growTo_ok C .release N h2 a 1 (db + 1) (ha.hasDegree h2).1 ha.2 hp (target_of_full ha (by omega))
  obtain ⟨gl, _⟩ := growTo_idx C .release N h2 a s 1 _ ha (by omega) hp g1
  rw [show max 1 (db + 1) + 1 = db + 2 by omega] at gl
  obtain ⟨r1, s1, e1, l1, i1⟩ := mulIntoDegree_top_idx C .release N h2 f s b 1 db (by rw [show 1 + db + 1 = db + 2 by omega]; exact hp) (by omega)
    (by rw [gl]; exact geomSum_mono (by omega)) (by omega)
  have hm := geomSum_mono (N := N) (a := db) (b := db + 1) (by omega)
  have hst := geomSum_strict (N := N) (a := db + 1) (b := db + 2) (by omega) (by omega)
  obtain ⟨r2, s2, _, e2, l2, i2⟩ := mulIntoAssign_idx C .release N h2 f s1 b db 1 hb.2 hdb (by omega)
    (by rw [show db - 1 + 1 = db by omega]; omega)
  obtain ⟨s3, e3, l3, i0, i3, i4⟩ := mulIntoStep_zero C .release N h2 f s2 b db hdb hb.2 (by omega) (by omega)
  refine ⟨s, s1, s2, s3, r1, r2, g1, gl, l1, i1, by omega, i2, by omega, i0, i3, i4, ?_⟩
  have e4 := (mulIntoDegree_low C .release N f s1 s2 b 1 db hdb (by omega) e2).trans e3
  rw [mulInto_eq C .release N h2 f a b s 1 db D (ha.hasDegree h2).1 (hb.hasDegree h2).1 ha.2 hb.2 (by rw [hM]; exact g1), ho, hM,
    range'_reverse_head _ (by omega), List.foldlM_cons]
  simp only
  rw [show db + 1 = 1 + db by omega, e1, Res.bind_ok, show 1 + db - 1 = db by omega, range'_reverse_head _ hdb, List.foldlM_cons, e4, Res.bind_ok]

/-- C37, exactly when a release build returns from an in-place product with a right factor of degree at least 1 (compare `C37_debug_returns_iff`).  The
remaining products are undefined behaviour. -/
theorem C37_release_returns_iff (h2 : 2 ≤ N) (f : S → S) (a b : Dense S) (da db D : Nat) (ha : FullTo N a da) (hb : FullTo N b db) (hdb : 1 ≤ db)
    (hD : 1 ≤ D) (x : S) (rest : List S) (hx : b.data = x :: rest) (hp : N ^ (min D (da + db) + 1) < 2 ^ 64) :
    ((∃ r, (DenseAlg.ops C .release N).mulInto a b f (some D) = .ok r) ∨ (DenseAlg.ops C .release N).mulInto a b f (some D) = .ub) ∧
    ((∃ r, (DenseAlg.ops C .release N).mulInto a b f (some D) = .ok r) ↔
      C.eq x C.zero = false ∧ ((C.eq x C.one = true ∧ D < db) ∨
        (C.eq x C.one = false ∧ ((D < db ∧ 1 ≤ da) ∨ (da = 1 ∧ db + 1 ≤ D) ∨ (2 ≤ da ∧ db = 1 ∧ D = 1))))) := by
  have hM : 1 ≤ min D (da + db) := by omega
  have key : ((C.eq x C.zero = false ∧ ((C.eq x C.one = true ∧ D < db) ∨
        (C.eq x C.one = false ∧ ((D < db ∧ 1 ≤ da) ∨ (da = 1 ∧ db + 1 ≤ D) ∨ (2 ≤ da ∧ db = 1 ∧ D = 1))))) ∧
        ∃ r, (DenseAlg.ops C .release N).mulInto a b f (some D) = .ok r) ∨
      (¬ (C.eq x C.zero = false ∧ ((C.eq x C.one = true ∧ D < db) ∨
        (C.eq x C.one = false ∧ ((D < db ∧ 1 ≤ da) ∨ (da = 1 ∧ db + 1 ≤ D) ∨ (2 ≤ da ∧ db = 1 ∧ D = 1))))) ∧
        (DenseAlg.ops C .release N).mulInto a b f (some D) = .ub) := by
    cases hz : C.eq x C.zero with
    | true => exact .inr ⟨by simp, C37_release_zero_constant_ub C N h2 f a b da db D ha hb x rest hx hz hM hp⟩
    | false =>
      cases h1 : C.eq x C.one with
      | true =>
        rcases Nat.lt_or_ge D db with hlt | hge
        · obtain ⟨r, hr, _⟩ := C37_release_one_constant C N h2 f a b da db D ha hb x rest hx hz h1 hD hlt
          exact .inl ⟨⟨rfl, .inl ⟨rfl, hlt⟩⟩, r, hr⟩
        · refine .inr ⟨by simp; omega, C37_inplace_one_constant_ub C .release N h2 f a b da db D ha hb x rest hx hz h1 hdb hM (by omega) hp⟩
      | false =>
        have ho : offsetAssign C b = (0, true) := by
          unfold offsetAssign
          rw [hx]
          simp [hz, h1]
        have hbl : b.data.length = geomSum N (db + 1) := hb.1
        rcases Nat.eq_zero_or_pos da with rfl | hpos
        · refine .inr ⟨by simp, ?_⟩
          obtain ⟨s, g1, _⟩ := growTo_ok C .release N h2 a 0 (min D (0 + db)) (ha.hasDegree h2).1 ha.2 hp (target_of_full ha hM)
          obtain ⟨gl, _⟩ := growTo_idx C .release N h2 a s 0 _ ha hM hp g1
          show mulInto C .release N a b f (some D) = .ub
          rw [mulInto_eq C .release N h2 f a b s 0 db D (ha.hasDegree h2).1 (hb.hasDegree h2).1 ha.2 hb.2 g1, ho,
            range'_reverse_head _ hM, List.foldlM_cons]
          simp only
          rw [mulIntoDegree_lhs_zero_release C N h2 f s b _ db (by omega) hb.2 (by rw [gl, Nat.max_eq_right (Nat.zero_le _)]) (by omega)]
          rfl
        · rcases Nat.lt_or_ge D db with hlt | hge
          · obtain ⟨r, hr, _⟩ := C37_release_scale C N h2 f a b da db D ha hb x rest hx hz h1 hD hlt hpos
            exact .inl ⟨⟨rfl, .inr ⟨rfl, .inl ⟨hlt, hpos⟩⟩⟩, r, hr⟩
          · rcases Nat.lt_or_ge da 2 with hda | hda
            · have : da = 1 := by omega
              subst this
              rcases Nat.lt_or_ge D (db + 1) with hD1 | hD1
              · refine .inr ⟨by simp; omega, ?_⟩
                have hMe : min D (1 + db) = db := by omega
                obtain ⟨s, g1, _⟩ := growTo_ok C .release N h2 a 1 (min D (1 + db)) (ha.hasDegree h2).1 ha.2 hp (target_of_full ha hM)
                obtain ⟨gl, _⟩ := growTo_idx C .release N h2 a s 1 _ ha hM hp g1
                show mulInto C .release N a b f (some D) = .ub
                rw [mulInto_eq C .release N h2 f a b s 1 db D (ha.hasDegree h2).1 (hb.hasDegree h2).1 ha.2 hb.2 g1, ho, hMe,
                  range'_reverse_head _ hdb, List.foldlM_cons]
                simp only
                rw [hMe] at gl
                have hsl : s.data.length = geomSum N (db + 1) := by rw [gl, Nat.max_eq_right hdb]
                have hm := geomSum_mono (N := N) (a := db) (b := db + 1) (by omega)
                obtain ⟨_, s2, _, e2, l2, _⟩ := mulIntoAssign_idx C .release N h2 f s b db 1 hb.2 hdb (by omega)
                  (by rw [show db - 1 + 1 = db by omega]; omega)
                have e4 := (mulIntoDegree_low C .release N f s s2 b 1 db hdb (by omega) e2).trans
                  (mulIntoStep_zero_ub C .release N h2 f s2 b db hdb hb.2 (by omega))
                rw [e4]
                rfl
              · have hMe : min D (1 + db) = db + 1 := by omega
                rw [hMe] at hp
                obtain ⟨s, s1, s2, s3, _, _, _, hl, _, _, _, _, hl3, _, _, _, hrun⟩ :=
                  release_top C N h2 f a b db D ha hb hdb x rest hx hz h1 hD1 hp
                obtain ⟨r, e, _⟩ := scaleLoop C N h2 f s3 b 1 db (db - 1) (by omega) (by omega) hb.2
                  (by rw [hl3, hl]; exact geomSum_mono (by omega)) (by omega) (List.range' 1 (db - 1)).reverse
                  (by intro o ho; rw [List.mem_reverse, List.mem_range'_1] at ho; omega) ((List.reverse_perm _).nodup_iff.2 List.nodup_range')
                exact .inl ⟨⟨rfl, .inr ⟨rfl, .inr (.inl ⟨rfl, hD1⟩)⟩⟩, r, hrun.trans e⟩
            · by_cases hM2 : 2 ≤ min D (da + db)
              · exact .inr ⟨by simp; omega, C37_inplace_ub C .release N h2 f a b da db D ha hb hda hdb hM2 (by omega) hp⟩
              · have hdb1 : db = 1 := by omega
                subst hdb1
                have hD1 : D = 1 := by omega
                exact .inl ⟨⟨rfl, .inr ⟨rfl, .inr (.inr ⟨hda, rfl, hD1⟩)⟩⟩,
                  C37_inplace_linear_returns C .release N h2 f a b da D ha hb x rest hx hz h1 (.inr ⟨hda, hD1⟩) hp⟩
  rcases key with ⟨hc, hr⟩ | ⟨hc, hr⟩
  · exact ⟨.inl hr, ⟨fun _ => hc, fun _ => hr⟩⟩
  · exact ⟨.inr hr, ⟨fun ⟨r, h⟩ => (by cases hr.symm.trans h), fun h => absurd h hc⟩⟩

/-- C37, release builds, left factor of degree 1, right factor of degree at least 2, nothing truncated: letters are multiplied by the constant
term of the right factor; the top coefficients of the right factor times the constant term of `self` land one place to the right of where they belong;
every other product is missing. -/
theorem C37_release_linear_left [CommRing S] (hC : C.IsRing) (h2 : 2 ≤ N) (a b : Dense S) (db D : Nat) (ha : FullTo N a 1) (hb : FullTo N b db)
    (hdb : 2 ≤ db) (x : S) (rest : List S) (hx : b.data = x :: rest) (hz : C.eq x C.zero = false) (h1 : C.eq x C.one = false) (hD : db + 1 ≤ D)
    (hp : N ^ (db + 2) < 2 ^ 64) :
    ∃ r, (DenseAlg.ops C .release N).multiplyInplace a b (some D) = .ok r ∧ FullTo N r (db + 1) ∧ coef C N r [] = coef C N a [] ∧
      (∀ l, 1 ≤ l → l ≤ N → coef C N r [l] = coef C N a [l] * x) ∧
      ∀ w, ValidWord N w → 2 ≤ w.length → coef C N r w =
        if geomSum N db < wordIndex N w ∧ wordIndex N w ≤ geomSum N (db + 1) then
          coef C N a [] * coef C N b (indexWord N (wordIndex N w - 1)) else 0 := by
  obtain ⟨s, s1, s2, s3, r1, r2, hg, hl, l1, i1, l2, i2, l3, i30, i3, i4, hrun⟩ :=
    release_top C N h2 id a b db D ha hb (by omega) x rest hx hz h1 hD hp
  have hbl : b.data.length = geomSum N (db + 1) := hb.1
  have hal : a.data.length = geomSum N (1 + 1) := ha.1
  obtain ⟨r, e, lr, gr⟩ := scaleLoop C N h2 id s3 b 1 db (db - 1) (by omega) (by omega) hb.2
    (by rw [l3, hl]; exact geomSum_mono (by omega)) (by omega) (List.range' 1 (db - 1)).reverse
    (by intro o ho; rw [List.mem_reverse, List.mem_range'_1] at ho; omega) ((List.reverse_perm _).nodup_iff.2 List.nodup_range')
  have ge := (growTo_idx C .release N h2 a s 1 _ ha (by omega) hp hg).2
  rw [hC.zero] at ge
  have hg2 : geomSum N (1 + 1) ≤ geomSum N db := geomSum_mono (by omega)
  have hg3 : geomSum N db ≤ geomSum N (1 + db) := geomSum_mono (by omega)
  have hg4 := geomSum_mono (N := N) (a := db) (b := db + 1) (by omega)
  have hg5 := geomSum_strict (N := N) (a := db + 1) (b := db + 2) (by omega) (by omega)
  have hg6 := geomSum_two N
  have hg7 : geomSum N (1 + 1) = geomSum N 2 := rfl
  have hscale : ∀ (t t' : Dense S) (lo hi : Nat) (rr : List S), geomSum N (1 + 1) ≤ lo →
      (∀ i, t'.data[i]? = if lo ≤ i ∧ i < hi then (t.data[i]?).map (fun x => List.foldl (fun o r => id (C.mul o r)) x rr) else t.data[i]?) →
      (∀ i : Nat, (t.data[i]?).getD 0 = (a.data[i]?).getD 0) → ∀ i : Nat, (t'.data[i]?).getD 0 = (a.data[i]?).getD 0 := by
    intro t t' lo hi rr hlo ht' ht i
    rw [ht' i]
    split_ifs with hi
    · have hai : a.data[i]? = none := List.getElem?_eq_none (by omega)
      have hti := ht i
      rw [hai] at hti ⊢
      cases hs : t.data[i]? with
      | none => rfl
      | some y =>
        rw [hs] at hti
        simp only [Option.getD_some, Option.getD_none] at hti
        simp only [Option.map_some, Option.getD_some, Option.getD_none, hti]
        exact foldl_zero_mul C hC rr
    · exact ht i
  have ge1 := hscale s s1 _ _ r1 (by omega) i1 ge
  have ge2 := hscale s1 s2 _ _ r2 (by omega) i2 ge1
  obtain ⟨a0, ha0⟩ : ∃ a0, s2.data[0]? = some a0 := ⟨s2.data[0]'(by omega), List.getElem?_eq_getElem _⟩
  have ha0' : (a.data[0]?).getD 0 = a0 := by rw [← ge2 0, ha0]; rfl
  have ge3 : ∀ i : Nat, (s3.data[i]?).getD 0 = if geomSum N db < i ∧ i ≤ geomSum N (db + 1) then (a.data[0]?).getD 0 * (b.data[i - 1]?).getD 0
      else (a.data[i]?).getD 0 := by
    intro i
    cases i with
    | zero => rw [i30, ge2, if_neg (by omega)]
    | succ i =>
      rcases Nat.lt_or_ge i (geomSum N (db + 1)) with hlt | hge
      · obtain ⟨y, hy⟩ : ∃ y, b.data[i]? = some y := ⟨b.data[i]'(by omega), List.getElem?_eq_getElem _⟩
        rw [i3 i a0 y ha0 hy, Nat.add_sub_cancel, hy]
        by_cases hc : geomSum N db ≤ i
        · have hs2 := ge2 (i + 1)
          rw [List.getElem?_eq_none (l := a.data) (by omega), Option.getD_none, List.getElem?_eq_getElem (l := s2.data) (by omega),
            Option.getD_some] at hs2
          rw [if_pos (by omega), if_pos (by omega), List.getElem?_eq_getElem (l := s2.data) (by omega), Option.map_some, Option.getD_some, hs2,
            Option.getD_some, hC.add, zero_add, ha0', id, hC.mul]
        · rw [if_neg (by omega), if_neg (by omega), ge2]
      · rw [i4 i hge, if_neg (by omega), ge2]
  have hcf : ∀ (v : Dense S) w, coef C N v w = (v.data[wordIndex N w]?).getD 0 := fun v w => by unfold coef stored; rw [hC.zero]
  have hcr : ∀ w, ValidWord N w → coef C N r w = if w.length ∈ (List.range' 1 (db - 1)).reverse then
      List.foldl (fun o r => id (C.mul o r)) ((s3.data[wordIndex N w]?).getD 0) (lvl N b (w.length - min w.length 1))
      else (s3.data[wordIndex N w]?).getD 0 := by
    intro w hw
    have := gr w hw
    unfold at? at this
    rw [hcf, this]
    split_ifs with hc
    · rw [List.mem_reverse, List.mem_range'_1] at hc
      have hb := (wordIndex_bounds hw).2
      have := geomSum_mono (N := N) (a := w.length + 1) (b := db + 1) (by omega)
      rw [List.getElem?_eq_getElem (l := s3.data) (by omega)]
      rfl
    · rfl
  have hw0 : wordIndex N [] = 0 := rfl
  refine ⟨r, hrun.trans e, ⟨?_, hp⟩, ?_, ?_, ?_⟩
  · show r.data.length = geomSum N (db + 2)
    omega
  · rw [hcr [] (by simp [ValidWord]), if_neg (by simp), hw0, ge3, if_neg (by omega), hcf, hw0]
  · intro l hl1 hlN
    have hw : ValidWord N [l] := by intro k hk; simp at hk; omega
    rw [hcr [l] hw, if_pos (by simp; omega), ge3, wordIndex_single, if_neg (by omega), hcf, wordIndex_single,
      show [l].length - min [l].length 1 = 0 from rfl, lvl_zero N b x rest hx]
    simp [hC.mul]
  · intro w hw hlen
    have hlo : geomSum N 2 ≤ wordIndex N w := Nat.le_trans (geomSum_mono hlen) (wordIndex_bounds hw).1
    have hza : (a.data[wordIndex N w]?).getD 0 = 0 := by rw [List.getElem?_eq_none (by omega)]; rfl
    rw [hcr w hw, ge3, hza]
    by_cases hc : geomSum N db < wordIndex N w ∧ wordIndex N w ≤ geomSum N (db + 1)
    · have hdeg : ¬ w.length ∈ (List.range' 1 (db - 1)).reverse := by
        rw [List.mem_reverse, List.mem_range'_1]
        intro h
        have := (wordIndex_bounds hw).2
        have := geomSum_mono (N := N) (a := w.length + 1) (b := db) (by omega)
        omega
      rw [if_neg hdeg, if_pos hc, if_pos hc, hcf, hcf, hw0, wordIndex_indexWord]
    · rw [if_neg hc, if_neg hc, foldl_zero_mul C hC, ite_self]

section
variable {S : Type} [CommRing S]

theorem conv_right_zero (f g : List Nat → S) (w : List Nat) (h : ∀ u v, w = u ++ v → v ≠ [] → f u = 0 ∨ g v = 0) : conv f g w = f w * g [] := by
  induction w generalizing f with
  | nil => rfl
  | cons l w ih =>
    rw [conv, ih (fun u => f (l :: u)) (fun u v e hv => h (l :: u) v (by rw [e]; rfl) hv)]
    have : f [] * g (l :: w) = 0 := by
      rcases h [] (l :: w) rfl (by simp) with h | h
      · rw [h, zero_mul]
      · rw [h, mul_zero]
    rw [this, zero_add]

theorem conv_append_zero (f g : List Nat → S) (u v : List Nat) (h : ∀ t, t.length < u.length → (∃ t', u = t ++ t') → f t = 0) :
    conv f g (u ++ v) = conv (fun t => f (u ++ t)) g v := by
  induction u generalizing f with
  | nil => rfl
  | cons l u ih =>
    rw [List.cons_append, conv, h [] (by simp) ⟨_, rfl⟩, zero_mul, zero_add]
    exact ih (fun t => f (l :: t)) fun t ht ⟨t', e⟩ => h (l :: t) (by simpa using ht) ⟨t', by rw [e]; rfl⟩

/-- Over an integral domain a product up to degree `D` is the left factor times a number exactly when no two other coefficients meet. -/
theorem conv_scale_iff [IsDomain S] (N D : Nat) (f g : List Nat → S) :
    (∀ w, ValidWord N w → w.length ≤ D → conv f g w = f w * g []) ↔
      ∀ u v, ValidWord N u → ValidWord N v → v ≠ [] → u.length + v.length ≤ D → f u = 0 ∨ g v = 0 := by
  constructor
  · intro h
    by_contra hcon
    push Not at hcon
    obtain ⟨u0, v0, hu0, hv0, hn0, hd0, hf0, hg0⟩ := hcon
    classical
    have hU : ∃ n u, ValidWord N u ∧ u.length = n ∧ f u ≠ 0 := ⟨_, u0, hu0, rfl, hf0⟩
    have hV : ∃ n v, ValidWord N v ∧ v ≠ [] ∧ v.length = n ∧ g v ≠ 0 := ⟨_, v0, hv0, hn0, rfl, hg0⟩
    obtain ⟨u, hu, hul, hfu⟩ := Nat.find_spec hU
    obtain ⟨v, hv, hvn, hvl, hgv⟩ := Nat.find_spec hV
    have hmu : Nat.find hU ≤ u0.length := Nat.find_min' hU ⟨u0, hu0, rfl, hf0⟩
    have hmv : Nat.find hV ≤ v0.length := Nat.find_min' hV ⟨v0, hv0, hn0, rfl, hg0⟩
    have hval : ValidWord N (u ++ v) := by
      intro k hk
      rcases List.mem_append.1 hk with hk | hk
      · exact hu k hk
      · exact hv k hk
    have e := h (u ++ v) hval (by rw [List.length_append]; omega)
    rw [conv_append_zero f g u v (fun t ht ⟨t', e⟩ => by
      by_contra hne
      exact Nat.find_min hU (m := t.length) (by omega) ⟨t, fun k hk => hu k (by rw [e]; exact List.mem_append_left _ hk), rfl, hne⟩)] at e
    cases v with
    | nil => exact hvn rfl
    | cons l v =>
      rw [conv, conv_right_zero (fun t => f (u ++ l :: t)) g v (fun y z e hz => .inr (by
        by_contra hne
        refine Nat.find_min hV (m := z.length) ?_ ⟨z, fun k hk => hv k (by rw [e]; simp [hk]), hz, rfl, hne⟩
        rw [← hvl, e]
        simp
        omega)), List.append_nil] at e
      have : f u * g (l :: v) = 0 := by
        have := sub_eq_zero.2 e
        simpa using this
      exact mul_ne_zero hfu hgv this
  · intro h w hw hl
    refine conv_right_zero f g w fun u v e hv => h u v ?_ ?_ hv ?_
    · exact fun k hk => hw k (by rw [e]; exact List.mem_append_left _ hk)
    · exact fun k hk => hw k (by rw [e]; exact List.mem_append_right _ hk)
    · rw [← List.length_append, ← e]
      exact hl

end

/-- C37, over an integral domain, exactly when multiplying in place by a tensor of degree at least 1 is right in a release build: the product is the
left factor times the constant term `x` of the right factor (no other two coefficients meet), and either `x = 1`, or the constant term of the left
factor is 0 and `x` is not 0; moreover the right factor has degree beyond `D`, or the left factor has degree 1 and nothing is truncated. -/
theorem C37_release_right_iff_partial [CommRing S] [IsDomain S] (hC : C.IsRing) (hE : C.EqLawful) (h2 : 2 ≤ N) (a b : Dense S) (da db D : Nat)
    (ha : FullTo N a da) (hb : FullTo N b db) (hdb : 1 ≤ db) (hD : 1 ≤ D) (hp : N ^ (min D (da + db) + 1) < 2 ^ 64) :
    (∃ r r', (DenseAlg.ops C .release N).multiply a b (some D) = .ok r ∧ (DenseAlg.ops C .release N).multiplyInplace a b (some D) = .ok r' ∧
      r'.data = r.data) ↔
      ((D < db ∧ da ≤ D ∧ (coef C N b [] = 1 ∨ (1 ≤ da ∧ coef C N b [] ≠ 0 ∧ coef C N a [] = 0))) ∨
        (da = 1 ∧ db + 1 ≤ D ∧ coef C N b [] ≠ 0 ∧ coef C N b [] ≠ 1 ∧ coef C N a [] = 0)) ∧
      ∀ u v, ValidWord N u → ValidWord N v → v ≠ [] → u.length + v.length ≤ D → coef C N a u = 0 ∨ coef C N b v = 0 := by
  obtain ⟨x, rest, hx⟩ : ∃ x rest, b.data = x :: rest := by
    cases hd : b.data with
    | nil =>
      have h1 : b.data.length = geomSum N (db + 1) := hb.1
      have := geomSum_pos (N := N) (d := db + 1) (by omega)
      rw [hd] at h1
      simp at h1
      omega
    | cons x rest => exact ⟨x, rest, rfl⟩
  have hbx : coef C N b [] = x := by
    unfold coef stored
    rw [hx]
    rfl
  have eqf : ∀ y : S, C.eq x y = false ↔ x ≠ y := fun y => by rw [Bool.eq_false_iff, ne_eq, ne_eq, hE]
  have e0 : C.eq x C.zero = false ↔ x ≠ 0 := by rw [eqf, hC.zero]
  have e1 : C.eq x C.one = false ↔ x ≠ 1 := by rw [eqf, hC.one]
  have e1' : C.eq x C.one = true ↔ x = 1 := by rw [hE, hC.one]
  obtain ⟨r, q1, q2, q3⟩ := C33_multiply_ring C .release N hC h2 a b da db D ha hb (by omega) hp
  -- being right, for a result that is known
  have right : ∀ r', (DenseAlg.ops C .release N).multiplyInplace a b (some D) = .ok r' → r'.size = r.size →
      (∀ w, ValidWord N w → w.length ≤ D → coef C N r' w = coef C N a w * coef C N b []) → (∀ w, ValidWord N w → D < w.length → coef C N r' w = 0) →
      ((∃ r r', (DenseAlg.ops C .release N).multiply a b (some D) = .ok r ∧
        (DenseAlg.ops C .release N).multiplyInplace a b (some D) = .ok r' ∧ r'.data = r.data) ↔
      ∀ u v, ValidWord N u → ValidWord N v → v ≠ [] → u.length + v.length ≤ D → coef C N a u = 0 ∨ coef C N b v = 0) := by
    intro r' hr' hs hlow hhigh
    rw [← conv_scale_iff]
    constructor
    · rintro ⟨r0, r0', f1, f2, f3⟩ w hw hl
      cases q1.symm.trans f1
      cases hr'.symm.trans f2
      have := q3 w hw
      rw [if_pos hl] at this
      rw [← this, ← hlow w hw hl]
      unfold coef stored
      rw [f3]
    · intro h
      refine ⟨r, r', q1, hr', data_ext_coef C (by omega : 1 ≤ N) hs fun w hw => ?_⟩
      rw [q3 w hw]
      split_ifs with hl
      · rw [h w hw hl, hlow w hw hl]
      · exact hhigh w hw (by omega)
  have nil_valid : ValidWord N ([] : List Nat) := by simp [ValidWord]
  have size_eq : ∀ r', (∃ r0 r0', (DenseAlg.ops C .release N).multiply a b (some D) = .ok r0 ∧
        (DenseAlg.ops C .release N).multiplyInplace a b (some D) = .ok r0' ∧ r0'.data = r0.data) →
      (DenseAlg.ops C .release N).multiplyInplace a b (some D) = .ok r' → r'.data = r.data := by
    rintro r' ⟨r0, r0', f1, f2, f3⟩ hr'
    cases q1.symm.trans f1
    cases hr'.symm.trans f2
    exact f3
  have const : ∀ r', (DenseAlg.ops C .release N).multiplyInplace a b (some D) = .ok r' → r'.data = r.data → coef C N r' [] = coef C N a [] →
      x ≠ 1 → coef C N a [] = 0 := by
    intro r' _ hd h0 hx1
    have := q3 [] nil_valid
    rw [if_pos (by simp)] at this
    simp only [conv] at this
    rw [show coef C N r [] = coef C N r' [] by unfold coef stored; rw [hd], h0, hbx] at this
    by_contra hne
    exact hx1 (mul_left_cancel₀ hne (by rw [← this, mul_one]))
  have long : ∀ w, ValidWord N w → da < w.length → coef C N a w = 0 := fun w hw hl => coef_zero_of_length C N hC (ha.hasDegree h2) w hw hl
  by_cases hlt : D < db
  · have hM : min D (da + db) = D := by omega
    rw [hM] at q2
    have left : ((D < db ∧ da ≤ D ∧ (coef C N b [] = 1 ∨ (1 ≤ da ∧ coef C N b [] ≠ 0 ∧ coef C N a [] = 0))) ∨
        (da = 1 ∧ db + 1 ≤ D ∧ coef C N b [] ≠ 0 ∧ coef C N b [] ≠ 1 ∧ coef C N a [] = 0)) ↔
        (da ≤ D ∧ (x = 1 ∨ (1 ≤ da ∧ x ≠ 0 ∧ coef C N a [] = 0))) := by
      rw [hbx]
      constructor
      · rintro (⟨_, h⟩ | ⟨_, h, _⟩)
        · exact h
        · omega
      · exact fun h => .inl ⟨hlt, h⟩
    rw [left]
    by_cases hx1 : x = 1
    · obtain ⟨r', hr', hs, hco⟩ := C37_release_one_constant C N h2 id a b da db D ha hb x rest hx (e0.2 (by rw [hx1]; exact one_ne_zero))
        (e1'.2 hx1) hD hlt
      by_cases hda : da ≤ D
      · rw [right r' hr' (by rw [hs, q2.1, Nat.max_eq_right hda]) (fun w _ _ => by rw [hco, hbx, hx1, mul_one])
          (fun w hw hl => by rw [hco]; exact long w hw (by omega))]
        exact ⟨fun h => ⟨⟨hda, .inl hx1⟩, h⟩, fun h => h.2⟩
      · constructor
        · intro h
          have hd := size_eq r' h hr'
          have hss : r'.size = r.size := by unfold Dense.size; rw [hd]
          rw [hs, q2.1] at hss
          have := geomSum_strict (N := N) (a := D + 1) (b := max da D + 1) (by omega) (by omega)
          omega
        · exact fun h => absurd h.1.1 hda
    · by_cases hx0 : x = 0
      · constructor
        · rintro ⟨_, r', _, hr', _⟩
          cases (C37_release_zero_constant_ub C N h2 id a b da db D ha hb x rest hx (by rw [hE, hC.zero]; exact hx0) (by omega) hp).symm.trans hr'
        · rintro ⟨⟨_, h | h⟩, _⟩
          · exact absurd h hx1
          · exact absurd hx0 h.2.1
      · rcases Nat.eq_zero_or_pos da with rfl | hpos
        · constructor
          · rintro ⟨_, r', _, hr', _⟩
            have := ((C37_release_returns_iff C N h2 id a b 0 db D ha hb hdb hD x rest hx hp).2.1 ⟨r', hr'⟩).2
            rcases this with ⟨h, _⟩ | ⟨_, h⟩
            · exact absurd (e1'.1 h) hx1
            · omega
          · rintro ⟨⟨_, h | h⟩, _⟩
            · exact absurd h hx1
            · omega
        · obtain ⟨r', hr', hs, hco⟩ := C37_release_scale_ring C N hC h2 a b da db D ha hb x rest hx (e0.2 hx0) (e1.2 hx1) hD hlt hpos
          have hnil : coef C N r' [] = coef C N a [] := by rw [hco [] nil_valid, if_neg (by simp)]
          by_cases hda : da ≤ D ∧ coef C N a [] = 0
          · rw [right r' hr' (by rw [hs, q2.1, Nat.max_eq_right hda.1]) (fun w hw hl => by
                rw [hco w hw, hbx]
                by_cases hw0 : w = []
                · subst hw0
                  rw [if_neg (by simp), hda.2, zero_mul]
                · have := List.length_pos_iff.2 hw0
                  rw [if_pos (by omega)])
              (fun w hw hl => by rw [hco w hw, if_neg (by omega)]; exact long w hw (by omega))]
            exact ⟨fun h => ⟨⟨hda.1, .inr ⟨hpos, hx0, hda.2⟩⟩, h⟩, fun h => h.2⟩
          · constructor
            · intro h
              exfalso
              have hd := size_eq r' h hr'
              have hss : r'.size = r.size := by unfold Dense.size; rw [hd]
              rw [hs, q2.1] at hss
              refine hda ⟨?_, const r' hr' hd hnil hx1⟩
              by_contra hc
              have := geomSum_strict (N := N) (a := D + 1) (b := max da D + 1) (by omega) (by omega)
              omega
            · rintro ⟨⟨hd, h | h⟩, _⟩
              · exact absurd h hx1
              · exact absurd ⟨hd, h.2.2⟩ hda
  · have left : ((D < db ∧ da ≤ D ∧ (coef C N b [] = 1 ∨ (1 ≤ da ∧ coef C N b [] ≠ 0 ∧ coef C N a [] = 0))) ∨
        (da = 1 ∧ db + 1 ≤ D ∧ coef C N b [] ≠ 0 ∧ coef C N b [] ≠ 1 ∧ coef C N a [] = 0)) ↔
        (da = 1 ∧ db + 1 ≤ D ∧ x ≠ 0 ∧ x ≠ 1 ∧ coef C N a [] = 0) := by
      rw [hbx]
      exact ⟨fun h => h.resolve_left fun h => hlt h.1, .inr⟩
    rw [left]
    by_cases hc : da = 1 ∧ db + 1 ≤ D ∧ x ≠ 0 ∧ x ≠ 1
    · obtain ⟨rfl, hD1, hx0, hx1⟩ := hc
      have hM : min D (1 + db) = db + 1 := by omega
      rw [hM] at q2 hp
      obtain ⟨r', hr', hs, hnil, hlet, hrest⟩ : ∃ r', (DenseAlg.ops C .release N).multiplyInplace a b (some D) = .ok r' ∧ r'.size = r.size ∧
          coef C N r' [] = coef C N a [] ∧ (coef C N a [] = 0 → ∀ l, 1 ≤ l → l ≤ N → coef C N r' [l] = coef C N a [l] * x) ∧
          (coef C N a [] = 0 → ∀ w, ValidWord N w → 2 ≤ w.length → coef C N r' w = 0) := by
        rcases Nat.lt_or_ge db 2 with hd | hd
        · have : db = 1 := by omega
          subst this
          obtain ⟨r', f1, f2, f3, f4, f5⟩ := C37_inplace_linear_actual C .release N hC h2 a b 1 D ha hb x rest hx (e0.2 hx0) (e1.2 hx1)
            (.inl ⟨rfl, hD1⟩) (by rw [hM]; exact hp)
          refine ⟨r', f1, ?_, f3, fun h0 l hl hlN => ?_, fun h0 w hw hl => ?_⟩
          · rw [f2.1, q2.1, show max 1 (min D (1 + 1)) = 1 + 1 by omega]
          · rw [f4 l hl hlN, h0, zero_mul, ite_self, add_zero]
          · rw [f5 w hw hl, h0, zero_mul, ite_self, add_zero]
            exact long w hw (by omega)
        · obtain ⟨r', f1, f2, f3, f4, f5⟩ := C37_release_linear_left C N hC h2 a b db D ha hb hd x rest hx (e0.2 hx0) (e1.2 hx1) hD1 hp
          refine ⟨r', f1, by rw [f2.1, q2.1], f3, fun _ => f4, fun h0 w hw hl => ?_⟩
          rw [f5 w hw hl, h0, zero_mul, ite_self]
      by_cases ha0 : coef C N a [] = 0
      · have hall : ∀ w, ValidWord N w → coef C N r' w = coef C N a w * coef C N b [] := by
          intro w hw
          match w, hw with
          | [], _ => rw [hnil, ha0, zero_mul]
          | [l], hw =>
            have hl := hw l (by simp)
            rw [hlet ha0 l hl.1 hl.2, hbx]
          | k :: l :: w, hw => rw [hrest ha0 _ hw (by simp), long _ hw (by simp), zero_mul]
        rw [right r' hr' hs (fun w hw _ => hall w hw) (fun w hw hl => by rw [hall w hw, long w hw (by omega), zero_mul])]
        exact ⟨fun h => ⟨⟨rfl, hD1, hx0, hx1, ha0⟩, h⟩, fun h => h.2⟩
      · exact ⟨fun h => absurd (const r' hr' (size_eq r' h hr') hnil hx1) ha0, fun h => absurd h.1.2.2.2.2 ha0⟩
    · constructor
      · intro hr
        exfalso
        obtain ⟨_, r', _, hr', _⟩ := hr
        obtain ⟨hz, ⟨_, h⟩ | ⟨h1, h | h | h⟩⟩ := (C37_release_returns_iff C N h2 id a b da db D ha hb hdb hD x rest hx hp).2.1 ⟨r', hr'⟩
        · exact hlt h
        · exact hlt h.1
        · exact hc ⟨h.1, h.2, e0.1 hz, e1.1 h1⟩
        · obtain ⟨hda, rfl, rfl⟩ := h
          obtain ⟨r'', f1, f2, _⟩ := C37_inplace_linear_actual C .release N hC h2 a b da 1 ha hb x rest hx hz h1 (.inr ⟨hda, rfl⟩) hp
          cases f1.symm.trans hr'
          have hd := size_eq r' ⟨_, _, ‹_›, hr', ‹_›⟩ hr'
          have hss : r'.size = r.size := by unfold Dense.size; rw [hd]
          rw [f2.1, q2.1] at hss
          have := geomSum_strict (N := N) (a := min 1 (da + 1) + 1) (b := max da (min 1 (da + 1)) + 1) (by omega) (by omega)
          omega
      · exact fun h => absurd ⟨h.1.1, h.1.2.1, h.1.2.2.1, h.1.2.2.2.1⟩ hc

/-- Concrete runs in a release build: `(e1) (2 + e1 + e1 e1)` cut off at degree 1 comes out right, `(3 + e1) (1 + e1 + e1 e1)` cut off at degree 1 does
not; a left factor of degree 0 and a right factor without constant term are undefined behaviour. -/
example : (DenseAlg.ops intCoeff .release 2).multiplyInplace (.ofVec [0, 1, 0]) (.ofVec [2, 1, 0, 1, 0, 0, 0]) (some 1) = .ok (.ofVec [0, 2, 0]) ∧
    (DenseAlg.ops intCoeff .release 2).multiply (.ofVec [0, 1, 0]) (.ofVec [2, 1, 0, 1, 0, 0, 0]) (some 1) = .ok (.ofVec [0, 2, 0]) ∧
    (DenseAlg.ops intCoeff .release 2).multiplyInplace (.ofVec [3, 1, 0]) (.ofVec [1, 1, 0, 1, 0, 0, 0]) (some 1) = .ok (.ofVec [3, 1, 0]) ∧
    (DenseAlg.ops intCoeff .release 2).multiply (.ofVec [3, 1, 0]) (.ofVec [1, 1, 0, 1, 0, 0, 0]) (some 1) = .ok (.ofVec [3, 4, 0]) ∧
    (DenseAlg.ops intCoeff .release 2).multiplyInplace (.ofVec [3, 1, 0]) (.ofVec [0, 1, 0, 1, 0, 0, 0]) (some 1) = .ub := by
  refine ⟨?_, ?_, ?_, ?_, ?_⟩ <;> decide +kernel

example : (DenseAlg.ops intCoeff .release 2).mulInto (.ofVec [3]) (.ofVec [2, 1, 0]) id (some 1) = .ub := by
  rcases (C37_release_returns_iff intCoeff 2 (by omega) id (.ofVec [3]) (.ofVec [2, 1, 0]) 0 1 1 ⟨rfl, by decide⟩ ⟨rfl, by decide⟩ (by omega)
    (by omega) 2 [1, 0] rfl (by decide)) with ⟨h | h, hiff⟩
  · exact absurd (hiff.1 h).2 (by decide)
  · exact h

example := (C37_release_right_iff_partial intCoeff 2 intCoeff_isRing intCoeff_eqLawful (by omega) (.ofVec [0, 1, 0]) (.ofVec [2, 1, 0, 1, 0, 0, 0])
  1 2 1 ⟨rfl, by decide⟩ ⟨rfl, by decide⟩ (by omega) (by omega) (by decide)).2
  ⟨.inl ⟨by omega, by omega, .inr ⟨by omega, by decide, by decide⟩⟩, fun u v _ _ hv hl => by
    have hv := List.length_pos_iff.2 hv
    have : u = [] := List.length_eq_zero_iff.1 (by omega)
    subst this
    exact .inl (by decide)⟩

example := C37_release_linear_left intCoeff 2 intCoeff_isRing (by omega) (.ofVec [3, 1, 0]) (.ofVec [2, 1, 0, 1, 0, 0, 5]) 2 3 ⟨rfl, by decide⟩
  ⟨rfl, by decide⟩ (by omega) 2 [1, 0, 1, 0, 0, 5] rfl rfl rfl (by omega) (by decide)

example := C37_release_zero_constant_ub intCoeff 2 (by omega) id (.ofVec [3, 1, 0]) (.ofVec [0, 1, 0, 1, 0, 0, 0]) 1 2 1 ⟨rfl, by decide⟩
  ⟨rfl, by decide⟩ 0 [1, 0, 1, 0, 0, 0] rfl rfl (by decide) (by decide)

example := C37_release_one_constant intCoeff 2 (by omega) id (.ofVec [3, 1, 0]) (.ofVec [1, 1, 0, 1, 0, 0, 0]) 1 2 1 ⟨rfl, by decide⟩
  ⟨rfl, by decide⟩ 1 [1, 0, 1, 0, 0, 0] rfl rfl rfl (by omega) (by omega)

example := C37_release_scale_ring intCoeff 2 intCoeff_isRing (by omega) (.ofVec [3, 1, 0]) (.ofVec [2, 1, 0, 1, 0, 0, 0]) 1 2 1 ⟨rfl, by decide⟩
  ⟨rfl, by decide⟩ 2 [1, 0, 1, 0, 0, 0] rfl rfl rfl (by omega) (by omega) (by omega)

end
end RA
