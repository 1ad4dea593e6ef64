import Verif.Proofs.Inplace
import Verif.Props.AlgebraLaws

/-!
# In-place products of dense tensors (C37)
-/

namespace RA
open Spec TensorKey TensorBasis DenseAlg

section
variable {S R : Type} (C : Coeff S R) (p : Profile) (N : Nat)

/-- C37, full statement: whenever `multiply` returns, `multiply_inplace` returns the same coefficients; it is never undefined behaviour. -/
def C37_inplace_full : Prop :=
  ∀ (a b r : Dense S) D, (DenseAlg.ops C p N).multiply a b (some D) = .ok r →
    ∃ r', (DenseAlg.ops C p N).multiplyInplace a b (some D) = .ok r' ∧ r'.data = r.data

variable {N} in
theorem target_of_full {v : Dense S} {d m : Nat} (hv : FullTo N v d) (hm : 1 ≤ m) :
    (v.data.length ≤ geomSum N m ∧ 1 ≤ m) ∨ geomSum N (m + 1) ≤ v.data.length := by
  have h := hv.1
  unfold Dense.size at h
  by_cases hc : m ≤ d
  · right
    rw [h]
    exact geomSum_mono (by omega)
  · left
    rw [h]
    exact ⟨geomSum_mono (by omega), hm⟩

/-- C37.  For every right factor of degree at least 1 (whatever its constant term) not exceeding the degree `M` of the product, and every `self` of
degree at least 2, `multiply_inplace` (and each product built on `multiply_into_impl`, whatever the closure) accesses memory out of bounds. -/
theorem C37_inplace_ub (h2 : 2 ≤ N) (f : S → S) (a b : Dense S) (da db D : Nat) (ha : FullTo N a da) (hb : FullTo N b db) (hda : 2 ≤ da)
    (hdb : 1 ≤ db) (hM : 2 ≤ min D (da + db)) (hMb : db ≤ min D (da + db)) (hp : N ^ (min D (da + db) + 1) < 2 ^ 64) :
    (DenseAlg.ops C p N).mulInto a b f (some D) = .ub := by
  obtain ⟨s1, g1, g2, _⟩ := growTo_ok C p N h2 a da (min D (da + db)) (ha.hasDegree h2).1 ha.2 hp (target_of_full ha (by omega))
  have hs : geomSum N (min D (da + db) + 1) ≤ s1.data.length := by omega
  have hbl : geomSum N (db + 1) ≤ b.data.length := by have := hb.1; unfold Dense.size at this; omega
  show mulInto C p N a b f (some D) = _
  rw [mulInto_eq C p N h2 f a b s1 da db D (ha.hasDegree h2).1 (hb.hasDegree h2).1 ha.2 hb.2 g1]
  generalize hMe : min D (da + db) = M at *
  rw [range'_reverse_head M (by omega), List.foldlM_cons]
  rcases offsetAssign_cases C b with h | h | h
  · rw [h, mulIntoDegree_ub_zero C p N h2 f s1 b da db M hp (by omega) hMb hs]
    rfl
  · rw [h, mulIntoDegree_ub_one C p N h2 f s1 b da db M hp (by omega) hMb hdb (by omega) hs]
    rfl
  · rw [h]
    by_cases hlt : M < da + db
    · rw [mulIntoDegree_ub_other C p N h2 f s1 b da db M hp hda hM hMb hdb hlt hs hbl]
      rfl
    · have hM' : M = da + db := by omega
      obtain ⟨s2, t1, t2⟩ := mulIntoDegree_top C p N h2 f s1 b da db (by rw [← hM']; exact hp) (by omega) (by rw [← hM']; exact hs) hbl
      rw [hM', t1, Res.bind_ok, range'_reverse_head (da + db - 1) (by omega), List.foldlM_cons,
        mulIntoDegree_ub_other C p N h2 f s2 b da db (da + db - 1) (pow_lt64_mono h2 (by omega) hp) hda (by omega) (by omega) hdb (by omega)
          (by have := geomSum_mono (N := N) (a := da + db - 1 + 1) (b := M + 1) (by omega); omega) hbl]
      rfl

example : (DenseAlg.ops intCoeff .debug 2).mulInto (.ofVec [1, 2, 3, 4, 5, 6, 7]) (.ofVec [2, 1, 0]) id (some 3) = .ub :=
  C37_inplace_ub intCoeff .debug 2 (by omega) id _ _ 2 1 3 ⟨rfl, by decide⟩ ⟨rfl, by decide⟩ (by omega) (by omega) (by decide) (by decide) (by decide)

/-- C37.  A right factor with constant term 0: undefined behaviour whatever the degrees, as soon as the product reaches its degree. -/
theorem C37_inplace_zero_constant_ub (h2 : 2 ≤ N) (f : S → S) (a b : Dense S) (da db D : Nat) (ha : FullTo N a da) (hb : FullTo N b db)
    (x : S) (rest : List S) (hx : b.data = x :: rest) (hz : C.eq x C.zero = true) (hM : 1 ≤ min D (da + db)) (hMb : db ≤ min D (da + db))
    (hp : N ^ (min D (da + db) + 1) < 2 ^ 64) : (DenseAlg.ops C p N).mulInto a b f (some D) = .ub := by
  obtain ⟨s1, g1, g2, _⟩ := growTo_ok C p N h2 a da (min D (da + db)) (ha.hasDegree h2).1 ha.2 hp (target_of_full ha (by omega))
  have ho : offsetAssign C b = (1, true) := by
    unfold offsetAssign
    rw [hx]
    simp [hz]
  show mulInto C p N a b f (some D) = _
  rw [mulInto_eq C p N h2 f a b s1 da db D (ha.hasDegree h2).1 (hb.hasDegree h2).1 ha.2 hb.2 g1, ho,
    range'_reverse_head _ hM, List.foldlM_cons, mulIntoDegree_ub_zero C p N h2 f s1 b da db _ hp hM hMb (by omega)]
  rfl

example : (DenseAlg.ops intCoeff .release 2).mulInto (.ofVec [3, 4, 5]) (.ofVec [0, 1, 0]) id (some 3) = .ub :=
  C37_inplace_zero_constant_ub intCoeff .release 2 (by omega) id _ _ 1 1 3 ⟨rfl, by decide⟩ ⟨rfl, by decide⟩ 0 [1, 0] rfl rfl (by decide)
    (by decide) (by decide)

/-- C37.  A right factor `1 + (terms of degree 1 or more)`: undefined behaviour whatever the degree of `self`. -/
theorem C37_inplace_one_constant_ub (h2 : 2 ≤ N) (f : S → S) (a b : Dense S) (da db D : Nat) (ha : FullTo N a da) (hb : FullTo N b db)
    (x : S) (rest : List S) (hx : b.data = x :: rest) (hz : C.eq x C.zero = false) (h1 : C.eq x C.one = true) (hdb : 1 ≤ db)
    (hM : 1 ≤ min D (da + db)) (hMb : db ≤ min D (da + db)) (hp : N ^ (min D (da + db) + 1) < 2 ^ 64) :
    (DenseAlg.ops C p N).mulInto a b f (some D) = .ub := by
  obtain ⟨s1, g1, g2, _⟩ := growTo_ok C p N h2 a da (min D (da + db)) (ha.hasDegree h2).1 ha.2 hp (target_of_full ha (by omega))
  have ho : offsetAssign C b = (1, false) := by
    unfold offsetAssign
    rw [hx]
    simp [hz, h1]
  show mulInto C p N a b f (some D) = _
  rw [mulInto_eq C p N h2 f a b s1 da db D (ha.hasDegree h2).1 (hb.hasDegree h2).1 ha.2 hb.2 g1, ho,
    range'_reverse_head _ hM, List.foldlM_cons, mulIntoDegree_ub_one C p N h2 f s1 b da db _ hp hM hMb hdb (by omega) (by omega)]
  rfl

example : (DenseAlg.ops intCoeff .release 2).mulInto (.ofVec [3, 4, 5]) (.ofVec [1, 1, 0]) id (some 3) = .ub :=
  C37_inplace_one_constant_ub intCoeff .release 2 (by omega) id _ _ 1 1 3 ⟨rfl, by decide⟩ ⟨rfl, by decide⟩ 1 [1, 0] rfl rfl rfl (by omega)
    (by decide) (by decide) (by decide)

/-- C37, debug builds: a right factor of degree beyond the product's (truncation below its degree) panics on `out_deg - rhs_deg`. -/
theorem C37_inplace_debug_panic (h2 : 2 ≤ N) (f : S → S) (a b : Dense S) (da db D : Nat) (ha : FullTo N a da) (hb : FullTo N b db)
    (hM : 1 ≤ min D (da + db)) (hMb : min D (da + db) < db) (hp : N ^ (min D (da + db) + 1) < 2 ^ 64) :
    (DenseAlg.ops C .debug N).mulInto a b f (some D) = .panic := by
  obtain ⟨s1, g1, g2, _⟩ := growTo_ok C .debug N h2 a da (min D (da + db)) (ha.hasDegree h2).1 ha.2 hp (target_of_full ha (by omega))
  show mulInto C .debug N a b f (some D) = _
  rw [mulInto_eq C .debug N h2 f a b s1 da db D (ha.hasDegree h2).1 (hb.hasDegree h2).1 ha.2 hb.2 g1, range'_reverse_head _ hM, List.foldlM_cons]
  unfold mulIntoDegree subW
  rw [if_neg (by omega)]
  rfl

example : (DenseAlg.ops intCoeff .debug 2).mulInto (.ofVec [3, 4, 5]) (.ofVec [1, 2, 3, 4, 5, 6, 7]) id (some 1) = .panic :=
  C37_inplace_debug_panic intCoeff 2 (by omega) id _ _ 1 2 1 ⟨rfl, by decide⟩ ⟨rfl, by decide⟩ (by decide) (by decide) (by decide)

/-- C37.  Right factors of degree 0: only the coefficients of degree 1 to `min(D, da)` are scaled; the constant term and the degrees beyond `D` stay. -/
theorem C37_inplace_scalar_actual (h2 : 2 ≤ N) (f : S → S) (a b : Dense S) (da D : Nat) (ha : FullTo N a da) (x : S)
    (hx : b.data = [x]) (hz : C.eq x C.zero = false) (h1 : C.eq x C.one = false) :
    ∃ r, (DenseAlg.ops C p N).mulInto a b f (some D) = .ok r ∧ r.size = a.size ∧ ∀ w, ValidWord N w →
      stored N r w = if 1 ≤ w.length ∧ w.length ≤ D then (stored N a w).map (fun y => f (C.mul y x)) else stored N a w := by
  have hlen : a.data.length = geomSum N (da + 1) := ha.1
  have hb : FullTo N b 0 := ⟨by unfold Dense.size; rw [hx]; rfl, pow_lt64_mono h2 (by omega) ha.2⟩
  have hp : N ^ (min D da + 1) < 2 ^ 64 := pow_lt64_mono h2 (by omega) ha.2
  have hs : geomSum N (min D da + 1) ≤ a.data.length := by rw [hlen]; exact geomSum_mono (by omega)
  have ho : offsetAssign C b = (0, true) := by
    unfold offsetAssign
    rw [hx]
    simp [hz, h1]
  obtain ⟨r, r1, r2, r3⟩ := mulIntoLoop_const C p N h2 f a x [] b hx da (min D da) hp (by omega) hs (List.range' 1 (min D da)).reverse
    (by intro o ho; rw [List.mem_reverse, List.mem_range'_1] at ho; omega) ((List.reverse_perm _).nodup_iff.2 List.nodup_range')
  refine ⟨r, ?_, r2, fun w hw => ?_⟩
  · show mulInto C p N a b f (some D) = _
    rw [mulInto_eq C p N h2 f a b a da 0 D (ha.hasDegree h2).1 (hb.hasDegree h2).1 ha.2 hb.2 (growTo_same C p N h2 a da _ (ha.hasDegree h2).1 ha.2 hs),
      ho]
    exact r1
  · have := r3 w hw
    rw [show stored N r w = at? N r.data w from rfl, this]
    simp only [List.mem_reverse, List.mem_range'_1]
    by_cases hw1 : 1 ≤ w.length ∧ w.length ≤ D
    · rw [if_pos hw1]
      by_cases hwd : w.length ≤ da
      · rw [if_pos (by omega)]
        rfl
      · rw [if_neg (by omega), show stored N a w = none from at?_none hw (show da < w.length by omega) (by rw [hlen]),
          show at? N a.data w = none from at?_none hw (show da < w.length by omega) (by rw [hlen])]
        rfl
    · rw [if_neg hw1, if_neg (by omega)]
      rfl

example := C37_inplace_scalar_actual intCoeff .debug 2 (by omega) id (.ofVec [3, 1, 2]) (.ofVec [5]) 1 2 ⟨rfl, by decide⟩ 5 rfl rfl rfl

/-- C37 for the right factor `1`: `self` is unchanged. -/
theorem C37_inplace_by_one (h2 : 2 ≤ N) (f : S → S) (a b : Dense S) (da D : Nat) (ha : FullTo N a da) (x : S)
    (hx : b.data = [x]) (hz : C.eq x C.zero = false) (h1 : C.eq x C.one = true) :
    (DenseAlg.ops C p N).mulInto a b f (some D) = .ok a := by
  have hlen : a.data.length = geomSum N (da + 1) := ha.1
  have hb : FullTo N b 0 := ⟨by unfold Dense.size; rw [hx]; rfl, pow_lt64_mono h2 (by omega) ha.2⟩
  have hs : geomSum N (min D da + 1) ≤ a.data.length := by rw [hlen]; exact geomSum_mono (by omega)
  have ho : offsetAssign C b = (1, false) := by
    unfold offsetAssign
    rw [hx]
    simp [hz, h1]
  have hL : ∀ L : List Nat, (∀ o ∈ L, 1 ≤ o) → L.foldlM (mulIntoDegree C p N b f 1 false da 0) a = .ok a := by
    intro L hL
    induction L with
    | nil => rfl
    | cons o L ih =>
      rw [List.foldlM_cons, mulIntoDegree_one_const C p N f a b da o (hL o (by simp)), Res.bind_ok]
      exact ih fun o ho => hL o (by simp [ho])
  show mulInto C p N a b f (some D) = _
  rw [mulInto_eq C p N h2 f a b a da 0 D (ha.hasDegree h2).1 (hb.hasDegree h2).1 ha.2 hb.2 (growTo_same C p N h2 a da _ (ha.hasDegree h2).1 ha.2 hs),
    ho]
  exact hL _ (by intro o ho; rw [List.mem_reverse, List.mem_range'_1] at ho; omega)

example : (DenseAlg.ops intCoeff .debug 2).mulInto (.ofVec [3, 1, 2]) (.ofVec [1]) (· + 1) (some 2) = .ok (.ofVec [3, 1, 2]) :=
  C37_inplace_by_one intCoeff .debug 2 (by omega) (· + 1) (.ofVec [3, 1, 2]) (.ofVec [1]) 1 2 ⟨rfl, by decide⟩ 1 rfl rfl rfl

/-- C37 for the right factor `1` (exact coefficients): agrees with `multiply` when nothing is truncated.  Missing from the full statement: every right
factor of positive degree (undefined behaviour, above) and scalars other than 1 (the constant term of `self` is not scaled). -/
theorem C37_inplace_partial [CommRing S] [Nontrivial S] (hC : C.IsRing) (hE : C.EqLawful) (h2 : 2 ≤ N) (a b : Dense S) (da D : Nat)
    (ha : FullTo N a da) (hda : 1 ≤ da) (hD : da ≤ D) (hb : b.data = [1]) :
    ∃ r, (DenseAlg.ops C p N).multiply a b (some D) = .ok r ∧ (DenseAlg.ops C p N).multiplyInplace a b (some D) = .ok a ∧
      r.data = a.data := by
  have hb0 : FullTo N b 0 := ⟨by unfold Dense.size; rw [hb]; rfl, pow_lt64_mono h2 (by omega) ha.2⟩
  obtain ⟨r, r1, r2, r3⟩ := C33_multiply_ring C p N hC h2 a b da 0 D ha hb0 (by omega) (pow_lt64_mono h2 (by omega) ha.2)
  refine ⟨r, r1, C37_inplace_by_one C p N h2 id a b da D ha 1 hb ?_ ?_, data_ext_coef C (by omega : 1 ≤ N) ?_ fun w hw => ?_⟩
  · rw [Bool.eq_false_iff, ne_eq, hE, hC.zero]
    exact one_ne_zero
  · rw [hE, hC.one]
  · rw [r2.1, ha.1, show min D (da + 0) = da by omega]
  · rw [r3 w hw]
    have hcu : ∀ w, ValidWord N w → coef C N b w = unitFn w := by
      intro w hw
      unfold coef stored unitFn
      rw [hb]
      by_cases h : w = []
      · subst h
        simp
      · have hlen : 0 < w.length := List.length_pos_iff.2 h
        have := (wordIndex_bounds hw).1
        have h4 := geomSum_pos (N := N) (d := w.length) (by omega)
        rw [if_neg h, List.getElem?_eq_none (by simp; omega), Option.getD_none, hC.zero]
    split_ifs with hl
    · rw [conv_congr_valid N (f' := coef C N a) (g' := unitFn) w hw (fun _ _ _ => rfl) (fun u hu _ => hcu u hu), conv_unit_right]
    · exact (coef_zero_of_length C N hC (ha.hasDegree h2) w hw (by omega)).symm

example := C37_inplace_partial intCoeff .release 2 intCoeff_isRing intCoeff_eqLawful (by omega) (.ofVec [3, 1, 2]) (.ofVec [1]) 1 4
  ⟨rfl, by decide⟩ (by omega) (by omega) rfl

/-- C37 is false for every alphabet, coefficient type and profile: squaring `from_key` of a word of length 2 is undefined behaviour. -/
theorem C37_inplace_refuted [Inhabited S] (h2 : 2 ≤ N) (hN : N < 2 ^ 12) : ¬ C37_inplace_full C p N := by
  intro h
  have hp : N ^ 5 < 2 ^ 64 := Nat.lt_of_lt_of_le (Nat.pow_lt_pow_left hN (by omega)) (by rw [← Nat.pow_mul]; exact Nat.pow_le_pow_right (by omega) (by omega))
  have hf : FullTo N (Dense.ofVec (List.replicate (geomSum N 3) (default : S))) 2 :=
    ⟨by simp [Dense.size], pow_lt64_mono h2 (by omega) hp⟩
  obtain ⟨r, hr⟩ := C34_multiply_safe_partial C p N h2 _ _ 2 2 4 hf hf (by decide) hp
  obtain ⟨r', hr', _⟩ := h _ _ r 4 hr
  have := C37_inplace_ub C p N h2 id _ _ 2 2 4 hf hf (by decide) (by decide) (by decide) (by decide) hp
  cases this.symm.trans hr'

example : ¬ C37_inplace_full intCoeff .release 3 := C37_inplace_refuted intCoeff .release 3 (by omega) (by omega)

end

/-- Concrete runs: a factor `2 + e1` on a degree-2 tensor is out of bounds; on a degree-1 tensor it returns a wrong product (the true product is
`6 + 5 e1 + e1 e1`); a scalar factor 3 leaves the constant term unscaled; the factor 1 is right. -/
example : (DenseAlg.ops intCoeff .debug 2).multiplyInplace (.ofVec [1, 2, 3, 4, 5, 6, 7]) (.ofVec [2, 1, 0]) (some 3) = .ub ∧
    (DenseAlg.ops intCoeff .debug 2).multiplyInplace (.ofVec [3, 1, 0]) (.ofVec [2, 1, 0]) (some 2) = .ok (.ofVec [3, 2, 3, 0, 0, 0, 0]) ∧
    (DenseAlg.ops intCoeff .debug 2).multiply (.ofVec [3, 1, 0]) (.ofVec [2, 1, 0]) (some 2) = .ok (.ofVec [6, 5, 0, 1, 0, 0, 0]) ∧
    (DenseAlg.ops intCoeff .debug 2).multiplyInplace (.ofVec [3, 1, 2]) (.ofVec [5]) (some 2) = .ok (.ofVec [3, 5, 10]) ∧
    (DenseAlg.ops intCoeff .debug 2).multiplyInplace (.ofVec [3, 1, 2]) (.ofVec [1]) (some 2) = .ok (.ofVec [3, 1, 2]) ∧
    (DenseAlg.ops intCoeff .debug 2).multiplyInplace (.ofVec [3, 1, 2]) (.ofVec [0]) (some 2) = .ub ∧
    (DenseAlg.ops intCoeff .debug 2).multiplyInplace (.ofVec [3]) (.ofVec [1, 1, 0]) (some 2) = .ub := by
  refine ⟨?_, ?_, ?_, ?_, ?_, ?_, ?_⟩ <;> decide +kernel

end RA
