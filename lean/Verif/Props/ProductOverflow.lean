import Verif.Props.AlgebraLaws

/-!
# Products whose dimension does not fit in 64 bits (C34)

C34 describes products of representable dimension.  Here is what happens to the others: `start_of_degree(max_deg + 1)` (dense.rs:285-287) overflows.
A debug build panics.  A release build grows the target to the wrapped dimension, which is too small, and then writes past its end.
-/

namespace RA
open Spec TensorKey TensorBasis DenseAlg

/-- Whatever the degree, a release build computes some start of degree, at most `(2^64 - 1) / (N - 1)`. -/
theorem startOfDegree_release_le (N : Nat) (h2 : 2 ≤ N) (d : Nat) :
    ∃ n, startOfDegree .release N d = .ok n ∧ n * (N - 1) ≤ 2 ^ 64 - 1 := by
  have hpw : ∃ a, powW .release 64 N d = .ok a ∧ a < 2 ^ 64 := by
    unfold powW fitW
    split_ifs with h
    · exact ⟨_, rfl, h⟩
    · exact ⟨_, rfl, Nat.mod_lt _ (by omega)⟩
  obtain ⟨a, ha, hlt⟩ := hpw
  have hsub : ∃ b, subW .release 64 a 1 = .ok b ∧ b ≤ 2 ^ 64 - 1 := by
    unfold subW
    split_ifs with h
    · exact ⟨_, rfl, by omega⟩
    · exact ⟨_, rfl, by omega⟩
  obtain ⟨b, hb, hle⟩ := hsub
  refine ⟨b / (N - 1), ?_, (Nat.div_mul_le_self _ _).trans hle⟩
  unfold startOfDegree
  rw [ha, Res.bind_ok, hb, Res.bind_ok, subW_ok (by omega), Res.bind_ok]
  unfold divW
  rw [if_neg (by omega)]

/-- The place the last degree gets is too short for its `N^M` words. -/
theorem wrapped_range_short {N M s n : Nat} (h2 : 2 ≤ N) (ho : 2 ^ 64 < N ^ (M + 1)) (hs : startOfDegree .release N M = .ok s)
    (hn : n * (N - 1) ≤ 2 ^ 64 - 1) : n - s < N ^ M := by
  by_cases hM : N ^ M < 2 ^ 64
  · rw [startOfDegree_ok .release N h2 M hM] at hs
    obtain rfl : geomSum N M = s := by injection hs
    have h1 := geomSum_mul N (M + 1) (by omega)
    have h3 : n < geomSum N (M + 1) := by
      by_contra hc
      have := Nat.mul_le_mul_right (N - 1) (Nat.le_of_not_lt hc)
      omega
    rw [geomSum] at h3
    have h4 : 0 < N ^ M := Nat.pow_pos (by omega)
    omega
  · have h4 : n ≤ n * (N - 1) := Nat.le_mul_of_pos_right _ (by omega)
    omega

section
variable {S R : Type} (C : Coeff S R) (N : Nat)

/-- C34.  In a debug build every product whose dimension does not fit in 64 bits panics: `multiply`, `add_mul`, `sub_mul` (any target, any `func`) and
the in-place product. -/
theorem C34_overflow_debug (h2 : 2 ≤ N) (f : S → S) (v a b : Dense S) (dv da db D : Nat) (hv : HasDegree N v dv) (ha : HasDegree N a da)
    (hb : HasDegree N b db) (ho : 2 ^ 64 ≤ N ^ (min D (da + db) + 1)) :
    (DenseAlg.ops C .debug N).mulAddInto v a b f (some D) = .panic ∧ (DenseAlg.ops C .debug N).mulInto a b f (some D) = .panic := by
  have b1 := deg_lt64 h2 ha.2
  have b2 := deg_lt64 h2 hb.2
  have hgrow : ∀ (s : Dense S) ds, HasDegree N s ds → growTo C .debug N s (min D (da + db)) = .panic := by
    intro s ds hs
    have hlt : ds < min D (da + db) := by
      by_contra hc
      have := Nat.pow_le_pow_right (n := N) (by omega) (show min D (da + db) + 1 ≤ ds + 1 by omega)
      have := hs.2
      omega
    unfold growTo
    rw [degree_ok .debug N h2 s ds hs.1 hs.2, Res.bind_ok, if_pos hlt, addW_ok (by omega), Res.bind_ok,
      startOfDegree_debug_overflow N _ ho]
    rfl
  constructor
  · show mulAddInto C .debug N v a b f (some D) = _
    unfold mulAddInto
    rw [degree_ok .debug N h2 a da ha.1 ha.2, Res.bind_ok, degree_ok .debug N h2 b db hb.1 hb.2, Res.bind_ok, maxDeg_ok .debug D da db (by omega),
      Res.bind_ok, hgrow v dv hv]
    rfl
  · show mulInto C .debug N a b f (some D) = _
    unfold mulInto
    rw [degree_ok .debug N h2 a da ha.1 ha.2, Res.bind_ok, degree_ok .debug N h2 b db hb.1 hb.2, Res.bind_ok, maxDeg_ok .debug D da db (by omega),
      Res.bind_ok, hgrow a da ha]
    rfl

/-- C34.  In a release build every product into any target whose dimension needs more than 64 bits is undefined behaviour.  (When `N^(M+1)` is exactly
`2^64` the wrapped dimension happens to be the right one.) -/
theorem C34_overflow_release (h2 : 2 ≤ N) (f : S → S) (v a b : Dense S) (dv da db D : Nat) (hv : HasDegree N v dv) (ha : HasDegree N a da)
    (hb : HasDegree N b db) (ho : 2 ^ 64 < N ^ (min D (da + db) + 1)) :
    (DenseAlg.ops C .release N).mulAddInto v a b f (some D) = .ub := by
  have b1 := deg_lt64 h2 ha.2
  have b2 := deg_lt64 h2 hb.2
  generalize hM : min D (da + db) = M at *
  have hsmall : ∀ d, N ^ (d + 1) < 2 ^ 64 → d < M := by
    intro d hd
    by_contra hc
    have := Nat.pow_le_pow_right (n := N) (by omega) (show M + 1 ≤ d + 1 by omega)
    omega
  have haM := hsmall da ha.2
  have hvM := hsmall dv hv.2
  have hbM := hsmall db hb.2
  obtain ⟨n, hn, hnle⟩ := startOfDegree_release_le N h2 (M + 1)
  obtain ⟨s, hs, _⟩ := startOfDegree_release_le N h2 M
  have hshort := wrapped_range_short h2 ho hs hnle
  have hstep : ∀ t : Dense S, mulAddStep C .release N a b f M t da = .ub := by
    intro t
    unfold mulAddStep
    have hro : degreeRange .release N M = .ok (s, n) := by
      unfold degreeRange
      rw [hs, Res.bind_ok, addW_ok (by omega), Res.bind_ok, hn]
      rfl
    rw [subW_ok (by omega), Res.bind_ok]
    simp only
    rw [hro, Res.bind_ok]
    by_cases hsl : s ≤ n ∧ n ≤ t.makeMut.data.length
    · obtain ⟨o, ho1, ho2, _⟩ := sliceUnchecked_ok t.makeMut.data (s, n) hsl.1 hsl.2
      rw [ho1, Res.bind_ok, degreeRange_ok .release N h2 da ha.2, Res.bind_ok]
      by_cases hla : geomSum N (da + 1) ≤ a.data.length
      · obtain ⟨l, hl1, hl2, _⟩ := sliceUnchecked_ok a.data (geomSum N da, geomSum N (da + 1)) (geomSum_mono (by omega)) hla
        have hpr : N ^ (M - da + 1) < 2 ^ 64 := pow_lt64_mono h2 (by omega) hb.2
        rw [hl1, Res.bind_ok, degreeRange_ok .release N h2 (M - da) hpr, Res.bind_ok]
        by_cases hlb : geomSum N (M - da + 1) ≤ b.data.length
        · obtain ⟨r, hr1, hr2, _⟩ := sliceUnchecked_ok b.data (geomSum N (M - da), geomSum N (M - da + 1)) (geomSum_mono (by omega)) hlb
          rw [hr1, Res.bind_ok, mulIntoBuffer_ub C f o l r]
          · rfl
          · have e1 : l.length = N ^ da := by rw [hl2]; simp only [geomSum]; omega
            have e2 : r.length = N ^ (M - da) := by rw [hr2]; simp only [geomSum]; omega
            rw [ho2, e1, e2, ← Nat.pow_add, show da + (M - da) = M by omega]
            exact hshort
        · rw [sliceUnchecked_ub _ _ (by simpa using hlb)]
          rfl
      · rw [sliceUnchecked_ub _ _ (by simpa using hla)]
        rfl
    · have : sliceUnchecked t.makeMut.data (s, n) = .ub := by
        unfold sliceUnchecked
        rw [if_neg hsl]
      rw [this]
      rfl
  have hg : ∃ t, growTo C .release N v M = .ok t := by
    unfold growTo
    rw [degree_ok .release N h2 v dv hv.1 hv.2, Res.bind_ok, if_pos hvM, addW_ok (by omega), Res.bind_ok, hn]
    exact ⟨_, rfl⟩
  obtain ⟨t, ht⟩ := hg
  show mulAddInto C .release N v a b f (some D) = _
  unfold mulAddInto
  rw [degree_ok .release N h2 a da ha.1 ha.2, Res.bind_ok, degree_ok .release N h2 b db hb.1 hb.2, Res.bind_ok, maxDeg_ok .release D da db (by omega),
    Res.bind_ok, hM, ht, Res.bind_ok, List.range_succ, List.reverse_append, List.reverse_singleton, List.singleton_append, List.foldlM_cons,
    mulAddDegree_eq, show min M da + 1 - (M - db) = (da - (M - db)) + 1 by omega, List.range'_concat, List.reverse_append, List.reverse_singleton,
    List.singleton_append, List.foldlM_cons, show M - db + 1 * (da - (M - db)) = da by omega, hstep]
  rfl

/-- C34.  Two linear tensors over `2642246` letters, each of about 2.6 million coefficients: their product would need 6981466566763 coefficients; a
release build makes room for 399276 and writes outside of it, a debug build panics. -/
theorem C34_overflow_concrete (x : S) (D : Nat) (hD : 2 ≤ D) :
    startOfDegree .release 2642246 3 = .ok 399276 ∧ geomSum 2642246 3 = 6981466566763 ∧
    (DenseAlg.ops C .release 2642246).multiply (.ofVec (List.replicate 2642247 x)) (.ofVec (List.replicate 2642247 x)) (some D) = .ub ∧
    (DenseAlg.ops C .debug 2642246).multiply (.ofVec (List.replicate 2642247 x)) (.ofVec (List.replicate 2642247 x)) (some D) = .panic := by
  have hx : HasDegree 2642246 (.ofVec (List.replicate 2642247 x)) 1 := by
    refine ⟨Or.inr ?_, by decide⟩
    simp only [Dense.size, Dense.ofVec, List.length_replicate]
    decide
  have hz : HasDegree 2642246 (Dense.new : Dense S) 0 := ⟨Or.inl ⟨rfl, rfl⟩, by decide⟩
  have hM : min D (1 + 1) = 2 := by omega
  refine ⟨by decide +kernel, by decide +kernel, ?_, ?_⟩
  · exact C34_overflow_release C _ (by omega) id Dense.new _ _ 0 1 1 D hz hx hx (by rw [hM]; decide)
  · exact (C34_overflow_debug C _ (by omega) id Dense.new _ _ 0 1 1 D hz hx hx (by rw [hM]; decide)).1

example : (DenseAlg.ops (floatCoeff binary32) .release 2642246).multiply (.ofVec (List.replicate 2642247 (floatCoeff binary32).one))
    (.ofVec (List.replicate 2642247 (floatCoeff binary32).one)) (some 3) = .ub :=
  (C34_overflow_concrete (floatCoeff binary32) _ 3 (by omega)).2.2.1

end
end RA
