import Verif.Props.Algebra

/-!
# Laws of the tensor product (C35) and the derived products (C36)

Truncation to degree `D` is the same `D` in every product of a law.  `FullTo N v d` (all words up to degree `d`, representable) is what every
constructor from keys makes and what `multiply` returns, so the hypotheses chain.
-/

namespace RA
open Spec TensorKey TensorBasis DenseAlg

section
variable {S R : Type} (C : Coeff S R) (p : Profile) (N : Nat)

/-- Coefficient functions that agree on valid words have the same product at valid words. -/
theorem conv_congr_valid [CommRing S] {f f' g g' : List Nat → S} (w : List Nat) (hw : ValidWord N w)
    (hf : ∀ u, ValidWord N u → u.length ≤ w.length → f u = f' u) (hg : ∀ u, ValidWord N u → u.length ≤ w.length → g u = g' u) :
    conv f g w = conv f' g' w := by
  rw [conv_eq_sum, conv_eq_sum]
  congr 1
  apply List.map_congr_left
  intro k hk
  rw [List.mem_range] at hk
  rw [hf _ (validWord_take hw k) (by simp), hg _ (validWord_drop hw k) (by simp)]

/-! ## C35: the truncated tensor algebra -/

/-- C35, associativity.  `(a b) c` and `a (b c)` are both defined and have the same data. -/
theorem C35_assoc [CommRing S] (hC : C.IsRing) (h2 : 2 ≤ N) (a b c : Dense S) (da db dc D : Nat) (ha : FullTo N a da) (hb : FullTo N b db)
    (hc : FullTo N c dc) (h1 : 1 ≤ min D (da + db)) (h3 : 1 ≤ min D (db + dc)) (hp : N ^ (min D (da + db + dc) + 1) < 2 ^ 64) :
    ∃ ab bc l r, (DenseAlg.ops C p N).multiply a b (some D) = .ok ab ∧ (DenseAlg.ops C p N).multiply b c (some D) = .ok bc ∧
      (DenseAlg.ops C p N).multiply ab c (some D) = .ok l ∧ (DenseAlg.ops C p N).multiply a bc (some D) = .ok r ∧ l.data = r.data := by
  obtain ⟨ab, e1, f1, g1⟩ := C33_multiply_ring C p N hC h2 a b da db D ha hb h1 (pow_lt64_mono h2 (by omega) hp)
  obtain ⟨bc, e2, f2, g2⟩ := C33_multiply_ring C p N hC h2 b c db dc D hb hc h3 (pow_lt64_mono h2 (by omega) hp)
  obtain ⟨l, e3, f3, g3⟩ := C33_multiply_ring C p N hC h2 ab c _ dc D f1 hc (by omega) (pow_lt64_mono h2 (by omega) hp)
  obtain ⟨r, e4, f4, g4⟩ := C33_multiply_ring C p N hC h2 a bc da _ D ha f2 (by omega) (pow_lt64_mono h2 (by omega) hp)
  refine ⟨ab, bc, l, r, e1, e2, e3, e4, data_ext_coef C (by omega : 1 ≤ N) ?_ fun w hw => ?_⟩
  · rw [f3.1, f4.1]
    congr 2
    omega
  · rw [g3 w hw, g4 w hw]
    split_ifs with hD
    · rw [conv_congr_valid N (f' := conv (coef C N a) (coef C N b)) (g' := coef C N c) w hw
          (fun u hu hl => by rw [g1 u hu, if_pos (by omega)]) (fun _ _ _ => rfl), conv_assoc]
      exact (conv_congr_valid N w hw (fun _ _ _ => rfl) (fun u hu hl => by rw [g2 u hu, if_pos (by omega)])).symm
    · rfl

/-- C35, associativity for arbitrary operands (cut short or not): whenever the four products return, they agree. -/
theorem C35_assoc_returns [CommRing S] (hC : C.IsRing) (h2 : 2 ≤ N) (a b c ab bc l r : Dense S) (da db dc D : Nat) (ha : HasDegree N a da)
    (hb : HasDegree N b db) (hc : HasDegree N c dc) (hp : N ^ (min D (da + db + dc) + 1) < 2 ^ 64)
    (e1 : (DenseAlg.ops C p N).multiply a b (some D) = .ok ab) (e2 : (DenseAlg.ops C p N).multiply b c (some D) = .ok bc)
    (e3 : (DenseAlg.ops C p N).multiply ab c (some D) = .ok l) (e4 : (DenseAlg.ops C p N).multiply a bc (some D) = .ok r) :
    l.data = r.data := by
  obtain ⟨f1, g1⟩ := C33_multiply_returns_ring C p N hC h2 a b ab da db D ha hb (pow_lt64_mono h2 (by omega) hp) e1
  obtain ⟨f2, g2⟩ := C33_multiply_returns_ring C p N hC h2 b c bc db dc D hb hc (pow_lt64_mono h2 (by omega) hp) e2
  obtain ⟨f3, g3⟩ := C33_multiply_returns_ring C p N hC h2 ab c l _ dc D (f1.hasDegree h2) hc (pow_lt64_mono h2 (by omega) hp) e3
  obtain ⟨f4, g4⟩ := C33_multiply_returns_ring C p N hC h2 a bc r da _ D ha (f2.hasDegree h2) (pow_lt64_mono h2 (by omega) hp) e4
  refine data_ext_coef C (by omega : 1 ≤ N) ?_ fun w hw => ?_
  · rw [f3.1, f4.1]
    congr 2
    omega
  · rw [g3 w hw, g4 w hw]
    split_ifs with hD
    · rw [conv_congr_valid N (f' := conv (coef C N a) (coef C N b)) (g' := coef C N c) w hw
          (fun u hu hl => by rw [g1 u hu, if_pos (by omega)]) (fun _ _ _ => rfl), conv_assoc]
      exact (conv_congr_valid N w hw (fun _ _ _ => rfl) (fun u hu hl => by rw [g2 u hu, if_pos (by omega)])).symm
    · rfl

example : (Dense.ofVec [0, 4, -4, 8, -3, 12, -17] : Dense Int).data = (Dense.ofVec [0, 4, -4, 8, -3, 12, -17] : Dense Int).data :=
  C35_assoc_returns intCoeff .debug 2 intCoeff_isRing (by omega) (.ofVec [1, 2, 3]) (.ofVec [0, 1, -1]) (.ofVec [4, 0, 5])
    (.ofVec [0, 1, -1, 2, -2, 3, -3]) (.ofVec [0, 4, -4, 0, 5, 0, -5]) _ _ 1 1 1 2 ⟨by decide, by decide⟩ ⟨by decide, by decide⟩
    ⟨by decide, by decide⟩ (by decide) (by decide +kernel) (by decide +kernel) (by decide +kernel) (by decide +kernel)

variable {N} in
theorem coef_add [CommRing S] (hC : C.IsRing) (a b : Dense S) :
    ∃ r, (DenseAlg.ops C p N).add a b = .ok r ∧ r.size = max a.size b.size ∧ ∀ w, coef C N r w = coef C N a w + coef C N b w := by
  obtain ⟨r, h1, h3⟩ := Dense.addInplace_data C (Dense.ofVec a.data) b
  refine ⟨r, h1, ?_, fun w => ?_⟩
  · unfold Dense.size
    rw [h3, Dense.combine_length]
    rfl
  · unfold coef stored
    rw [h3, Dense.combine_getElem?, Dense.ofVec_data]
    cases a.data[wordIndex N w]? <;> cases b.data[wordIndex N w]? <;> simp [hC.add, hC.zero]

variable {N} in
theorem coef_smul [CommRing S] (hC : C.IsRing) (a : Dense S) (s : S) :
    ∃ r, (DenseAlg.ops C p N).scalarLmultiply a s = .ok r ∧ r.size = a.size ∧ ∀ w, coef C N r w = s * coef C N a w := by
  refine ⟨Dense.ofVec (a.data.map fun x => C.mul x s), rfl, by simp [Dense.size], fun w => ?_⟩
  unfold coef stored
  rw [Dense.ofVec_data, List.getElem?_map]
  cases a.data[wordIndex N w]? <;> simp [hC.mul, hC.zero, mul_comm]

variable {N} in
theorem fullTo_max {a b r : Dense S} {da db : Nat} (ha : FullTo N a da) (hb : FullTo N b db) (hr : r.size = max a.size b.size) :
    FullTo N r (max da db) := by
  rcases Nat.le_total da db with h | h
  · have := geomSum_mono (N := N) (a := da + 1) (b := db + 1) (by omega)
    rw [Nat.max_eq_right h]
    exact ⟨by rw [hr, ha.1, hb.1]; omega, hb.2⟩
  · have := geomSum_mono (N := N) (a := db + 1) (b := da + 1) (by omega)
    rw [Nat.max_eq_left h]
    exact ⟨by rw [hr, ha.1, hb.1]; omega, ha.2⟩

/-- C35, left distributivity: `(a + a') b = a b + a' b`, every operation defined. -/
theorem C35_add_left [CommRing S] (hC : C.IsRing) (h2 : 2 ≤ N) (a a' b : Dense S) (da da' db D : Nat) (ha : FullTo N a da) (ha' : FullTo N a' da')
    (hb : FullTo N b db) (h1 : 1 ≤ min D (da + db)) (h1' : 1 ≤ min D (da' + db)) (hp : N ^ (min D (max da da' + db) + 1) < 2 ^ 64) :
    ∃ s l x y r, (DenseAlg.ops C p N).add a a' = .ok s ∧ (DenseAlg.ops C p N).multiply s b (some D) = .ok l ∧
      (DenseAlg.ops C p N).multiply a b (some D) = .ok x ∧ (DenseAlg.ops C p N).multiply a' b (some D) = .ok y ∧
      (DenseAlg.ops C p N).add x y = .ok r ∧ l.data = r.data := by
  obtain ⟨s, s1, s2, s3⟩ := coef_add C p (N := N) hC a a'
  have hs := fullTo_max ha ha' s2
  obtain ⟨l, l1, l2, l3⟩ := C33_multiply_ring C p N hC h2 s b _ db D hs hb (by omega) hp
  obtain ⟨x, x1, x2, x3⟩ := C33_multiply_ring C p N hC h2 a b da db D ha hb h1 (pow_lt64_mono h2 (by omega) hp)
  obtain ⟨y, y1, y2, y3⟩ := C33_multiply_ring C p N hC h2 a' b da' db D ha' hb h1' (pow_lt64_mono h2 (by omega) hp)
  obtain ⟨r, r1, r2, r3⟩ := coef_add C p (N := N) hC x y
  refine ⟨s, l, x, y, r, s1, l1, x1, y1, r1, data_ext_coef C (by omega : 1 ≤ N) ?_ fun w hw => ?_⟩
  · rw [l2.1, (fullTo_max x2 y2 r2).1]
    congr 2
    omega
  · rw [l3 w hw, r3, x3 w hw, y3 w hw]
    split_ifs
    · rw [show coef C N s = fun u => coef C N a u + coef C N a' u from funext s3, conv_add_left]
    · rw [add_zero]

example : ∃ s l x y r, (DenseAlg.ops intCoeff .debug 2).add (.ofVec [1, 2, 3]) (.ofVec [4]) = .ok s ∧
    (DenseAlg.ops intCoeff .debug 2).multiply s (.ofVec [0, 1, -1]) (some 2) = .ok l ∧
    (DenseAlg.ops intCoeff .debug 2).multiply (.ofVec [1, 2, 3]) (.ofVec [0, 1, -1]) (some 2) = .ok x ∧
    (DenseAlg.ops intCoeff .debug 2).multiply (.ofVec [4]) (.ofVec [0, 1, -1]) (some 2) = .ok y ∧
    (DenseAlg.ops intCoeff .debug 2).add x y = .ok r ∧ l.data = r.data :=
  C35_add_left intCoeff .debug 2 intCoeff_isRing (by omega) _ _ _ 1 0 1 2 ⟨rfl, by decide⟩ ⟨rfl, by decide⟩ ⟨rfl, by decide⟩
    (by decide) (by decide) (by decide)

/-- C35, right distributivity: `a (b + b') = a b + a b'`, every operation defined. -/
theorem C35_add_right [CommRing S] (hC : C.IsRing) (h2 : 2 ≤ N) (a b b' : Dense S) (da db db' D : Nat) (ha : FullTo N a da) (hb : FullTo N b db)
    (hb' : FullTo N b' db') (h1 : 1 ≤ min D (da + db)) (h1' : 1 ≤ min D (da + db')) (hp : N ^ (min D (da + max db db') + 1) < 2 ^ 64) :
    ∃ s l x y r, (DenseAlg.ops C p N).add b b' = .ok s ∧ (DenseAlg.ops C p N).multiply a s (some D) = .ok l ∧
      (DenseAlg.ops C p N).multiply a b (some D) = .ok x ∧ (DenseAlg.ops C p N).multiply a b' (some D) = .ok y ∧
      (DenseAlg.ops C p N).add x y = .ok r ∧ l.data = r.data := by
  obtain ⟨s, s1, s2, s3⟩ := coef_add C p (N := N) hC b b'
  have hs := fullTo_max hb hb' s2
  obtain ⟨l, l1, l2, l3⟩ := C33_multiply_ring C p N hC h2 a s da _ D ha hs (by omega) hp
  obtain ⟨x, x1, x2, x3⟩ := C33_multiply_ring C p N hC h2 a b da db D ha hb h1 (pow_lt64_mono h2 (by omega) hp)
  obtain ⟨y, y1, y2, y3⟩ := C33_multiply_ring C p N hC h2 a b' da db' D ha hb' h1' (pow_lt64_mono h2 (by omega) hp)
  obtain ⟨r, r1, r2, r3⟩ := coef_add C p (N := N) hC x y
  refine ⟨s, l, x, y, r, s1, l1, x1, y1, r1, data_ext_coef C (by omega : 1 ≤ N) ?_ fun w hw => ?_⟩
  · rw [l2.1, (fullTo_max x2 y2 r2).1]
    congr 2
    omega
  · rw [l3 w hw, r3, x3 w hw, y3 w hw]
    split_ifs
    · rw [show coef C N s = fun u => coef C N b u + coef C N b' u from funext s3, conv_add_right]
    · rw [add_zero]

example : ∃ s l x y r, (DenseAlg.ops intCoeff .debug 2).add (.ofVec [1, 2, 3]) (.ofVec [4]) = .ok s ∧
    (DenseAlg.ops intCoeff .debug 2).multiply (.ofVec [0, 1, -1]) s (some 2) = .ok l ∧
    (DenseAlg.ops intCoeff .debug 2).multiply (.ofVec [0, 1, -1]) (.ofVec [1, 2, 3]) (some 2) = .ok x ∧
    (DenseAlg.ops intCoeff .debug 2).multiply (.ofVec [0, 1, -1]) (.ofVec [4]) (some 2) = .ok y ∧
    (DenseAlg.ops intCoeff .debug 2).add x y = .ok r ∧ l.data = r.data :=
  C35_add_right intCoeff .debug 2 intCoeff_isRing (by omega) _ _ _ 1 1 0 2 ⟨rfl, by decide⟩ ⟨rfl, by decide⟩ ⟨rfl, by decide⟩
    (by decide) (by decide) (by decide)

/-- C35, scalars: `(s a) b = s (a b) = a (s b)`, every operation defined. -/
theorem C35_smul [CommRing S] (hC : C.IsRing) (h2 : 2 ≤ N) (a b : Dense S) (s : S) (da db D : Nat) (ha : FullTo N a da) (hb : FullTo N b db)
    (h1 : 1 ≤ min D (da + db)) (hp : N ^ (min D (da + db) + 1) < 2 ^ 64) :
    ∃ sa sb ab x y z, (DenseAlg.ops C p N).scalarLmultiply a s = .ok sa ∧ (DenseAlg.ops C p N).scalarLmultiply b s = .ok sb ∧
      (DenseAlg.ops C p N).multiply a b (some D) = .ok ab ∧ (DenseAlg.ops C p N).multiply sa b (some D) = .ok x ∧
      (DenseAlg.ops C p N).multiply a sb (some D) = .ok y ∧ (DenseAlg.ops C p N).scalarLmultiply ab s = .ok z ∧
      x.data = z.data ∧ y.data = z.data := by
  obtain ⟨sa, a1, a2, a3⟩ := coef_smul C p (N := N) hC a s
  obtain ⟨sb, b1, b2, b3⟩ := coef_smul C p (N := N) hC b s
  obtain ⟨ab, c1, c2, c3⟩ := C33_multiply_ring C p N hC h2 a b da db D ha hb h1 hp
  obtain ⟨x, x1, x2, x3⟩ := C33_multiply_ring C p N hC h2 sa b da db D ⟨a2.trans ha.1, ha.2⟩ hb h1 hp
  obtain ⟨y, y1, y2, y3⟩ := C33_multiply_ring C p N hC h2 a sb da db D ha ⟨b2.trans hb.1, hb.2⟩ h1 hp
  obtain ⟨z, z1, z2, z3⟩ := coef_smul C p (N := N) hC ab s
  refine ⟨sa, sb, ab, x, y, z, a1, b1, c1, x1, y1, z1, data_ext_coef C (by omega : 1 ≤ N) (by rw [x2.1, z2, c2.1]) fun w hw => ?_,
    data_ext_coef C (by omega : 1 ≤ N) (by rw [y2.1, z2, c2.1]) fun w hw => ?_⟩
  · rw [x3 w hw, z3, c3 w hw]
    split_ifs
    · rw [show coef C N sa = fun u => s * coef C N a u from funext a3, conv_smul_left]
    · rw [mul_zero]
  · rw [y3 w hw, z3, c3 w hw]
    split_ifs
    · rw [show coef C N sb = fun u => s * coef C N b u from funext b3, conv_smul_right]
    · rw [mul_zero]

example := C35_smul intCoeff .release 2 intCoeff_isRing (by omega) (.ofVec [1, 2, 3]) (.ofVec [0, 1, -1]) 6 1 1 2 ⟨rfl, by decide⟩
  ⟨rfl, by decide⟩ (by decide) (by decide)

/-- C35, unit: `from_key(empty word)` is a two-sided unit up to truncation, for tensors of degree at least one and truncation degree at least one. -/
theorem C35_unit [CommRing S] (hC : C.IsRing) (h2 : 2 ≤ N) (a : Dense S) (da D : Nat) (ha : FullTo N a da) (hda : 1 ≤ da) (hD : 1 ≤ D) :
    ∃ u l r, (DenseAlg.ops C p N).fromKey TensorKey.new = .ok u ∧ (DenseAlg.ops C p N).multiply u a (some D) = .ok l ∧
      (DenseAlg.ops C p N).multiply a u (some D) = .ok r ∧ l.data = a.data.take (geomSum N (D + 1)) ∧
      r.data = a.data.take (geomSum N (D + 1)) := by
  have hu : (DenseAlg.ops C p N).fromKey TensorKey.new = .ok (Dense.ofVec [C.one]) := by
    have hdim : (tensorBasis p N).dimForKey TensorKey.new = .ok 1 := by
      show vectorDimensionForKey p N TensorKey.new = _
      unfold vectorDimensionForKey
      rw [show degree TensorKey.new = 0 from rfl, addW_ok (by omega), Res.bind_ok,
        startOfDegree_ok p N h2 _ (pow_lt64_mono h2 (by omega) ha.2)]
      rfl
    have hidx : (tensorBasis p N).keyToIndex TensorKey.new = .ok 0 := rfl
    exact Dense.fromKeyScalar_ok C _ hdim hidx (by omega) C.one
  have hfu : FullTo N (Dense.ofVec [C.one]) 0 := ⟨rfl, pow_lt64_mono h2 (by omega) ha.2⟩
  have hcu : ∀ w, ValidWord N w → coef C N (Dense.ofVec [C.one]) w = unitFn w := by
    intro w hw
    unfold coef stored unitFn
    rw [Dense.ofVec_data]
    by_cases h : w = []
    · subst h
      simp [hC.one]
    · have hlen : 0 < w.length := List.length_pos_iff.2 h
      have := (wordIndex_bounds hw).1
      have h4 := geomSum_pos (N := N) (d := w.length) (by omega)
      rw [if_neg h, List.getElem?_eq_none (by simp; omega), Option.getD_none, hC.zero]
  obtain ⟨l, l1, l2, l3⟩ := C33_multiply_ring C p N hC h2 _ a 0 da D hfu ha (by omega) (pow_lt64_mono h2 (by omega) ha.2)
  obtain ⟨r, r1, r2, r3⟩ := C33_multiply_ring C p N hC h2 a _ da 0 D ha hfu (by omega) (pow_lt64_mono h2 (by omega) ha.2)
  have hsz : ∀ v : Dense S, v.size = geomSum N (min D da + 1) → (∀ w, ValidWord N w → coef C N v w = if w.length ≤ D then coef C N a w else 0) →
      v.data = a.data.take (geomSum N (D + 1)) := by
    intro v hv hw
    have : v.data = (Dense.ofVec (a.data.take (geomSum N (D + 1)))).data := by
      refine data_ext_coef C (by omega : 1 ≤ N) ?_ fun w hw' => ?_
      · rw [hv]
        have hs := ha.1
        unfold Dense.size at hs ⊢
        rw [Dense.ofVec_data, List.length_take, hs]
        rcases Nat.le_total D da with h | h
        · rw [Nat.min_eq_left h, Nat.min_eq_left (geomSum_mono (by omega))]
        · rw [Nat.min_eq_right h, Nat.min_eq_right (geomSum_mono (by omega))]
      · rw [hw w hw']
        unfold coef stored
        rw [Dense.ofVec_data, List.getElem?_take]
        have ⟨b1, b2⟩ := wordIndex_bounds hw'
        by_cases hl : w.length ≤ D
        · have := geomSum_mono (N := N) (a := w.length + 1) (b := D + 1) (by omega)
          rw [if_pos hl, if_pos (by omega)]
        · have := geomSum_mono (N := N) (a := D + 1) (b := w.length) (by omega)
          rw [if_neg hl, if_neg (by omega), Option.getD_none, hC.zero]
    exact this
  refine ⟨_, l, r, hu, l1, r1, hsz l (by rw [l2.1, Nat.zero_add]) fun w hw => ?_, hsz r r2.1 fun w hw => ?_⟩
  · rw [l3 w hw]
    split_ifs
    · rw [conv_congr_valid N (f' := unitFn) (g' := coef C N a) w hw (fun u hu _ => hcu u hu) (fun _ _ _ => rfl), conv_unit_left]
    · rfl
  · rw [r3 w hw]
    split_ifs
    · rw [conv_congr_valid N (f' := coef C N a) (g' := unitFn) w hw (fun _ _ _ => rfl) (fun u hu _ => hcu u hu), conv_unit_right]
    · rfl

example : ∃ u l r, (DenseAlg.ops intCoeff .release 2).fromKey TensorKey.new = .ok u ∧
    (DenseAlg.ops intCoeff .release 2).multiply u (.ofVec [1, 2, 3, 4, 5, 6, 7]) (some 1) = .ok l ∧
    (DenseAlg.ops intCoeff .release 2).multiply (.ofVec [1, 2, 3, 4, 5, 6, 7]) u (some 1) = .ok r ∧ l.data = [1, 2, 3] ∧ r.data = [1, 2, 3] :=
  C35_unit intCoeff .release 2 intCoeff_isRing (by omega) _ 2 1 ⟨rfl, by decide⟩ (by omega) (by omega)

end

/-- An instance of associativity with three non-commuting factors over two letters, truncated at degree 2. -/
example : ∃ ab bc l r, (DenseAlg.ops intCoeff .release 2).multiply (.ofVec [1, 2, 3]) (.ofVec [0, 1, -1]) (some 2) = .ok ab ∧
    (DenseAlg.ops intCoeff .release 2).multiply (.ofVec [0, 1, -1]) (.ofVec [4, 0, 5]) (some 2) = .ok bc ∧
    (DenseAlg.ops intCoeff .release 2).multiply ab (.ofVec [4, 0, 5]) (some 2) = .ok l ∧
    (DenseAlg.ops intCoeff .release 2).multiply (.ofVec [1, 2, 3]) bc (some 2) = .ok r ∧ l.data = r.data :=
  C35_assoc intCoeff .release 2 intCoeff_isRing (by omega) _ _ _ 1 1 1 2 ⟨rfl, by decide⟩ ⟨rfl, by decide⟩ ⟨rfl, by decide⟩
    (by decide) (by decide) (by decide)

/-! ## C36: `add_mul`, `sub_mul`, `commutator` -/

section
variable {S R : Type} (C : Coeff S R) (p : Profile) (N : Nat)

/-- `v` has no word of length `M` or all of them: `add_mul` of a product of degree `M` stays in bounds. -/
def TargetFits (v : Dense S) (M : Nat) : Prop := (v.size ≤ geomSum N M ∧ 1 ≤ M) ∨ geomSum N (M + 1) ≤ v.size

/-- C36, `add_mul` exactly, without laws: entry by entry the products are added, longest left factor first, to the old entry (zero when absent); words
longer than the product's degree keep their entries. -/
theorem C36_add_mul (h2 : 2 ≤ N) (v a b : Dense S) (dv da db D : Nat) (hv : HasDegree N v dv) (ha : HasDegree N a da) (hb : HasDegree N b db)
    (hp : N ^ (min D (da + db) + 1) < 2 ^ 64) (hf : OperandsFit N a b da db (min D (da + db))) (ht : TargetFits N v (min D (da + db))) :
    ∃ r, (DenseAlg.ops C p N).addMul v a b (some D) = .ok r ∧ r.size = max v.size (geomSum N (min D (da + db) + 1)) ∧
      ∀ w, ValidWord N w → stored N r w =
        if w.length ≤ min D (da + db) then
          some ((splitProducts C.mul (stored N a) (stored N b) w).foldl C.add ((stored N v w).getD C.zero)) else stored N v w :=
  mulAddInto_ok C p N h2 id v a b dv da db D hv.1 ha.1 hb.1 hv.2 ha.2 hb.2 hp hf.1 hf.2 ht

example := C36_add_mul (floatCoeff .f32) .debug 2 (by omega) (.ofVec [.fin 7, .nan, .fin 1]) (.ofVec [.zero false, .fin 1, .zero true])
  (.ofVec [.zero true, .zero false, .fin 3]) 1 1 1 3 ⟨by decide, by decide⟩ ⟨by decide, by decide⟩ ⟨by decide, by decide⟩ (by decide)
  ⟨by decide, by decide⟩ (.inl (by decide))

/-- C36, `sub_mul` exactly, without laws: the negated products are added. -/
theorem C36_sub_mul (h2 : 2 ≤ N) (v a b : Dense S) (dv da db D : Nat) (hv : HasDegree N v dv) (ha : HasDegree N a da) (hb : HasDegree N b db)
    (hp : N ^ (min D (da + db) + 1) < 2 ^ 64) (hf : OperandsFit N a b da db (min D (da + db))) (ht : TargetFits N v (min D (da + db))) :
    ∃ r, (DenseAlg.ops C p N).subMul C v a b (some D) = .ok r ∧ r.size = max v.size (geomSum N (min D (da + db) + 1)) ∧
      ∀ w, ValidWord N w → stored N r w =
        if w.length ≤ min D (da + db) then
          some ((splitProducts (fun x y => C.uminus (C.mul x y)) (stored N a) (stored N b) w).foldl C.add ((stored N v w).getD C.zero))
        else stored N v w :=
  mulAddInto_ok C p N h2 C.uminus v a b dv da db D hv.1 ha.1 hb.1 hv.2 ha.2 hb.2 hp hf.1 hf.2 ht

example := C36_sub_mul intCoeff .release 2 (by omega) (.ofVec [7, 0, 0]) (.ofVec [0, 1, 0]) (.ofVec [0, 0, 1]) 1 1 1 3 ⟨by decide, by decide⟩
  ⟨by decide, by decide⟩ ⟨by decide, by decide⟩ (by decide) ⟨by decide, by decide⟩ (.inl (by decide))

theorem coef_mulAdd [CommRing S] (hC : C.IsRing) (v a b r : Dense S) (da db D : Nat) (ha : HasDegree N a da) (hb : HasDegree N b db)
    (f : S → S) (c : S) (hf : ∀ x, f x = c * x)
    (hr : ∀ w, ValidWord N w → stored N r w = if w.length ≤ min D (da + db) then
      some ((splitProducts (fun x y => f (C.mul x y)) (stored N a) (stored N b) w).foldl C.add ((stored N v w).getD C.zero)) else stored N v w)
    (w : List Nat) (hw : ValidWord N w) :
    coef C N r w = coef C N v w + if w.length ≤ D then c * conv (coef C N a) (coef C N b) w else 0 := by
  rw [coef, hr w hw]
  by_cases hl : w.length ≤ min D (da + db)
  · rw [if_pos hl, if_pos (by omega), Option.getD_some, fold_conv C N hC a b w _ c f hf]
    rfl
  · rw [if_neg hl]
    by_cases hD : w.length ≤ D
    · rw [if_pos hD, conv_zero_of_length N _ _ da db w hw (coef_zero_of_length C N hC ha) (coef_zero_of_length C N hC hb) (by omega),
        mul_zero, add_zero]
      rfl
    · rw [if_neg hD, add_zero]
      rfl

/-- C36 over exact coefficients: `add_mul` adds and `sub_mul` subtracts the truncated product. -/
theorem C36_add_sub_mul_ring [CommRing S] (hC : C.IsRing) (h2 : 2 ≤ N) (v a b : Dense S) (dv da db D : Nat) (hv : HasDegree N v dv)
    (ha : FullTo N a da) (hb : FullTo N b db) (hp : N ^ (min D (da + db) + 1) < 2 ^ 64) (ht : TargetFits N v (min D (da + db))) :
    (∃ r, (DenseAlg.ops C p N).addMul v a b (some D) = .ok r ∧ ∀ w, ValidWord N w →
      coef C N r w = coef C N v w + if w.length ≤ D then conv (coef C N a) (coef C N b) w else 0) ∧
    (∃ r, (DenseAlg.ops C p N).subMul C v a b (some D) = .ok r ∧ ∀ w, ValidWord N w →
      coef C N r w = coef C N v w - if w.length ≤ D then conv (coef C N a) (coef C N b) w else 0) := by
  have hf : OperandsFit N a b da db (min D (da + db)) :=
    ⟨by rw [ha.1]; exact geomSum_mono (by omega), by rw [hb.1]; exact geomSum_mono (by omega)⟩
  constructor
  · obtain ⟨r, h1, _, h4⟩ := C36_add_mul C p N h2 v a b dv da db D hv (ha.hasDegree h2) (hb.hasDegree h2) hp hf ht
    refine ⟨r, h1, fun w hw => ?_⟩
    have := coef_mulAdd C N hC v a b r da db D (ha.hasDegree h2) (hb.hasDegree h2) id 1 (fun x => (one_mul x).symm) h4 w hw
    rwa [one_mul] at this
  · obtain ⟨r, h1, _, h4⟩ := C36_sub_mul C p N h2 v a b dv da db D hv (ha.hasDegree h2) (hb.hasDegree h2) hp hf ht
    refine ⟨r, h1, fun w hw => ?_⟩
    rw [coef_mulAdd C N hC v a b r da db D (ha.hasDegree h2) (hb.hasDegree h2) C.uminus (-1) (fun x => by rw [hC.uminus, neg_one_mul]) h4 w hw]
    split_ifs
    · rw [neg_one_mul, ← sub_eq_add_neg]
    · rw [add_zero, sub_zero]

example := C36_add_sub_mul_ring intCoeff .release 2 intCoeff_isRing (by omega) (.ofVec [7, 0, 0]) (.ofVec [0, 1, 0]) (.ofVec [0, 0, 1]) 1 1 1 3
  ⟨by decide, by decide⟩ ⟨rfl, by decide⟩ ⟨rfl, by decide⟩ (by decide) (.inl (by decide))

/-- C36, `commutator` is `a b - b a`, truncated. -/
theorem C36_commutator [CommRing S] (hC : C.IsRing) (h2 : 2 ≤ N) (a b : Dense S) (da db D : Nat) (ha : FullTo N a da) (hb : FullTo N b db)
    (hM : 1 ≤ min D (da + db)) (hp : N ^ (min D (da + db) + 1) < 2 ^ 64) :
    ∃ r, (DenseAlg.ops C p N).commutator C a b (some D) = .ok r ∧ FullTo N r (min D (da + db)) ∧ ∀ w, ValidWord N w →
      coef C N r w = if w.length ≤ D then conv (coef C N a) (coef C N b) w - conv (coef C N b) (coef C N a) w else 0 := by
  obtain ⟨r1, e1, f1, g1⟩ := C33_multiply_ring C p N hC h2 a b da db D ha hb hM hp
  have hc : db + da = da + db := Nat.add_comm _ _
  obtain ⟨r, e2, f2, g2⟩ := C36_sub_mul C p N h2 r1 b a _ db da D (f1.hasDegree h2) (hb.hasDegree h2) (ha.hasDegree h2) (by rw [hc]; exact hp)
    ⟨by rw [hb.1]; exact geomSum_mono (by omega), by rw [ha.1]; exact geomSum_mono (by omega)⟩ (Or.inr (by rw [f1.1, hc]))
  refine ⟨r, ?_, ⟨by rw [f2, f1.1, hc]; exact Nat.max_self _, hp⟩, fun w hw => ?_⟩
  · show (do
      let r ← (DenseAlg.ops C p N).multiply a b (some D)
      (DenseAlg.ops C p N).subMul C r b a (some D)) = _
    rw [e1]
    exact e2
  · rw [coef_mulAdd C N hC r1 b a r db da D (hb.hasDegree h2) (ha.hasDegree h2) C.uminus (-1) (fun x => by rw [hC.uminus, neg_one_mul]) g2 w hw,
      g1 w hw]
    split_ifs
    · rw [neg_one_mul, ← sub_eq_add_neg]
    · rw [add_zero]

example := C36_commutator intCoeff .release 3 intCoeff_isRing (by omega) (.ofVec [0, 1, 0, 2]) (.ofVec [0, 0, 1, 0]) 1 1 5 ⟨rfl, by decide⟩
  ⟨rfl, by decide⟩ (by decide) (by decide)

/-- C36, antisymmetry: `[a, b] = -[b, a]`. -/
theorem C36_antisymm [CommRing S] (hC : C.IsRing) (h2 : 2 ≤ N) (a b : Dense S) (da db D : Nat) (ha : FullTo N a da) (hb : FullTo N b db)
    (hM : 1 ≤ min D (da + db)) (hp : N ^ (min D (da + db) + 1) < 2 ^ 64) :
    ∃ x y z, (DenseAlg.ops C p N).commutator C a b (some D) = .ok x ∧ (DenseAlg.ops C p N).commutator C b a (some D) = .ok y ∧
      (DenseAlg.ops C p N).uminus y = .ok z ∧ x.data = z.data := by
  have hc : db + da = da + db := Nat.add_comm _ _
  obtain ⟨x, x1, x2, x3⟩ := C36_commutator C p N hC h2 a b da db D ha hb hM hp
  obtain ⟨y, y1, y2, y3⟩ := C36_commutator C p N hC h2 b a db da D hb ha (by rw [hc]; exact hM) (by rw [hc]; exact hp)
  refine ⟨x, y, Dense.ofVec (y.data.map C.uminus), x1, y1, rfl, data_ext_coef C (by omega : 1 ≤ N) ?_ fun w hw => ?_⟩
  · rw [x2.1]
    have := y2.1
    unfold Dense.size at this ⊢
    rw [Dense.ofVec_data, List.length_map, this, hc]
  · have hz : coef C N (Dense.ofVec (y.data.map C.uminus)) w = - coef C N y w := by
      unfold coef stored
      rw [Dense.ofVec_data, List.getElem?_map]
      cases y.data[wordIndex N w]? <;> simp [hC.uminus, hC.zero]
    rw [hz, x3 w hw, y3 w hw]
    split_ifs
    · rw [neg_sub]
    · rw [neg_zero]

example := C36_antisymm intCoeff .release 3 intCoeff_isRing (by omega) (.ofVec [0, 1, 0, 2]) (.ofVec [0, 0, 1, 0]) 1 1 5 ⟨rfl, by decide⟩
  ⟨rfl, by decide⟩ (by decide) (by decide)

/-- C36, Jacobi identity: `[a, [b, c]] + [b, [c, a]] + [c, [a, b]]` has only zero coefficients. -/
theorem C36_jacobi [CommRing S] (hC : C.IsRing) (h2 : 2 ≤ N) (a b c : Dense S) (da db dc D : Nat) (ha : FullTo N a da) (hb : FullTo N b db)
    (hc : FullTo N c dc) (h1 : 1 ≤ min D (db + dc)) (h3 : 1 ≤ min D (dc + da)) (h4 : 1 ≤ min D (da + db))
    (hp : N ^ (min D (da + db + dc) + 1) < 2 ^ 64) :
    ∃ bc ca ab x y z s t, (DenseAlg.ops C p N).commutator C b c (some D) = .ok bc ∧ (DenseAlg.ops C p N).commutator C c a (some D) = .ok ca ∧
      (DenseAlg.ops C p N).commutator C a b (some D) = .ok ab ∧ (DenseAlg.ops C p N).commutator C a bc (some D) = .ok x ∧
      (DenseAlg.ops C p N).commutator C b ca (some D) = .ok y ∧ (DenseAlg.ops C p N).commutator C c ab (some D) = .ok z ∧
      (DenseAlg.ops C p N).add x y = .ok s ∧ (DenseAlg.ops C p N).add s z = .ok t ∧ ∀ e ∈ t.data, e = 0 := by
  obtain ⟨bc, b1, b2, b3⟩ := C36_commutator C p N hC h2 b c db dc D hb hc h1 (pow_lt64_mono h2 (by omega) hp)
  obtain ⟨ca, c1, c2, c3⟩ := C36_commutator C p N hC h2 c a dc da D hc ha h3 (pow_lt64_mono h2 (by omega) hp)
  obtain ⟨ab, a1, a2, a3⟩ := C36_commutator C p N hC h2 a b da db D ha hb h4 (pow_lt64_mono h2 (by omega) hp)
  obtain ⟨x, x1, x2, x3⟩ := C36_commutator C p N hC h2 a bc da _ D ha b2 (by omega) (pow_lt64_mono h2 (by omega) hp)
  obtain ⟨y, y1, y2, y3⟩ := C36_commutator C p N hC h2 b ca db _ D hb c2 (by omega) (pow_lt64_mono h2 (by omega) hp)
  obtain ⟨z, z1, z2, z3⟩ := C36_commutator C p N hC h2 c ab dc _ D hc a2 (by omega) (pow_lt64_mono h2 (by omega) hp)
  obtain ⟨s, s1, s2, s3⟩ := coef_add C p (N := N) hC x y
  obtain ⟨t, t1, t2, t3⟩ := coef_add C p (N := N) hC s z
  refine ⟨bc, ca, ab, x, y, z, s, t, b1, c1, a1, x1, y1, z1, s1, t1, fun e he => ?_⟩
  obtain ⟨i, hi, rfl⟩ := List.getElem_of_mem he
  have hw := validWord_indexWord (N := N) (by omega) i
  have key : coef C N t (indexWord N i) = 0 := by
    rw [t3, s3, x3 _ hw, y3 _ hw, z3 _ hw]
    split_ifs with hl
    · have cg : ∀ (f : Dense S) (g : Dense S) (G : List Nat → S), (∀ w, ValidWord N w → w.length ≤ D → coef C N g w = G w) →
          conv (coef C N f) (coef C N g) (indexWord N i) = conv (coef C N f) G (indexWord N i) ∧
          conv (coef C N g) (coef C N f) (indexWord N i) = conv G (coef C N f) (indexWord N i) := fun f g G hG =>
        ⟨conv_congr_valid N _ hw (fun _ _ _ => rfl) (fun u hu hlu => hG u hu (by omega)),
          conv_congr_valid N _ hw (fun u hu hlu => hG u hu (by omega)) (fun _ _ _ => rfl)⟩
      have q1 := cg a bc _ (fun w hw hl => by rw [b3 w hw, if_pos hl])
      have q2 := cg b ca _ (fun w hw hl => by rw [c3 w hw, if_pos hl])
      have q3 := cg c ab _ (fun w hw hl => by rw [a3 w hw, if_pos hl])
      rw [q1.1, q1.2, q2.1, q2.2, q3.1, q3.2]
      simp only [conv_sub_left, conv_sub_right]
      have r := fun f g h : List Nat → S => conv_assoc f g h (indexWord N i)
      have e : ∀ f g h : List Nat → S, conv (fun w => conv f g w) h (indexWord N i) = conv f (fun w => conv g h w) (indexWord N i) := r
      rw [e, e, e, e, e, e]
      ring
    · simp
  unfold coef stored at key
  rw [wordIndex_indexWord, List.getElem?_eq_getElem hi] at key
  exact key

example := C36_jacobi intCoeff .debug 2 intCoeff_isRing (by omega) (.ofVec [0, 1, 0]) (.ofVec [0, 0, 1]) (.ofVec [3, 1, 1]) 1 1 1 3
  ⟨rfl, by decide⟩ ⟨rfl, by decide⟩ ⟨rfl, by decide⟩ (by decide) (by decide) (by decide) (by decide)

end

/-- `[e1, e2] = e1 e2 - e2 e1` over two letters. -/
example : (DenseAlg.ops intCoeff .debug 2).commutator intCoeff (.ofVec [0, 1, 0]) (.ofVec [0, 0, 1]) (some 3) =
    .ok (.ofVec [0, 0, 0, 0, 1, -1, 0]) := by decide +kernel

example : (DenseAlg.ops intCoeff .debug 2).addMul (.ofVec [7, 0, 0]) (.ofVec [0, 1, 0]) (.ofVec [0, 0, 1]) (some 3) =
    .ok (.ofVec [7, 0, 0, 0, 1, 0, 0]) ∧
    (DenseAlg.ops intCoeff .debug 2).subMul intCoeff (.ofVec [7, 0, 0]) (.ofVec [0, 1, 0]) (.ofVec [0, 0, 1]) (some 3) =
    .ok (.ofVec [7, 0, 0, 0, -1, 0, 0]) := by constructor <;> decide +kernel

end RA
