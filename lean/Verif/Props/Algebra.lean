import Verif.Proofs.Algebra
import Verif.Props.Dense
import Verif.Lawful
import Verif.Model.Float

/-!
# Properties of the tensor product (C33-C36)

`DenseAlg.ops C p N` is the `Algebra` implementation of `SimpleDenseVector<TensorBasis<N>, S>` with coefficients `C`.
-/

namespace RA
open Spec TensorKey TensorBasis DenseAlg

/-- The stored coefficient of a word; `wordIndex` is the independent graded-lexicographic numbering. -/
def stored {S : Type} (N : Nat) (v : Dense S) (w : List Nat) : Option S := v.data[wordIndex N w]?

/-- The coefficient of a word, zero when none is stored. -/
def coef {S R : Type} (C : Coeff S R) (N : Nat) (v : Dense S) (w : List Nat) : S := (stored N v w).getD C.zero

/-- The vector's last entry belongs to a word of length `d` (or the vector is empty and `d = 0`), and the dimension up to degree `d` is representable. -/
def HasDegree {S : Type} (N : Nat) (v : Dense S) (d : Nat) : Prop :=
  ((v.size = 0 ∧ d = 0) ∨ (geomSum N d < v.size ∧ v.size ≤ geomSum N (d + 1))) ∧ N ^ (d + 1) < 2 ^ 64

/-- The vector stores exactly the words of length at most `d`. -/
def FullTo {S : Type} (N : Nat) (v : Dense S) (d : Nat) : Prop := v.size = geomSum N (d + 1) ∧ N ^ (d + 1) < 2 ^ 64

section
variable {S R : Type} (C : Coeff S R) (p : Profile) (N : Nat)

/-- `get` at the key of a word is the stored coefficient. -/
theorem C33_get (h1 : 1 ≤ N) (hN : N < 2 ^ 32) (v : Dense S) (w : List Nat) (hw : ValidWord N w) (hl : w.length ≤ maxDepth N)
    (k : TensorKey) (hk : fromLetters p N w = .ok k) : (DenseAlg.ops C p N).get v k = .ok (stored N v w) := by
  rw [fromLetters_ok p N h1 hN w hw hl] at hk
  cases hk
  show Dense.get _ _ _ = _
  unfold Dense.get
  rw [show (tensorBasis p N).keyToIndex (keyOf N w) = .ok (wordIndex N w) from keyToIndex_keyOf p N h1 hN w hw hl]
  rfl

example : (DenseAlg.ops intCoeff .debug 3).get (.ofVec [2, 1, 0, 7]) (keyOf 3 [3]) = .ok (some 7) :=
  (C33_get intCoeff .debug 3 (by omega) (by omega) (.ofVec [2, 1, 0, 7]) [3] (by decide) (by decide +kernel) _ (by decide +kernel)).trans
    (by decide +kernel)

variable {N} in
theorem FullTo.hasDegree (h2 : 2 ≤ N) {v : Dense S} {d : Nat} (h : FullTo N v d) : HasDegree N v d := by
  refine ⟨Or.inr ⟨?_, by rw [h.1]⟩, h.2⟩
  rw [h.1]
  exact geomSum_strict (by omega) (by omega)

variable {N} in
/-- Two vectors with the same size and the same stored coefficients have the same data. -/
theorem data_ext (h1 : 1 ≤ N) {a b : Dense S} (h : ∀ w, ValidWord N w → stored N a w = stored N b w) : a.data = b.data := by
  apply List.ext_getElem?
  intro i
  have := h _ (validWord_indexWord h1 i)
  unfold stored at this
  rwa [wordIndex_indexWord] at this

variable {N} in
theorem data_ext_coef (h1 : 1 ≤ N) {a b : Dense S} (hs : a.size = b.size) (h : ∀ w, ValidWord N w → coef C N a w = coef C N b w) :
    a.data = b.data := by
  apply List.ext_getElem?
  intro i
  have := h _ (validWord_indexWord h1 i)
  unfold coef stored at this
  rw [wordIndex_indexWord] at this
  unfold Dense.size at hs
  by_cases hi : i < a.data.length
  · rw [List.getElem?_eq_getElem hi, List.getElem?_eq_getElem (by omega)] at this ⊢
    simpa using this
  · rw [List.getElem?_eq_none (by omega), List.getElem?_eq_none (by omega)]

/-! ## C33: the product -/

/-- The operands hold every coefficient the product up to degree `M` needs. -/
def OperandsFit (a b : Dense S) (da db M : Nat) : Prop :=
  geomSum N (min M da + 1) ≤ a.size ∧ geomSum N (min M db + 1) ≤ b.size

/-- C33 (and C34), the exact behaviour of `multiply`, without laws on the coefficients.  For operands of degree `da` and `db`, with
`M = min(D, da + db)` the degree of the product: if `M ≥ 1` and the operands are not cut short below `M`, the product has exactly the words of length at
most `M`, and the coefficient at `w` is `((0 + a_u1*b_v1) + a_u2*b_v2) + ...` over the splittings `w = u v` into stored words, longest `u` first. -/
theorem C33_multiply (h2 : 2 ≤ N) (a b : Dense S) (da db D : Nat) (ha : HasDegree N a da) (hb : HasDegree N b db)
    (hM : 1 ≤ min D (da + db)) (hp : N ^ (min D (da + db) + 1) < 2 ^ 64) (hf : OperandsFit N a b da db (min D (da + db))) :
    ∃ r, (DenseAlg.ops C p N).multiply a b (some D) = .ok r ∧ FullTo N r (min D (da + db)) ∧
      ∀ w, ValidWord N w → stored N r w =
        if w.length ≤ min D (da + db) then some ((splitProducts C.mul (stored N a) (stored N b) w).foldl C.add C.zero) else none := by
  have g := geomSum_mono (N := N) (a := 0) (b := min D (da + db) + 1) (by omega)
  obtain ⟨r, h1, h3, h4⟩ := mulAddInto_ok C p N h2 id Dense.new a b 0 da db D (Or.inl ⟨rfl, rfl⟩) ha.1 hb.1
    (pow_lt64_mono h2 (by omega) ha.2) ha.2 hb.2 hp hf.1 hf.2 (Or.inl ⟨Nat.zero_le _, hM⟩)
  refine ⟨r, h1, ⟨?_, hp⟩, fun w hw => ?_⟩
  · unfold Dense.size
    rw [h3]
    exact Nat.max_eq_right (Nat.zero_le _)
  · exact h4 w hw

example : ∃ r, (DenseAlg.ops (floatCoeff .f64) .debug 2).multiply (.ofVec [.nan, .fin 1, .inf true]) (.ofVec [.fin 5, .zero true, .fin 1]) (some 2) = .ok r ∧
    FullTo 2 r (min 2 (1 + 1)) ∧ ∀ w, ValidWord 2 w → stored 2 r w =
      if w.length ≤ min 2 (1 + 1) then some ((splitProducts (floatCoeff .f64).mul (stored 2 (.ofVec [.nan, .fin 1, .inf true]))
        (stored 2 (.ofVec [.fin 5, .zero true, .fin 1])) w).foldl (floatCoeff .f64).add (floatCoeff .f64).zero) else none :=
  C33_multiply (floatCoeff .f64) .debug 2 (by omega) _ _ 1 1 2 ⟨by decide, by decide⟩ ⟨by decide, by decide⟩ (by decide) (by decide)
    ⟨by decide, by decide⟩

/-- C33.  Whenever `multiply` returns, the result is the product: no condition on the operands or the truncation degree beyond representable dimensions. -/
theorem C33_multiply_returns (h2 : 2 ≤ N) (a b r : Dense S) (da db D : Nat) (ha : HasDegree N a da) (hb : HasDegree N b db)
    (hp : N ^ (min D (da + db) + 1) < 2 ^ 64) (hr : (DenseAlg.ops C p N).multiply a b (some D) = .ok r) :
    FullTo N r (min D (da + db)) ∧ ∀ w, ValidWord N w → stored N r w =
      if w.length ≤ min D (da + db) then some ((splitProducts C.mul (stored N a) (stored N b) w).foldl C.add C.zero) else none := by
  by_cases h : 1 ≤ min D (da + db) ∧ OperandsFit N a b da db (min D (da + db))
  · obtain ⟨r', h1, h3, h4⟩ := C33_multiply C p N h2 a b da db D ha hb h.1 hp h.2
    cases h1.symm.trans hr
    exact ⟨h3, h4⟩
  · have := mulAddInto_ub C p N h2 id Dense.new a b 0 da db D (Or.inl ⟨rfl, rfl⟩) ha.1 hb.1
      (pow_lt64_mono h2 (by omega) ha.2) ha.2 hb.2 hp (by
        rintro ⟨h5, h6, h7⟩
        refine h ⟨?_, h5, h6⟩
        rcases h7 with h7 | h7
        · exact h7.2
        · have := geomSum_pos (N := N) (d := min D (da + db) + 1) (by omega)
          simp [Dense.new] at h7
          omega)
    cases this.symm.trans hr

example : FullTo 3 (.ofVec [10, 5, 2, 0, 0, 1, 0, 0, 0, 0, 0, 0, (0 : Int)]) (min 2 (1 + 1)) :=
  (C33_multiply_returns intCoeff .debug 3 (by omega) (.ofVec [2, 1, 0, 0]) (.ofVec [5, 0, 1, 0]) _ 1 1 2 ⟨by decide, by decide⟩
    ⟨by decide, by decide⟩ (by decide) (by decide +kernel)).1

/-- The product of coefficient functions vanishes beyond the sum of the degrees. -/
theorem conv_zero_of_length [CommRing S] (f g : List Nat → S) (da db : Nat) (w : List Nat) (hw : ValidWord N w)
    (hf : ∀ u, ValidWord N u → da < u.length → f u = 0) (hg : ∀ u, ValidWord N u → db < u.length → g u = 0) (h : da + db < w.length) :
    conv f g w = 0 := by
  rw [conv_eq_sum]
  apply List.sum_eq_zero
  intro x hx
  rw [List.mem_map] at hx
  obtain ⟨k, hk, rfl⟩ := hx
  by_cases hc : da < k
  · rw [List.mem_range] at hk
    rw [hf _ (validWord_take hw k) (by simp; omega), zero_mul]
  · rw [hg _ (validWord_drop hw k) (by simp; omega), mul_zero]

theorem coef_zero_of_length [CommRing S] (hC : C.IsRing) {a : Dense S} {da : Nat} (ha : HasDegree N a da) (u : List Nat) (hu : ValidWord N u)
    (hl : da < u.length) : coef C N a u = 0 := by
  unfold coef
  rw [show stored N a u = none from at?_none hu hl (by rcases ha.1 with ⟨h, _⟩ | ⟨_, h⟩ <;> unfold Dense.size at h <;> omega)]
  exact hC.zero

/-- Over exact coefficients the fold over the splittings is the concatenation product. -/
theorem fold_conv [CommRing S] (hC : C.IsRing) (a b : Dense S) (w : List Nat) (z c : S) (f : S → S) (hf : ∀ x, f x = c * x) :
    (splitProducts (fun y z => f (C.mul y z)) (stored N a) (stored N b) w).foldl C.add z = z + c * conv (coef C N a) (coef C N b) w := by
  have e1 : C.add = (· + ·) := by funext x y; exact hC.add x y
  have e2 : (fun y z => f (C.mul y z)) = fun x y => c * (x * y) := by funext x y; rw [hf, hC.mul]
  have e3 : splitProducts (fun x y => c * (x * y)) (stored N a) (stored N b) w =
      (splitProducts (· * ·) (stored N a) (stored N b) w).map (c * ·) := by
    unfold splitProducts
    rw [List.map_filterMap]
    apply List.filterMap_congr
    intro uv _
    cases stored N a uv.1 <;> cases stored N b uv.2 <;> rfl
  rw [e1, e2, e3, foldl_add_sum, List.sum_map_mul_left, List.map_id', splitProducts_sum]
  unfold coef
  rw [hC.zero]

/-- C33.  Over exact coefficients: the product of full tensors has the coefficient `∑ a_u * b_v` over all splittings `w = u v` at every word of length at
most `D`, and no others. -/
theorem C33_multiply_ring [CommRing S] (hC : C.IsRing) (h2 : 2 ≤ N) (a b : Dense S) (da db D : Nat) (ha : FullTo N a da) (hb : FullTo N b db)
    (hM : 1 ≤ min D (da + db)) (hp : N ^ (min D (da + db) + 1) < 2 ^ 64) :
    ∃ r, (DenseAlg.ops C p N).multiply a b (some D) = .ok r ∧ FullTo N r (min D (da + db)) ∧
      ∀ w, ValidWord N w → coef C N r w = if w.length ≤ D then conv (coef C N a) (coef C N b) w else 0 := by
  have hda := ha.hasDegree h2
  have hdb := hb.hasDegree h2
  obtain ⟨r, h1, h3, h4⟩ := C33_multiply C p N h2 a b da db D hda hdb hM hp
    ⟨by rw [ha.1]; exact geomSum_mono (by omega), by rw [hb.1]; exact geomSum_mono (by omega)⟩
  refine ⟨r, h1, h3, fun w hw => ?_⟩
  rw [coef, h4 w hw]
  by_cases hl : w.length ≤ min D (da + db)
  · rw [if_pos hl, if_pos (by omega), Option.getD_some]
    have := fold_conv C N hC a b w C.zero 1 id (fun x => (one_mul x).symm)
    rw [one_mul, hC.zero, zero_add] at this
    rw [hC.zero]
    exact this
  · rw [if_neg hl, Option.getD_none, hC.zero]
    by_cases hD : w.length ≤ D
    · rw [if_pos hD, conv_zero_of_length N _ _ da db w hw (coef_zero_of_length C N hC hda) (coef_zero_of_length C N hC hdb) (by omega)]
    · rw [if_neg hD]

example : ∃ r, (DenseAlg.ops intCoeff .release 3).multiply (.ofVec [2, 1, 0, 0]) (.ofVec [5, 0, 1, 0]) (some 7) = .ok r ∧
    FullTo 3 r (min 7 (1 + 1)) ∧ ∀ w, ValidWord 3 w → coef intCoeff 3 r w =
      if w.length ≤ 7 then conv (coef intCoeff 3 (.ofVec [2, 1, 0, 0])) (coef intCoeff 3 (.ofVec [5, 0, 1, 0])) w else 0 :=
  C33_multiply_ring intCoeff .release 3 intCoeff_isRing (by omega) _ _ 1 1 7 ⟨rfl, by decide⟩ ⟨rfl, by decide⟩ (by decide) (by decide)

/-- C33 over exact coefficients, whenever `multiply` returns. -/
theorem C33_multiply_returns_ring [CommRing S] (hC : C.IsRing) (h2 : 2 ≤ N) (a b r : Dense S) (da db D : Nat) (ha : HasDegree N a da)
    (hb : HasDegree N b db) (hp : N ^ (min D (da + db) + 1) < 2 ^ 64) (hr : (DenseAlg.ops C p N).multiply a b (some D) = .ok r) :
    FullTo N r (min D (da + db)) ∧ ∀ w, ValidWord N w → coef C N r w = if w.length ≤ D then conv (coef C N a) (coef C N b) w else 0 := by
  obtain ⟨h3, h4⟩ := C33_multiply_returns C p N h2 a b r da db D ha hb hp hr
  refine ⟨h3, fun w hw => ?_⟩
  rw [coef, h4 w hw]
  by_cases hl : w.length ≤ min D (da + db)
  · rw [if_pos hl, if_pos (by omega), Option.getD_some]
    have := fold_conv C N hC a b w C.zero 1 id (fun x => (one_mul x).symm)
    rw [one_mul, hC.zero, zero_add] at this
    rw [hC.zero]
    exact this
  · rw [if_neg hl, Option.getD_none, hC.zero]
    by_cases hD : w.length ≤ D
    · rw [if_pos hD, conv_zero_of_length N _ _ da db w hw (coef_zero_of_length C N hC ha) (coef_zero_of_length C N hC hb) (by omega)]
    · rw [if_neg hD]

example : FullTo 2 (.ofVec [10, 5, 20, (0 : Int), 0, 0, 0]) (min 2 (2 + 0)) ∧ ∀ w, ValidWord 2 w →
    coef intCoeff 2 (.ofVec [10, 5, 20, 0, 0, 0, 0]) w =
      if w.length ≤ 2 then conv (coef intCoeff 2 (.ofVec [2, 1, 4, 0, 0, 0, 0])) (coef intCoeff 2 (.ofVec [5])) w else 0 :=
  C33_multiply_returns_ring intCoeff .debug 2 intCoeff_isRing (by omega) (.ofVec [2, 1, 4, 0, 0, 0, 0]) (.ofVec [5]) _ 2 0 2
    ⟨by decide, by decide⟩ ⟨by decide, by decide⟩ (by decide) (by decide +kernel)

end

/-- The hypotheses of C33 are met by, and the conclusion computes, `(2 + e1) * (5 + e2) = 10 + 5 e1 + 2 e2 + e1 e2` over three letters. -/
example : ∃ r, (DenseAlg.ops intCoeff .debug 3).multiply (.ofVec [2, 1, 0, 0]) (.ofVec [5, 0, 1, 0]) (some 2) = .ok r ∧
    r.data = [10, 5, 2, 0, 0, 1, 0, 0, 0, 0, 0, 0, 0] ∧ FullTo 3 (.ofVec [2, 1, 0, (0 : Int)]) 1 ∧
    conv (coef intCoeff 3 (.ofVec [2, 1, 0, 0])) (coef intCoeff 3 (.ofVec [5, 0, 1, 0])) [1, 2] = 1 := by
  refine ⟨⟨.owned, [10, 5, 2, 0, 0, 1, 0, 0, 0, 0, 0, 0, 0], []⟩, by decide +kernel, rfl, ⟨by decide +kernel, by decide +kernel⟩, by decide +kernel⟩

/-! ## C34: memory safety of `multiply` -/

section
variable {S R : Type} (C : Coeff S R) (p : Profile) (N : Nat)

/-- C34, full statement: no product of dense tensors is undefined behaviour. -/
def C34_multiply_safe_full : Prop := ∀ a b D, (DenseAlg.ops C p N).multiply a b D ≠ .ub

/-- C34, exactly.  For operands of degrees `da`, `db` with representable dimensions, `multiply` accesses memory out of bounds precisely when the product
has degree 0, or an operand is cut short in a degree that is needed; otherwise it returns. -/
theorem C34_multiply_ub_iff (h2 : 2 ≤ N) (a b : Dense S) (da db D : Nat) (ha : HasDegree N a da) (hb : HasDegree N b db)
    (hp : N ^ (min D (da + db) + 1) < 2 ^ 64) :
    ((DenseAlg.ops C p N).multiply a b (some D) = .ub ↔
      ¬ (1 ≤ min D (da + db) ∧ OperandsFit N a b da db (min D (da + db)))) ∧
    ((∃ r, (DenseAlg.ops C p N).multiply a b (some D) = .ok r) ↔
      (1 ≤ min D (da + db) ∧ OperandsFit N a b da db (min D (da + db)))) := by
  by_cases h : 1 ≤ min D (da + db) ∧ OperandsFit N a b da db (min D (da + db))
  · obtain ⟨r, h1, _⟩ := C33_multiply C p N h2 a b da db D ha hb h.1 hp h.2
    exact ⟨⟨fun h' => (by cases h1.symm.trans h'), fun h' => absurd h h'⟩, ⟨fun _ => h, fun _ => ⟨r, h1⟩⟩⟩
  · have := mulAddInto_ub C p N h2 id Dense.new a b 0 da db D (Or.inl ⟨rfl, rfl⟩) ha.1 hb.1
      (pow_lt64_mono h2 (by omega) ha.2) ha.2 hb.2 hp (by
        rintro ⟨h5, h6, h7⟩
        refine h ⟨?_, h5, h6⟩
        rcases h7 with h7 | h7
        · exact h7.2
        · have := geomSum_pos (N := N) (d := min D (da + db) + 1) (by omega)
          simp [Dense.new] at h7
          omega)
    refine ⟨⟨fun _ => h, fun _ => this⟩, ⟨?_, fun h' => absurd h' h⟩⟩
    rintro ⟨r, hr⟩
    cases this.symm.trans hr

example : (DenseAlg.ops intCoeff .release 3).multiply (.ofVec [2, 1]) (.ofVec [5, 0, 1, 0]) (some 2) = .ub :=
  (C34_multiply_ub_iff intCoeff .release 3 (by omega) _ _ 1 1 2 ⟨by decide, by decide⟩ ⟨by decide, by decide⟩ (by decide)).1.mpr
    fun h => absurd h.2.1 (by decide)

/-- C34.  Multiplying two scalars (tensors of degree 0) writes out of bounds, for every pair of scalars. -/
theorem C34_scalar_product_ub (h2 : 2 ≤ N) (hN : N < 2 ^ 32) (x y : S) (D : Nat) :
    (DenseAlg.ops C p N).multiply (.ofVec [x]) (.ofVec [y]) (some D) = .ub := by
  have hp : N ^ (0 + 1) < 2 ^ 64 := by rw [Nat.zero_add, Nat.pow_one]; omega
  have hd : ∀ z : S, HasDegree N (.ofVec [z]) 0 := fun z => ⟨Or.inr ⟨by simp [Dense.size, geomSum], by simp [Dense.size, geomSum]⟩, hp⟩
  refine (C34_multiply_ub_iff C p N h2 _ _ 0 0 D (hd x) (hd y) (by simpa using hp)).1.2 ?_
  rintro ⟨h, _⟩
  omega

example : (DenseAlg.ops intCoeff .debug 3).multiply (.ofVec [2]) (.ofVec [3]) (some 5) = .ub :=
  C34_scalar_product_ub intCoeff .debug 3 (by omega) (by omega) 2 3 5

/-- C34.  Every product truncated to degree 0 writes out of bounds. -/
theorem C34_truncate_zero_ub (h2 : 2 ≤ N) (a b : Dense S) (da db : Nat) (ha : HasDegree N a da) (hb : HasDegree N b db) :
    (DenseAlg.ops C p N).multiply a b (some 0) = .ub := by
  refine (C34_multiply_ub_iff C p N h2 a b da db 0 ha hb ?_).1.2 ?_
  · rw [Nat.zero_min]
    exact pow_lt64_mono h2 (by omega) ha.2
  · rintro ⟨h, _⟩
    omega

example : (DenseAlg.ops intCoeff .debug 3).multiply (.ofVec [2, 1, 0, 0]) (.ofVec [5, 0, 1, 0]) (some 0) = .ub :=
  C34_truncate_zero_ub intCoeff .debug 3 (by omega) _ _ 1 1 ⟨by decide, by decide⟩ ⟨by decide, by decide⟩

/-- C34.  Every product with the zero tensor `new()` on either side accesses memory out of bounds. -/
theorem C34_empty_operand_ub (h2 : 2 ≤ N) (b : Dense S) (db D : Nat) (hb : HasDegree N b db) :
    (DenseAlg.ops C p N).multiply Dense.new b (some D) = .ub ∧ (DenseAlg.ops C p N).multiply b Dense.new (some D) = .ub := by
  have hz : HasDegree N (Dense.new : Dense S) 0 := ⟨Or.inl ⟨rfl, rfl⟩, pow_lt64_mono h2 (by omega) hb.2⟩
  have hg : ∀ m, 1 ≤ geomSum N (m + 1) := fun m => geomSum_pos (by omega)
  constructor
  · refine (C34_multiply_ub_iff C p N h2 _ b 0 db D hz hb (pow_lt64_mono h2 (by omega) hb.2)).1.2 ?_
    rintro ⟨_, h, _⟩
    have := hg (min (min D (0 + db)) 0)
    simp only [Dense.size, Dense.new, Dense.ofVec, List.length_nil] at h
    omega
  · refine (C34_multiply_ub_iff C p N h2 b _ db 0 D hb hz (pow_lt64_mono h2 (by omega) hb.2)).1.2 ?_
    rintro ⟨_, _, h⟩
    have := hg (min (min D (db + 0)) 0)
    simp only [Dense.size, Dense.new, Dense.ofVec, List.length_nil] at h
    omega

example : (DenseAlg.ops intCoeff .release 3).multiply Dense.new (.ofVec [5, 0, 1, 0]) (some 4) = .ub ∧
    (DenseAlg.ops intCoeff .release 3).multiply (.ofVec [5, 0, 1, 0]) Dense.new (some 4) = .ub :=
  C34_empty_operand_ub intCoeff .release 3 (by omega) _ 1 4 ⟨by decide, by decide⟩

/-- C34 is false for every alphabet, coefficient type and profile. -/
theorem C34_multiply_safe_refuted [Inhabited S] (h2 : 2 ≤ N) (hN : N < 2 ^ 32) : ¬ C34_multiply_safe_full C p N := fun h =>
  h _ _ _ (C34_scalar_product_ub C p N h2 hN default default 0)

example : ¬ C34_multiply_safe_full intCoeff .debug 5 := C34_multiply_safe_refuted intCoeff .debug 5 (by omega) (by omega)

/-- C34 for tensors that store every word up to their degree, with representable dimensions: `multiply` to degree at least one returns. -/
theorem C34_multiply_safe_partial (h2 : 2 ≤ N) (a b : Dense S) (da db D : Nat) (ha : FullTo N a da) (hb : FullTo N b db)
    (hM : 1 ≤ min D (da + db)) (hp : N ^ (min D (da + db) + 1) < 2 ^ 64) :
    ∃ r, (DenseAlg.ops C p N).multiply a b (some D) = .ok r := by
  refine (C34_multiply_ub_iff C p N h2 a b da db D (ha.hasDegree h2) (hb.hasDegree h2) hp).2.2 ⟨hM, ?_, ?_⟩
  · rw [ha.1]
    exact geomSum_mono (by omega)
  · rw [hb.1]
    exact geomSum_mono (by omega)

example : ∃ r, (DenseAlg.ops intCoeff .release 2).multiply (.ofVec [1, 2, 3, 4, 5, 6, 7]) (.ofVec [2, 1, 0]) (some 3) = .ok r :=
  C34_multiply_safe_partial intCoeff .release 2 (by omega) _ _ 2 1 3 ⟨rfl, by decide⟩ ⟨rfl, by decide⟩ (by decide) (by decide)

/-- C34.  Without a truncation degree `multiply` always panics. -/
theorem C34_multiply_no_degree (h2 : 2 ≤ N) (a b : Dense S) (da db : Nat) (ha : HasDegree N a da) (hb : HasDegree N b db) :
    (DenseAlg.ops C p N).multiply a b none = .panic := by
  show mulAddInto C p N _ a b id none = _
  unfold mulAddInto
  rw [degree_ok p N h2 a da ha.1 ha.2, degree_ok p N h2 b db hb.1 hb.2]
  rfl

example : (DenseAlg.ops intCoeff .release 2).multiply (.ofVec [1, 2, 3, 4, 5, 6, 7]) (.ofVec [2, 1, 0]) none = .panic :=
  C34_multiply_no_degree intCoeff .release 2 (by omega) _ _ 2 1 ⟨by decide, by decide⟩ ⟨by decide, by decide⟩

/-- C34, debug builds, no representability assumption: tensors storing all words up to their degrees (and fitting in memory) multiply to degree at least
one with a result or a panic, never out of bounds. -/
theorem C34_multiply_debug_partial (h2 : 2 ≤ N) (hN : N < 2 ^ 32) (a b : Dense S) (da db D : Nat) (ha : a.size = geomSum N (da + 1))
    (hb : b.size = geomSum N (db + 1)) (ha64 : a.size < 2 ^ 64) (hb64 : b.size < 2 ^ 64) (hM : 1 ≤ min D (da + db)) :
    (∃ r, (DenseAlg.ops C .debug N).multiply a b (some D) = .ok r) ∨ (DenseAlg.ops C .debug N).multiply a b (some D) = .panic := by
  by_cases hpa : N ^ (da + 1) < 2 ^ 64
  · by_cases hpb : N ^ (db + 1) < 2 ^ 64
    · by_cases hp : N ^ (min D (da + db) + 1) < 2 ^ 64
      · exact Or.inl (C34_multiply_safe_partial C .debug N h2 a b da db D ⟨ha, hpa⟩ ⟨hb, hpb⟩ hM hp)
      · right
        have b1 := deg_lt64 h2 hpa
        have b2 := deg_lt64 h2 hpb
        have hda := FullTo.hasDegree h2 ⟨ha, hpa⟩
        have hdb := FullTo.hasDegree h2 ⟨hb, hpb⟩
        show mulAddInto C .debug N Dense.new a b id (some D) = _
        unfold mulAddInto
        rw [degree_ok .debug N h2 a da hda.1 hpa, degree_ok .debug N h2 b db hdb.1 hpb]
        simp only [Res.bind_ok]
        rw [maxDeg_ok .debug D da db (by omega)]
        simp only [Res.bind_ok]
        unfold growTo
        rw [degree_ok .debug N h2 Dense.new 0 (Or.inl ⟨rfl, rfl⟩) (pow_lt64_mono h2 (by omega) hpa)]
        simp only [Res.bind_ok]
        rw [if_pos (by omega), addW_ok (by omega)]
        simp only [Res.bind_ok]
        rw [startOfDegree_debug_overflow N _ (by omega)]
        rfl
    · right
      show mulAddInto C .debug N Dense.new a b id (some D) = _
      unfold mulAddInto
      rw [degree_ok .debug N h2 a da (FullTo.hasDegree h2 ⟨ha, hpa⟩).1 hpa, degree_debug_overflow N h2 hN b db (by omega) (by
        rw [hb]; exact geomSum_strict (by omega) (by omega)) hb64]
      rfl
  · right
    show mulAddInto C .debug N Dense.new a b id (some D) = _
    unfold mulAddInto
    rw [degree_debug_overflow N h2 hN a da (by omega) (by rw [ha]; exact geomSum_strict (by omega) (by omega)) ha64]
    rfl

example : (∃ r, (DenseAlg.ops intCoeff .debug 2).multiply (.ofVec [1, 2, 3, 4, 5, 6, 7]) (.ofVec [2, 1, 0]) (some 100) = .ok r) ∨
    (DenseAlg.ops intCoeff .debug 2).multiply (.ofVec [1, 2, 3, 4, 5, 6, 7]) (.ofVec [2, 1, 0]) (some 100) = .panic :=
  C34_multiply_debug_partial intCoeff 2 (by omega) (by omega) _ _ 2 1 100 rfl rfl (by decide) (by decide) (by decide)

end

/-- Concrete products: two scalars, a ragged operand, and a legal product. -/
example : (DenseAlg.ops intCoeff .debug 3).multiply (.ofVec [2]) (.ofVec [3]) (some 5) = .ub ∧
    (DenseAlg.ops intCoeff .release 3).multiply (.ofVec [2, 1]) (.ofVec [5, 0, 1, 0]) (some 2) = .ub ∧
    (DenseAlg.ops intCoeff .release 3).multiply (.ofVec [2, 1, 4, 6]) (.ofVec [5]) (some 2) = .ok (.ofVec [10, 5, 20, 30]) := by
  refine ⟨?_, ?_, ?_⟩ <;> decide +kernel

end RA
