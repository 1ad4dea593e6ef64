import Verif.Props.Expr
import Verif.Props.Keys

/-!
# Products of words (C54), truncation (C55), grading (C56), renaming of letters (C57)
-/

namespace RA
open Spec TensorKey TensorBasis DenseAlg

/-! ## C54: products of words -/

/-- The product of two multiples of words is the multiple of the concatenated word. -/
theorem conv_words {S : Type} [CommRing S] (u v w : List Nat) (s t : S) :
    conv (fun x => if x = u then s else 0) (fun x => if x = v then t else 0) w = if w = u ++ v then s * t else 0 := by
  induction w generalizing u with
  | nil => cases u <;> cases v <;> simp [conv]
  | cons l w ih =>
    rw [conv]
    cases u with
    | nil =>
      have : (fun x : List Nat => if l :: x = [] then s else 0) = fun _ => 0 := by funext x; simp
      rw [this, conv_zero_left]
      simp
    | cons l' u =>
      by_cases h : l = l'
      · subst h
        have : (fun x : List Nat => if l :: x = l :: u then s else 0) = fun x => if x = u then s else 0 := by funext x; simp
        rw [this, ih]
        simp
      · have : (fun x : List Nat => if l :: x = l' :: u then s else 0) = fun _ => 0 := by funext x; simp [h]
        rw [this, conv_zero_left]
        simp [h]

section
variable {S R : Type} (C : Coeff S R) (p : Profile) (N : Nat)

/-- C54.  The product of `s` times the word `u` and `t` times the word `v` is, entry for entry, the vector the crate makes for `s * t` times the key
`concatenate(u, v)`. -/
theorem C54_word_product [CommRing S] (hC : C.IsRing) (h2 : 2 ≤ N) (hN : N < 2 ^ 31) (u v : List Nat) (hu : ValidWord N u) (hv : ValidWord N v)
    (h1 : 1 ≤ u.length + v.length) (hl : u.length + v.length ≤ maxDepth N) (hp : N ^ (u.length + v.length + 1) < 2 ^ 64)
    (D : Nat) (hD : u.length + v.length ≤ D) (s t : S) (ku kv : TensorKey) (hku : fromLetters p N u = .ok ku) (hkv : fromLetters p N v = .ok kv) :
    ∃ a b k r c, (DenseAlg.ops C p N).fromKeyScalar ku s = .ok a ∧ (DenseAlg.ops C p N).fromKeyScalar kv t = .ok b ∧
      concatenate p N ku kv = .ok k ∧ (DenseAlg.ops C p N).multiply a b (some D) = .ok r ∧
      (DenseAlg.ops C p N).fromKeyScalar k (s * t) = .ok c ∧ r.data = c.data := by
  obtain ⟨k, hk, hk', _⟩ := C05_concatenate p N (by omega) (by omega) u v hu hv (by simpa using hl) (Or.inl hN) ku kv hku hkv
  obtain ⟨a, a1, a2, a3⟩ := fromKeyScalar_word C p N h2 (by omega) u hu (by omega) (pow_lt64_mono h2 (by omega) hp) s
  obtain ⟨b, b1, b2, b3⟩ := fromKeyScalar_word C p N h2 (by omega) v hv (by omega) (pow_lt64_mono h2 (by omega) hp) t
  obtain ⟨c, c1, c2, c3⟩ := fromKeyScalar_word C p N h2 (by omega) (u ++ v) (ValidWord.append.2 ⟨hu, hv⟩) (by simpa using hl) (by simpa using hp) (s * t)
  rw [hku, Res.bind_ok] at a1
  rw [hkv, Res.bind_ok] at b1
  rw [hk', Res.bind_ok] at c1
  have hmin : min D (u.length + v.length) = u.length + v.length := Nat.min_eq_right hD
  obtain ⟨r, r1, r2, r3⟩ := C33_multiply_ring C p N hC h2 a b _ _ D a2 b2 (by omega) (by rw [hmin]; exact hp)
  refine ⟨a, b, k, r, c, a1, b1, hk, r1, c1, data_ext_coef C (N := N) (by omega) ?_ fun w hw => ?_⟩
  · rw [r2.1, c2.1, hmin, List.length_append]
  · rw [r3 w hw, c3 w hw, conv_congr_valid N w hw (fun x hx _ => a3 x hx) (fun x hx _ => b3 x hx), hC.zero, conv_words]
    by_cases hw' : w = u ++ v
    · subst hw'
      simp [hD]
    · simp [hw']

example : ∃ a b k r c, (DenseAlg.ops intCoeff .debug 3).fromKeyScalar (keyOf 3 [2]) 5 = .ok a ∧ (DenseAlg.ops intCoeff .debug 3).fromKeyScalar (keyOf 3 [3, 1]) 7 = .ok b ∧
    concatenate .debug 3 (keyOf 3 [2]) (keyOf 3 [3, 1]) = .ok k ∧ (DenseAlg.ops intCoeff .debug 3).multiply a b (some 4) = .ok r ∧
    (DenseAlg.ops intCoeff .debug 3).fromKeyScalar k (5 * 7) = .ok c ∧ r.data = c.data :=
  C54_word_product intCoeff .debug 3 intCoeff_isRing (by omega) (by omega) [2] [3, 1] (by decide) (by decide) (by decide) (by decide +kernel) (by decide)
    4 (by decide) 5 7 _ _ (fromLetters_ok _ _ (by omega) (by omega) _ (by decide) (by decide +kernel))
    (fromLetters_ok _ _ (by omega) (by omega) _ (by decide) (by decide +kernel))

/-- C54.  Below the length of the concatenated word the product is truncated to zero. -/
theorem C54_word_product_truncated [CommRing S] (hC : C.IsRing) (h2 : 2 ≤ N) (hN : N < 2 ^ 32) (u v : List Nat) (hu : ValidWord N u) (hv : ValidWord N v)
    (hlu : u.length ≤ maxDepth N) (hlv : v.length ≤ maxDepth N) (hpu : N ^ (u.length + 1) < 2 ^ 64) (hpv : N ^ (v.length + 1) < 2 ^ 64)
    (D : Nat) (hD1 : 1 ≤ D) (hD : D < u.length + v.length) (hp : N ^ (D + 1) < 2 ^ 64) (s t : S) (ku kv : TensorKey)
    (hku : fromLetters p N u = .ok ku) (hkv : fromLetters p N v = .ok kv) :
    ∃ a b r, (DenseAlg.ops C p N).fromKeyScalar ku s = .ok a ∧ (DenseAlg.ops C p N).fromKeyScalar kv t = .ok b ∧
      (DenseAlg.ops C p N).multiply a b (some D) = .ok r ∧ r.data = List.replicate (geomSum N (D + 1)) 0 := by
  obtain ⟨a, a1, a2, a3⟩ := fromKeyScalar_word C p N h2 hN u hu hlu hpu s
  obtain ⟨b, b1, b2, b3⟩ := fromKeyScalar_word C p N h2 hN v hv hlv hpv t
  rw [hku, Res.bind_ok] at a1
  rw [hkv, Res.bind_ok] at b1
  have hmin : min D (u.length + v.length) = D := by omega
  obtain ⟨r, r1, r2, r3⟩ := C33_multiply_ring C p N hC h2 a b _ _ D a2 b2 (by omega) (by rw [hmin]; exact hp)
  rw [hmin] at r2
  have e : r.data = (Dense.ofVec (List.replicate (geomSum N (D + 1)) (0 : S))).data := by
    refine data_ext_coef C (N := N) (by omega) (by rw [r2.1]; simp [Dense.size]) fun w hw => ?_
    rw [r3 w hw, conv_congr_valid N w hw (fun x hx _ => a3 x hx) (fun x hx _ => b3 x hx), hC.zero, conv_words]
    have : coef C N (Dense.ofVec (List.replicate (geomSum N (D + 1)) (0 : S))) w = 0 := by
      unfold coef stored
      rw [Dense.ofVec_data, List.getElem?_replicate, hC.zero]
      split_ifs <;> rfl
    rw [this]
    by_cases hw' : w = u ++ v
    · subst hw'
      rw [if_neg (by simp; omega)]
    · simp [hw']
  exact ⟨a, b, r, a1, b1, r1, e⟩

example : ∃ a b r, (DenseAlg.ops intCoeff .debug 3).fromKeyScalar (keyOf 3 [2]) 5 = .ok a ∧ (DenseAlg.ops intCoeff .debug 3).fromKeyScalar (keyOf 3 [3, 1]) 7 = .ok b ∧
    (DenseAlg.ops intCoeff .debug 3).multiply a b (some 2) = .ok r ∧ r.data = List.replicate 13 0 :=
  C54_word_product_truncated intCoeff .debug 3 intCoeff_isRing (by omega) (by omega) [2] [3, 1] (by decide) (by decide) (by decide +kernel)
    (by decide +kernel) (by decide) (by decide) 2 (by decide) (by decide) (by decide) 5 7 _ _ (fromLetters_ok _ _ (by omega) (by omega) _ (by decide) (by decide +kernel))
    (fromLetters_ok _ _ (by omega) (by omega) _ (by decide) (by decide +kernel))

/-! ## C55: truncation only cuts off -/

/-- C55.  Lowering the truncation degree only cuts the product off: the product truncated at `D` is a prefix of the product truncated at `D'`, bit for bit
(no law on the coefficients is used), and it returns whenever the longer one does. -/
theorem C55_truncation (h2 : 2 ≤ N) (a b r' : Dense S) (da db D D' : Nat) (ha : HasDegree N a da) (hb : HasDegree N b db)
    (hD : 1 ≤ D) (hDD : D ≤ D') (hp : N ^ (min D' (da + db) + 1) < 2 ^ 64) (hr' : (DenseAlg.ops C p N).multiply a b (some D') = .ok r') :
    ∃ r, (DenseAlg.ops C p N).multiply a b (some D) = .ok r ∧ r.data = r'.data.take (geomSum N (D + 1)) := by
  have hfit := (C34_multiply_ub_iff C p N h2 a b da db D' ha hb hp).2.mp ⟨r', hr'⟩
  have hp' : N ^ (min D (da + db) + 1) < 2 ^ 64 := pow_lt64_mono h2 (by omega) hp
  obtain ⟨f', g'⟩ := C33_multiply_returns C p N h2 a b r' da db D' ha hb hp hr'
  obtain ⟨r, h1, f, g⟩ := C33_multiply C p N h2 a b da db D ha hb (by omega) hp'
    ⟨(geomSum_mono (by omega)).trans hfit.2.1, (geomSum_mono (by omega)).trans hfit.2.2⟩
  refine ⟨r, h1, ?_⟩
  have e : r.data = (Dense.ofVec (r'.data.take (geomSum N (D + 1)))).data := data_ext (N := N) (by omega) fun w hw => by
    rw [g w hw]
    unfold stored at g' ⊢
    rw [Dense.ofVec_data, List.getElem?_take, g' w hw]
    have hb' := wordIndex_bounds hw
    by_cases hl : w.length ≤ D
    · have := geomSum_mono (N := N) (a := w.length + 1) (b := D + 1) (by omega)
      rw [if_pos (show wordIndex N w < geomSum N (D + 1) by omega)]
      by_cases hl' : w.length ≤ da + db
      · rw [if_pos (by omega), if_pos (by omega)]
      · rw [if_neg (by omega), if_neg (by omega)]
    · have := geomSum_mono (N := N) (a := D + 1) (b := w.length) (by omega)
      rw [if_neg (by omega), if_neg (by omega)]
  exact e

example : ∃ r, (DenseAlg.ops intCoeff .debug 3).multiply (.ofVec [2, 1, 0, 0]) (.ofVec [5, 0, 1, 0]) (some 1) = .ok r ∧
    r.data = List.take (geomSum 3 2) [10, 5, 2, 0, 0, 1, 0, 0, 0, 0, 0, 0, 0] :=
  C55_truncation intCoeff .debug 3 (by omega) (.ofVec [2, 1, 0, 0]) (.ofVec [5, 0, 1, 0]) (.ofVec [10, 5, 2, 0, 0, 1, 0, 0, 0, 0, 0, 0, 0]) 1 1 1 2
    ⟨by decide, by decide⟩ ⟨by decide, by decide⟩ (by decide) (by decide) (by decide) (by decide +kernel)

/-- C55.  Coefficients of the operands beyond the truncation degree do not matter: operands that agree up to degree `D` have the same product. -/
theorem C55_truncation_operands (h2 : 2 ≤ N) (a b a' b' : Dense S) (da db da' db' D : Nat) (ha : FullTo N a da) (hb : FullTo N b db)
    (ha' : FullTo N a' da') (hb' : FullTo N b' db') (hD : 1 ≤ D) (hda : D ≤ da) (hdb : D ≤ db) (hda' : D ≤ da') (hdb' : D ≤ db')
    (hta : a.data.take (geomSum N (D + 1)) = a'.data.take (geomSum N (D + 1)))
    (htb : b.data.take (geomSum N (D + 1)) = b'.data.take (geomSum N (D + 1))) :
    ∃ r r', (DenseAlg.ops C p N).multiply a b (some D) = .ok r ∧ (DenseAlg.ops C p N).multiply a' b' (some D) = .ok r' ∧ r.data = r'.data := by
  have hp : N ^ (D + 1) < 2 ^ 64 := pow_lt64_mono h2 (by omega) ha.2
  obtain ⟨r, h1, f, g⟩ := C33_multiply C p N h2 a b da db D (ha.hasDegree h2) (hb.hasDegree h2) (by omega) (pow_lt64_mono h2 (by omega) hp)
    ⟨by rw [ha.1]; exact geomSum_mono (by omega), by rw [hb.1]; exact geomSum_mono (by omega)⟩
  obtain ⟨r', h1', f', g'⟩ := C33_multiply C p N h2 a' b' da' db' D (ha'.hasDegree h2) (hb'.hasDegree h2) (by omega) (pow_lt64_mono h2 (by omega) hp)
    ⟨by rw [ha'.1]; exact geomSum_mono (by omega), by rw [hb'.1]; exact geomSum_mono (by omega)⟩
  refine ⟨r, r', h1, h1', data_ext (N := N) (by omega) fun w hw => ?_⟩
  have agree : ∀ x y : Dense S, x.data.take (geomSum N (D + 1)) = y.data.take (geomSum N (D + 1)) → ∀ u, ValidWord N u → u.length ≤ D →
      stored N x u = stored N y u := by
    intro x y h u hu hl
    have h3 := (wordIndex_bounds hu).2
    have h4 := geomSum_mono (N := N) (a := u.length + 1) (b := D + 1) (by omega)
    have h5 := congrArg (fun l => l[wordIndex N u]?) h
    simp only [List.getElem?_take] at h5
    rw [if_pos (by omega), if_pos (by omega)] at h5
    exact h5
  rw [g w hw, g' w hw]
  by_cases hl : w.length ≤ D
  · rw [if_pos (by omega), if_pos (by omega)]
    congr 2
    unfold splitProducts
    apply List.filterMap_congr
    rintro ⟨u, v⟩ huv
    have huv := (splits_spec w u v).mp huv
    subst huv
    have hw2 := ValidWord.append.1 hw
    rw [List.length_append] at hl
    rw [agree a a' hta u hw2.1 (by omega), agree b b' htb v hw2.2 (by omega)]
  · rw [if_neg (by omega), if_neg (by omega)]

example := C55_truncation_operands intCoeff .debug 2 (by omega) (.ofVec [1, 2, 3]) (.ofVec [4, 5, 6]) (.ofVec [1, 2, 3, 9, 9, 9, 9])
  (.ofVec [4, 5, 6]) 1 1 2 1 1 ⟨by decide, by decide⟩ ⟨by decide, by decide⟩ ⟨by decide, by decide⟩ ⟨by decide, by decide⟩ (by decide) (by decide)
  (by decide) (by decide) (by decide) (by decide) (by decide)

/-! ## C56: the product is graded -/

/-- C56.  A product has no terms below the sum of the lowest degrees, and none above the sum of the highest degrees, of its factors. -/
theorem C56_grading [CommRing S] (hC : C.IsRing) (h2 : 2 ≤ N) (a b r : Dense S) (da db D : Nat) (ha : FullTo N a da) (hb : FullTo N b db)
    (hp : N ^ (min D (da + db) + 1) < 2 ^ 64) (hr : (DenseAlg.ops C p N).multiply a b (some D) = .ok r) (la ua lb ub : Nat)
    (hla : ∀ w, ValidWord N w → w.length < la ∨ ua < w.length → coef C N a w = 0)
    (hlb : ∀ w, ValidWord N w → w.length < lb ∨ ub < w.length → coef C N b w = 0) (w : List Nat) (hw : ValidWord N w)
    (h : w.length < la + lb ∨ ua + ub < w.length) : coef C N r w = 0 := by
  have hret := (C34_multiply_ub_iff C p N h2 a b da db D (ha.hasDegree h2) (hb.hasDegree h2) hp).2.mp ⟨r, hr⟩
  obtain ⟨r', h1, _, h3⟩ := C33_multiply_ring C p N hC h2 a b da db D ha hb hret.1 hp
  cases h1.symm.trans hr
  rw [h3 w hw]
  split_ifs with hl
  · rw [conv_eq_sum]
    apply List.sum_eq_zero
    intro x hx
    rw [List.mem_map] at hx
    obtain ⟨k, hk, rfl⟩ := hx
    rw [List.mem_range] at hk
    by_cases hc : k < la ∨ ua < k
    · rw [hla _ (validWord_take hw k) (by simp; omega), zero_mul]
    · rw [hlb _ (validWord_drop hw k) (by simp; omega), mul_zero]
  · rfl

/-- Two homogeneous elements of degree 1 over two letters. -/
example : coef intCoeff 2 (.ofVec [0, 0, 0, 3, 4, 6, 8]) [1] = 0 :=
  C56_grading intCoeff .debug 2 intCoeff_isRing (by omega) (.ofVec [0, 1, 2]) (.ofVec [0, 3, 4]) (.ofVec [0, 0, 0, 3, 4, 6, 8]) 1 1 3
    ⟨by decide, by decide⟩ ⟨by decide, by decide⟩ (by decide) (by decide +kernel) 1 1 1 1
    (by
      intro w hw h
      rcases h with h | h
      · have : w = [] := List.length_eq_zero_iff.mp (by omega)
        subst this
        rfl
      · exact coef_zero_of_length intCoeff 2 intCoeff_isRing (da := 1) ⟨.inr ⟨by decide, by decide⟩, by decide⟩ w hw h)
    (by
      intro w hw h
      rcases h with h | h
      · have : w = [] := List.length_eq_zero_iff.mp (by omega)
        subst this
        rfl
      · exact coef_zero_of_length intCoeff 2 intCoeff_isRing (da := 1) ⟨.inr ⟨by decide, by decide⟩, by decide⟩ w hw h)
    [1] (by decide) (by decide)

/-! ## C57: no letter is special -/

theorem splits_map (σ : Nat → Nat) (w : List Nat) : splits (w.map σ) = (splits w).map fun uv => (uv.1.map σ, uv.2.map σ) := by
  unfold splits
  rw [List.map_map, List.length_map]
  apply List.map_congr_left
  intro k _
  simp [List.map_take, List.map_drop]

/-- C57.  Renaming the letters: if `a'` and `b'` are `a` and `b` with every letter `l` renamed to `σ l`, then the product of `a'` and `b'` is the product of
`a` and `b` with the letters renamed, bit for bit. -/
theorem C57_renaming (h2 : 2 ≤ N) (σ : Nat → Nat) (hσ : ∀ l, 1 ≤ l → l ≤ N → 1 ≤ σ l ∧ σ l ≤ N) (a b a' b' : Dense S) (da db D : Nat)
    (ha : FullTo N a da) (hb : FullTo N b db) (ha' : FullTo N a' da) (hb' : FullTo N b' db)
    (hM : 1 ≤ min D (da + db)) (hp : N ^ (min D (da + db) + 1) < 2 ^ 64)
    (hsa : ∀ w, ValidWord N w → stored N a' (w.map σ) = stored N a w) (hsb : ∀ w, ValidWord N w → stored N b' (w.map σ) = stored N b w) :
    ∃ r r', (DenseAlg.ops C p N).multiply a b (some D) = .ok r ∧ (DenseAlg.ops C p N).multiply a' b' (some D) = .ok r' ∧
      ∀ w, ValidWord N w → stored N r' (w.map σ) = stored N r w := by
  obtain ⟨r, h1, _, g⟩ := C33_multiply C p N h2 a b da db D (ha.hasDegree h2) (hb.hasDegree h2) hM hp
    ⟨by rw [ha.1]; exact geomSum_mono (by omega), by rw [hb.1]; exact geomSum_mono (by omega)⟩
  obtain ⟨r', h1', _, g'⟩ := C33_multiply C p N h2 a' b' da db D (ha'.hasDegree h2) (hb'.hasDegree h2) hM hp
    ⟨by rw [ha'.1]; exact geomSum_mono (by omega), by rw [hb'.1]; exact geomSum_mono (by omega)⟩
  refine ⟨r, r', h1, h1', fun w hw => ?_⟩
  have hw' : ValidWord N (w.map σ) := by
    intro x hx
    rw [List.mem_map] at hx
    obtain ⟨l, hl, rfl⟩ := hx
    exact hσ l (hw l hl).1 (hw l hl).2
  rw [g w hw, g' _ hw', List.length_map]
  congr 2
  unfold splitProducts
  rw [splits_map, List.filterMap_map]
  congr 1
  apply List.filterMap_congr
  rintro ⟨u, v⟩ huv
  have huv := (splits_spec w u v).mp huv
  subst huv
  have hw2 := ValidWord.append.1 hw
  simp only [Function.comp]
  rw [hsa u hw2.1, hsb v hw2.2]

/-- Swapping the two letters. -/
example : ∃ r r', (DenseAlg.ops intCoeff .debug 2).multiply (.ofVec [1, 2, 3]) (.ofVec [4, 5, 6]) (some 2) = .ok r ∧
    (DenseAlg.ops intCoeff .debug 2).multiply (.ofVec [1, 3, 2]) (.ofVec [4, 6, 5]) (some 2) = .ok r' ∧
    ∀ w, ValidWord 2 w → stored 2 r' (w.map (3 - ·)) = stored 2 r w := by
  have key : ∀ x y z : Int, ∀ w, ValidWord 2 w → stored 2 (.ofVec [x, z, y]) (w.map (3 - ·)) = stored 2 (.ofVec [x, y, z]) w := by
    intro x y z w hw
    match w with
    | [] => rfl
    | [l] =>
      have hl := hw l (by simp)
      have : l = 1 ∨ l = 2 := by omega
      rcases this with rfl | rfl <;> rfl
    | l :: m :: w =>
      have hw' : ValidWord 2 ((l :: m :: w).map (3 - ·)) := by
        intro x hx
        rw [List.mem_map] at hx
        obtain ⟨l', hl', rfl⟩ := hx
        have := hw l' hl'
        omega
      have h1 := (wordIndex_bounds hw).1
      have h2 := (wordIndex_bounds hw').1
      have h3 := geomSum_mono (N := 2) (a := 2) (b := (l :: m :: w).length) (by simp)
      rw [List.length_map] at h2
      rw [show geomSum 2 2 = 3 by decide] at h3
      unfold stored
      rw [Dense.ofVec_data, Dense.ofVec_data, List.getElem?_eq_none (by simp only [List.length_cons, List.length_nil] at *; omega),
        List.getElem?_eq_none (by simp only [List.length_cons, List.length_nil] at *; omega)]
  exact C57_renaming intCoeff .debug 2 (by omega) (3 - ·) (by omega) (.ofVec [1, 2, 3]) (.ofVec [4, 5, 6]) (.ofVec [1, 3, 2]) (.ofVec [4, 6, 5]) 1 1 2
    ⟨by decide, by decide⟩ ⟨by decide, by decide⟩ ⟨by decide, by decide⟩ ⟨by decide, by decide⟩ (by decide) (by decide) (key 1 2 3) (key 4 5 6)

end

end RA
