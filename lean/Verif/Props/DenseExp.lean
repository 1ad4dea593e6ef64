import Verif.Props.FreeTensor
import Verif.Props.InplaceRelease

/-!
# `exp`, `fmexp` and `log` of dense tensors (C106)

`FreeTensor` has no implementation in the crate.  Here its provided methods are run on the only algebra of tensors the crate has, dense vectors over
`TensorBasis<N>`, for every `MAX_DEGREE`.
-/

namespace RA
open Spec TensorKey TensorBasis DenseAlg

section
variable {S R : Type} (C : Coeff S R) (p : Profile) (N : Nat)

/-- C106, full statement: `exp`, `fmexp` and `log` of a tensor without constant term and of degree at most `MAX_DEGREE` return. -/
def C106_series_full : Prop :=
  ∀ m dx (x v : Dense S), 1 ≤ dx → dx ≤ m → FullTo N x dx → coef C N x [] = C.zero → FullTo N v m →
    (∃ r, FreeTensor.exp C (DenseAlg.ops C p N) m x = .ok r) ∧ (∃ r, FreeTensor.fmexp p C (DenseAlg.ops C p N) m v x = .ok r) ∧
    ∃ r, FreeTensor.log C (DenseAlg.ops C p N) m x = .ok r

theorem dense_unit (h2 : 2 ≤ N) (hN : N < 2 ^ 32) : (DenseAlg.ops C p N).fromKey TensorKey.new = .ok (Dense.ofVec [C.one]) := by
  have hN1 : N ^ (0 + 1) < 2 ^ 64 := by rw [Nat.zero_add, Nat.pow_one]; omega
  have hdim : (tensorBasis p N).dimForKey TensorKey.new = .ok 1 := by
    show vectorDimensionForKey p N TensorKey.new = _
    unfold vectorDimensionForKey
    rw [show degree TensorKey.new = 0 from rfl, addW_ok (by omega), Res.bind_ok, startOfDegree_ok p N h2 _ hN1]
    rfl
  exact Dense.fromKeyScalar_ok C _ hdim (show (tensorBasis p N).keyToIndex TensorKey.new = .ok 0 from rfl) (by omega) C.one

variable {N} in
theorem scalar_hasDegree (hN : N < 2 ^ 32) {v : Dense S} (hv : v.size ≤ 1) : HasDegree N v 0 := by
  refine ⟨?_, by rw [Nat.zero_add, Nat.pow_one]; omega⟩
  rcases Nat.eq_zero_or_pos v.size with h | h
  · exact .inl ⟨h, rfl⟩
  · exact .inr ⟨by rw [show geomSum N 0 = 0 from rfl]; exact h, by rw [DenseAlg.geomSum_one N]; exact hv⟩

/-- In-place products of numbers leave `self` as it is. -/
theorem mulInto_scalars (h2 : 2 ≤ N) (hN : N < 2 ^ 32) (f : S → S) (a b : Dense S) (ha : a.size ≤ 1) (hb : b.size ≤ 1) (D : Nat) :
    (DenseAlg.ops C p N).mulInto a b f (some D) = .ok a := by
  have hda := scalar_hasDegree hN ha
  have hdb := scalar_hasDegree hN hb
  have hg : growTo C p N a (min D (0 + 0)) = .ok a := by
    unfold growTo
    rw [degree_ok p N h2 a 0 hda.1 hda.2]
    simp only [Res.bind_ok]
    rw [if_neg (by omega)]
    rfl
  show mulInto C p N a b f (some D) = _
  rw [mulInto_eq C p N h2 f a b a 0 0 D hda.1 hdb.1 hda.2 hdb.2 hg, show min D (0 + 0) = 0 by omega]
  rfl

/-- Adding a number to a number. -/
theorem addInplace_scalar (a b : Dense S) (x y : S) (ha : a.data = [x]) (hb : b.data = [y]) :
    ∃ r, (DenseAlg.ops C p N).addInplace a b = .ok r ∧ r.data = [C.add x y] := by
  obtain ⟨r, hr, hd⟩ := Dense.addInplace_data C a b
  refine ⟨r, hr, ?_⟩
  rw [hd, ha, hb]
  rfl

/-! ## `exp` -/

/-- C106.  `exp` with `MAX_DEGREE ≤ 1` is the unit tensor whatever its argument. -/
theorem C106_exp_low_partial (h2 : 2 ≤ N) (hN : N < 2 ^ 32) (m : Nat) (hm : m ≤ 1) (x : Dense S) :
    FreeTensor.exp C (DenseAlg.ops C p N) m x = .ok (.ofVec [C.one]) := by
  unfold FreeTensor.exp
  rw [dense_unit C p N h2 hN, show m - 1 = 0 by omega]
  rfl

example : FreeTensor.exp intCoeff (DenseAlg.ops intCoeff .debug 2) 1 (.ofVec [0, 1, 1]) = .ok (.ofVec [1]) :=
  C106_exp_low_partial intCoeff .debug 2 (by omega) (by omega) 1 (by omega) _

theorem iterate_foldlM {V : Type} (g : V → Nat → Res V) (P : Nat → V → Prop) (hg : ∀ k v i, P k v → ∃ r, g v i = .ok r ∧ P (k + 1) r)
    (L : List Nat) (k : Nat) (v : V) (hv : P k v) : ∃ r, L.foldlM g v = .ok r ∧ P (k + L.length) r := by
  induction L generalizing k v with
  | nil => exact ⟨v, rfl, hv⟩
  | cons i L ih =>
    obtain ⟨r, h1, h2⟩ := hg k v i hv
    obtain ⟨r', h3, h4⟩ := ih (k + 1) r h2
    refine ⟨r', ?_, by rw [List.length_cons, show k + (L.length + 1) = k + 1 + L.length by omega]; exact h4⟩
    rw [List.foldlM_cons, h1, Res.bind_ok, h3]

/-- C106.  `exp` of a number (or of the zero tensor): the unit, added to itself `MAX_DEGREE - 1` times, whatever the number. -/
theorem C106_exp_scalar_partial (h2 : 2 ≤ N) (hN : N < 2 ^ 32) (m : Nat) (x : Dense S) (hx : x.size ≤ 1) :
    ∃ r, FreeTensor.exp C (DenseAlg.ops C p N) m x = .ok r ∧ r.data = [(fun z => C.add z C.one)^[m - 1] C.one] := by
  unfold FreeTensor.exp
  rw [dense_unit C p N h2 hN]
  simp only [Res.bind_ok]
  obtain ⟨r, h1, h3⟩ := iterate_foldlM (FreeTensor.expStep C (DenseAlg.ops C p N) m x (Dense.ofVec [C.one]))
    (fun k r => r.data = [(fun z => C.add z C.one)^[k] C.one]) (by
      intro k v i hv
      unfold FreeTensor.expStep
      rw [show (DenseAlg.ops C p N).mulRatRdiv C v x (C.fromDegree i) (some m) = .ok v from
        mulInto_scalars C p N h2 hN _ v x (by unfold Dense.size; rw [hv]; exact Nat.le_refl 1) hx m, Res.bind_ok]
      obtain ⟨r, hr, hd⟩ := addInplace_scalar C p N v (Dense.ofVec [C.one]) _ C.one hv rfl
      refine ⟨r, hr, ?_⟩
      rw [hd, Function.iterate_succ_apply']) (List.range' 1 (m - 1)).reverse 0 (Dense.ofVec [C.one]) rfl
  refine ⟨r, h1, ?_⟩
  rw [h3, List.length_reverse, List.length_range', Nat.zero_add]

example : ∃ r, FreeTensor.exp intCoeff (DenseAlg.ops intCoeff .debug 2) 4 (.ofVec [7]) = .ok r ∧ r.data = [4] :=
  C106_exp_scalar_partial intCoeff .debug 2 (by omega) (by omega) 4 _ (by decide)

/-- The first in-place product of `exp`. -/
theorem exp_first (m : Nat) (hm : 2 ≤ m) (h2 : 2 ≤ N) (hN : N < 2 ^ 32) (x : Dense S) (o : Res (Dense S)) (ho : o = .panic ∨ o = .ub)
    (h : ∀ f, (DenseAlg.ops C p N).mulInto (.ofVec [C.one]) x f (some m) = o) :
    FreeTensor.exp C (DenseAlg.ops C p N) m x = o := by
  unfold FreeTensor.exp
  rw [dense_unit C p N h2 hN]
  simp only [Res.bind_ok]
  rw [range'_reverse_head _ (by omega), List.foldlM_cons]
  unfold FreeTensor.expStep
  rw [show (DenseAlg.ops C p N).mulRatRdiv C (Dense.ofVec [C.one]) x _ (some m) = o from h _]
  rcases ho with rfl | rfl <;> rfl

/-- C106, debug builds: `exp` of a tensor of degree at least 1 never returns once `MAX_DEGREE ≥ 2`.  It accesses memory out of bounds for constant
terms 0 and 1 and degrees up to `MAX_DEGREE`, and panics otherwise. -/
theorem C106_exp_debug (h2 : 2 ≤ N) (hN : N < 2 ^ 32) (m dx : Nat) (hm : 2 ≤ m) (hd : 1 ≤ dx) (x : Dense S) (hx : FullTo N x dx)
    (c : S) (rest : List S) (hc : x.data = c :: rest) :
    FreeTensor.exp C (DenseAlg.ops C .debug N) m x = if dx ≤ m ∧ (C.eq c C.zero = true ∨ C.eq c C.one = true) then .ub else .panic := by
  have hf : FullTo N (Dense.ofVec [C.one]) 0 := ⟨rfl, by rw [Nat.zero_add, Nat.pow_one]; omega⟩
  split_ifs with h
  · exact C39_dense_exp_ub C .debug N h2 hN m dx x hx hd h.1 hm c rest hc h.2
  · refine exp_first C .debug N m hm h2 hN x _ (.inl rfl) fun f => ?_
    rcases Nat.lt_or_ge m dx with hlt | hge
    · exact C37_inplace_debug_panic C N h2 f _ x 0 dx m hf hx (by omega) (by omega) (pow_lt64_mono h2 (by omega) hx.2)
    · have hM : min m (0 + dx) = dx := by omega
      have hz : C.eq c C.zero = false := by by_contra hh; exact h ⟨hge, .inl (by simpa using hh)⟩
      have h1 : C.eq c C.one = false := by by_contra hh; exact h ⟨hge, .inr (by simpa using hh)⟩
      have ho : offsetAssign C x = (0, true) := by
        unfold offsetAssign
        rw [hc]
        simp [hz, h1]
      have hxl : x.data.length = geomSum N (dx + 1) := hx.1
      obtain ⟨s, g1, _⟩ := growTo_ok C .debug N h2 (Dense.ofVec [C.one]) 0 dx (hf.hasDegree h2).1 hf.2 hx.2 (target_of_full hf hd)
      obtain ⟨gl, _⟩ := growTo_idx C .debug N h2 _ s 0 _ hf hd hx.2 g1
      show mulInto C .debug N _ x f (some m) = _
      rw [mulInto_eq C .debug N h2 f _ x s 0 dx m (hf.hasDegree h2).1 (hx.hasDegree h2).1 hf.2 hx.2 (by rw [hM]; exact g1), ho, hM,
        range'_reverse_head _ hd, List.foldlM_cons]
      simp only
      rw [mulIntoDegree_lhs_zero C N h2 f s x dx hx.2 (by rw [gl]; exact geomSum_mono (by omega)) (by omega)]
      rfl

example : FreeTensor.exp intCoeff (DenseAlg.ops intCoeff .debug 2) 3 (.ofVec [2, 1, 1]) = .panic :=
  C106_exp_debug intCoeff 2 (by omega) (by omega) 3 1 (by omega) (by omega) _ ⟨rfl, by decide⟩ 2 [1, 1] rfl

/-- C106, release builds: `exp` of a tensor of degree at least 1 is undefined behaviour once `MAX_DEGREE ≥ 2`, unless its constant term is 1 and its
degree exceeds `MAX_DEGREE`. -/
theorem C106_exp_release_ub (h2 : 2 ≤ N) (hN : N < 2 ^ 32) (m dx : Nat) (hm : 2 ≤ m) (hd : 1 ≤ dx) (x : Dense S) (hx : FullTo N x dx)
    (c : S) (rest : List S) (hc : x.data = c :: rest) (h : ¬ (C.eq c C.zero = false ∧ C.eq c C.one = true ∧ m < dx)) :
    FreeTensor.exp C (DenseAlg.ops C .release N) m x = .ub := by
  have hf : FullTo N (Dense.ofVec [C.one]) 0 := ⟨rfl, by rw [Nat.zero_add, Nat.pow_one]; omega⟩
  refine exp_first C .release N m hm h2 hN x _ (.inr rfl) fun f => ?_
  obtain ⟨hor, hiff⟩ := C37_release_returns_iff C N h2 f _ x 0 dx m hf hx hd (by omega) c rest hc (pow_lt64_mono h2 (by omega) hx.2)
  rcases hor with hr | hr
  · exfalso
    obtain ⟨h0, ⟨h3, h4⟩ | ⟨_, ⟨_, h4⟩ | ⟨h4, _⟩ | ⟨h4, _⟩⟩⟩ := hiff.1 hr
    · exact h ⟨h0, h3, h4⟩
    all_goals omega
  · exact hr

example : FreeTensor.exp intCoeff (DenseAlg.ops intCoeff .release 2) 3 (.ofVec [2, 1, 1]) = .ub :=
  C106_exp_release_ub intCoeff 2 (by omega) (by omega) 3 1 (by omega) (by omega) _ ⟨rfl, by decide⟩ 2 [1, 1] rfl (by decide)

/-- Adding the unit changes the constant term only. -/
theorem addInplace_unit (a : Dense S) (hl : 1 ≤ a.size) :
    ∃ r, (DenseAlg.ops C p N).addInplace a (.ofVec [C.one]) = .ok r ∧ r.size = a.size ∧ coef C N r [] = C.add (coef C N a []) C.one ∧
      ∀ w, w ≠ [] → ValidWord N w → coef C N r w = coef C N a w := by
  obtain ⟨r, hr, hd⟩ := Dense.addInplace_data C a (Dense.ofVec [C.one])
  unfold Dense.size at hl
  have hd' : r.data = Dense.zipInto C.add a.data [C.one] := by
    rw [hd]
    unfold Dense.combine
    rw [if_neg (by show ¬ 1 > a.data.length; omega)]
    rfl
  refine ⟨r, hr, ?_, ?_, fun w hw hv => ?_⟩
  · unfold Dense.size
    rw [hd', Dense.zipInto_length]
  · unfold coef stored
    rw [show wordIndex N [] = 0 from rfl, hd', Dense.zipInto_getElem?]
    obtain ⟨y, hy⟩ : ∃ y, a.data[0]? = some y := ⟨_, List.getElem?_eq_getElem hl⟩
    rw [hy]
    rfl
  · unfold coef stored
    rw [hd', Dense.zipInto_getElem?]
    have hpos : 1 ≤ wordIndex N w := by
      have hb := (wordIndex_bounds hv).1
      have : 1 ≤ w.length := List.length_pos_iff.2 hw
      have hm := geomSum_mono (N := N) (a := 1) (b := w.length) this
      rw [DenseAlg.geomSum_one] at hm
      omega
    rw [List.getElem?_eq_none (l := [C.one]) (by simpa using hpos)]
    cases a.data[wordIndex N w]? <;> rfl

/-- C106, release builds, what `exp` returns in the remaining case (constant term 1, degree beyond `MAX_DEGREE`): the unit added to itself
`MAX_DEGREE - 1` times, padded with zeros. -/
theorem C106_exp_release_partial (h2 : 2 ≤ N) (hN : N < 2 ^ 32) (m dx : Nat) (hm : 2 ≤ m) (x : Dense S) (hx : FullTo N x dx)
    (c : S) (rest : List S) (hc : x.data = c :: rest) (hz : C.eq c C.zero = false) (h1 : C.eq c C.one = true) (hlt : m < dx) :
    ∃ r, FreeTensor.exp C (DenseAlg.ops C .release N) m x = .ok r ∧ r.size = geomSum N (m + 1) ∧
      coef C N r [] = (fun z => C.add z C.one)^[m - 1] C.one ∧ ∀ w, w ≠ [] → ValidWord N w → coef C N r w = C.zero := by
  have hp : N ^ (m + 1) < 2 ^ 64 := pow_lt64_mono h2 (by omega) hx.2
  have hf : FullTo N (Dense.ofVec [C.one]) 0 := ⟨rfl, by rw [Nat.zero_add, Nat.pow_one]; omega⟩
  have hg1 : 1 ≤ geomSum N (m + 1) := by
    have := geomSum_mono (N := N) (a := 1) (b := m + 1) (by omega)
    rw [DenseAlg.geomSum_one] at this
    exact this
  unfold FreeTensor.exp
  rw [dense_unit C .release N h2 hN]
  simp only [Res.bind_ok]
  have hstep : ∀ (v : Dense S) (da i : Nat), da ≤ m → FullTo N v da → ∃ r, FreeTensor.expStep C (DenseAlg.ops C .release N) m x (Dense.ofVec [C.one]) v i = .ok r ∧
      FullTo N r m ∧ coef C N r [] = C.add (coef C N v []) C.one ∧ ∀ w, w ≠ [] → ValidWord N w → coef C N r w = coef C N v w := by
    intro v da i hda hv
    obtain ⟨s, e, sz, g⟩ := C37_release_one_constant C N h2 (fun t => C.mul t (C.fromDegree i)) v x da dx m hv hx c rest hc hz h1 (by omega) hlt
    rw [Nat.max_eq_right hda] at sz
    obtain ⟨r, e', sz', g0, g'⟩ := addInplace_unit C .release N s (by omega)
    refine ⟨r, ?_, ⟨sz'.trans sz, hp⟩, by rw [g0, g], fun w hw hvw => by rw [g' w hw hvw, g]⟩
    unfold FreeTensor.expStep
    rw [show (DenseAlg.ops C .release N).mulRatRdiv C v x (C.fromDegree i) (some m) = .ok s from e, Res.bind_ok, e']
  have h0 : ∀ w, w ≠ [] → ValidWord N w → coef C N (Dense.ofVec [C.one]) w = C.zero := by
    intro w hw hv
    unfold coef stored
    have hb := (wordIndex_bounds hv).1
    have hw1 : 1 ≤ w.length := List.length_pos_iff.2 hw
    have hm := geomSum_mono (N := N) (a := 1) (b := w.length) hw1
    rw [DenseAlg.geomSum_one] at hm
    rw [show (Dense.ofVec [C.one]).data[wordIndex N w]? = none from List.getElem?_eq_none (l := [C.one]) (by simp; omega)]
    rfl
  obtain ⟨r, h1', da, _, hf', hda, hc0, hcw⟩ := iterate_foldlM (FreeTensor.expStep C (DenseAlg.ops C .release N) m x (Dense.ofVec [C.one]))
    (fun k r => ∃ da, da ≤ m ∧ FullTo N r da ∧ (1 ≤ k → da = m) ∧ coef C N r [] = (fun z => C.add z C.one)^[k] C.one ∧
      ∀ w, w ≠ [] → ValidWord N w → coef C N r w = C.zero) (by
      rintro k v i ⟨da, hda, hv, _, hc0, hcw⟩
      obtain ⟨r, e, hr, g0, g'⟩ := hstep v da i hda hv
      refine ⟨r, e, m, Nat.le_refl _, hr, fun _ => rfl, ?_, fun w hw hvw => by rw [g' w hw hvw, hcw w hw hvw]⟩
      rw [g0, hc0, Function.iterate_succ_apply']) (List.range' 1 (m - 1)).reverse 0 (Dense.ofVec [C.one])
    ⟨0, by omega, hf, by omega, rfl, h0⟩
  rw [List.length_reverse, List.length_range', Nat.zero_add] at hda hc0
  have := hda (by omega)
  subst this
  exact ⟨r, h1', hf'.1, hc0, hcw⟩

example : ∃ r, FreeTensor.exp intCoeff (DenseAlg.ops intCoeff .release 2) 2 (.ofVec (1 :: List.replicate 14 5)) = .ok r ∧ r.size = 7 ∧
    coef intCoeff 2 r [] = 2 ∧ ∀ w, w ≠ [] → ValidWord 2 w → coef intCoeff 2 r w = 0 :=
  C106_exp_release_partial intCoeff 2 (by omega) (by omega) 2 3 (by omega) _ ⟨rfl, by decide⟩ 1 _ rfl rfl rfl (by omega)

/-! ## `fmexp` -/

/-- The argument of `fmexp` and `log` with its constant term set to zero. -/
theorem drop_constant (x : Dense S) :
    ∃ b y, (DenseAlg.ops C p N).getMut (.ofVec x.data) TensorKey.new (fun _ => C.zero) = .ok (b, y) ∧ y.data = x.data.modify 0 (fun _ => C.zero) := by
  show ∃ b y, Dense.getMut (tensorBasis p N) (Dense.ofVec x.data) TensorKey.new (fun _ => C.zero) = .ok (b, y) ∧ _
  unfold Dense.getMut
  rw [show (tensorBasis p N).keyToIndex TensorKey.new = .ok 0 from rfl, Res.bind_ok]
  by_cases h : 0 < (Dense.ofVec x.data).data.length
  · rw [if_pos h]
    exact ⟨_, _, rfl, rfl⟩
  · rw [if_neg h]
    refine ⟨_, _, rfl, ?_⟩
    have h' : x.data = [] := List.length_eq_zero_iff.1 (by simpa [Dense.ofVec] using h)
    show x.data = _
    rw [h']
    rfl

/-- C106.  `fmexp` with `MAX_DEGREE ≤ 1` leaves the tensor as it is. -/
theorem C106_fmexp_low_partial (m : Nat) (hm : m ≤ 1) (v x : Dense S) :
    FreeTensor.fmexp p C (DenseAlg.ops C p N) m v x = .ok v := by
  obtain ⟨b, y, e, _⟩ := drop_constant C p N x
  unfold FreeTensor.fmexp
  rw [show (DenseAlg.ops C p N).toOwned v = .ok (.ofVec v.data) from rfl, Res.bind_ok,
    show (DenseAlg.ops C p N).toOwned x = .ok (.ofVec x.data) from rfl, Res.bind_ok, e, Res.bind_ok, show m - 1 = 0 by omega]
  rfl

example : FreeTensor.fmexp .debug intCoeff (DenseAlg.ops intCoeff .debug 2) 1 (.ofVec [3, 4, 5]) (.ofVec [0, 1, 1]) = .ok (.ofVec [3, 4, 5]) :=
  C106_fmexp_low_partial intCoeff .debug 2 1 (by omega) _ _

/-- C106.  `fmexp` of a number with a number: `MAX_DEGREE` copies of the first one added up, whatever the second. -/
theorem C106_fmexp_scalar_partial (h2 : 2 ≤ N) (hN : N < 2 ^ 32) (m : Nat) (hm : m < 2 ^ 32) (v x : Dense S) (y : S) (hv : v.data = [y])
    (hx : x.size ≤ 1) :
    ∃ r, FreeTensor.fmexp p C (DenseAlg.ops C p N) m v x = .ok r ∧ r.data = [(fun z => C.add z y)^[m - 1] y] := by
  obtain ⟨b, x', e, hx'⟩ := drop_constant C p N x
  have hxs : x'.size ≤ 1 := by unfold Dense.size at hx ⊢; rw [hx', List.length_modify]; exact hx
  unfold FreeTensor.fmexp
  rw [show (DenseAlg.ops C p N).toOwned v = .ok (.ofVec v.data) from rfl, Res.bind_ok,
    show (DenseAlg.ops C p N).toOwned x = .ok (.ofVec x.data) from rfl, Res.bind_ok, e, Res.bind_ok]
  have key : ∀ (L : List Nat), (∀ i ∈ L, 1 ≤ i ∧ i < m) → ∀ k (r : Dense S), r.data = [(fun z => C.add z y)^[k] y] →
      ∃ r', L.foldlM (FreeTensor.fmexpStep p C (DenseAlg.ops C p N) m x' (.ofVec v.data)) r = .ok r' ∧
        r'.data = [(fun z => C.add z y)^[k + L.length] y] := by
    intro L
    induction L with
    | nil => exact fun _ k r hr => ⟨r, rfl, hr⟩
    | cons i L ih =>
      intro hL k r hr
      have hi := hL i (by simp)
      obtain ⟨r1, e1, hr1⟩ := addInplace_scalar C p N r (Dense.ofVec v.data) _ y hr hv
      obtain ⟨r', e2, hr'⟩ := ih (fun i hi => hL i (by simp [hi])) (k + 1) r1 (by rw [hr1, Function.iterate_succ_apply'])
      refine ⟨r', ?_, by rw [hr', List.length_cons, show k + 1 + L.length = k + (L.length + 1) by omega]⟩
      rw [List.foldlM_cons]
      unfold FreeTensor.fmexpStep
      rw [subW_ok (by omega), Res.bind_ok, addW_ok (by omega), Res.bind_ok,
        show (DenseAlg.ops C p N).mulRatRdiv C r x' (C.fromDegree i) (some _) = .ok r from
          mulInto_scalars C p N h2 hN _ r x' (by unfold Dense.size; rw [hr]; exact Nat.le_refl 1) hxs _, Res.bind_ok, e1, Res.bind_ok]
      exact e2
  obtain ⟨r, h1, h3⟩ := key (List.range' 1 (m - 1)).reverse (by intro i hi; rw [List.mem_reverse, List.mem_range'_1] at hi; omega) 0 v hv
  refine ⟨r, h1, ?_⟩
  rw [h3, List.length_reverse, List.length_range', Nat.zero_add]

example : ∃ r, FreeTensor.fmexp .debug intCoeff (DenseAlg.ops intCoeff .debug 2) 3 (.ofVec [5]) (.ofVec [9]) = .ok r ∧ r.data = [15] :=
  C106_fmexp_scalar_partial intCoeff .debug 2 (by omega) (by omega) 3 (by omega) _ _ 5 rfl (by decide)

/-- C106.  With `MAX_DEGREE ≥ 2` and tensors that are not both numbers, `fmexp` never returns: it accesses memory out of bounds if the degree `dx` of
the argument is at most 2, and for larger `dx` it does so in release builds and panics in debug builds. -/
theorem C106_fmexp_outcome (hz : C.eq C.zero C.zero = true) (h2 : 2 ≤ N) (m dv dx : Nat) (hm : 2 ≤ m) (v x : Dense S)
    (hv : FullTo N v dv) (hx : FullTo N x dx) (hd : 1 ≤ dv + dx) (hp : N ^ (min 2 (dv + dx) + 1) < 2 ^ 64) :
    FreeTensor.fmexp p C (DenseAlg.ops C p N) m v x = if p = .debug ∧ 2 < dx then .panic else .ub := by
  obtain ⟨b, x', e, hx'⟩ := drop_constant C p N x
  have hxs : FullTo N x' dx := ⟨by have := hx.1; unfold Dense.size at this ⊢; rw [hx', List.length_modify]; exact this, hx.2⟩
  obtain ⟨rest, hr⟩ : ∃ rest, x'.data = C.zero :: rest := by
    have h1 : 1 ≤ x.data.length := by
      have h := hx.1
      have := geomSum_mono (N := N) (a := 1) (b := dx + 1) (by omega)
      rw [DenseAlg.geomSum_one] at this
      unfold Dense.size at h
      omega
    rw [hx']
    cases hxd : x.data with
    | nil => rw [hxd] at h1; simp at h1
    | cons c l => exact ⟨l, rfl⟩
  unfold FreeTensor.fmexp
  rw [show (DenseAlg.ops C p N).toOwned v = .ok (.ofVec v.data) from rfl, Res.bind_ok,
    show (DenseAlg.ops C p N).toOwned x = .ok (.ofVec x.data) from rfl, Res.bind_ok, e, Res.bind_ok]
  simp only
  rw [range'_reverse_head _ (by omega), List.foldlM_cons]
  unfold FreeTensor.fmexpStep
  rw [subW_ok (by omega), Res.bind_ok, addW_ok (by omega), Res.bind_ok, show m - (m - 1) + 1 = 2 by omega]
  have hmul : (DenseAlg.ops C p N).mulRatRdiv C v x' (C.fromDegree (m - 1)) (some 2) = if p = .debug ∧ 2 < dx then .panic else .ub := by
    split_ifs with h
    · obtain ⟨rfl, h⟩ := h
      exact C37_inplace_debug_panic C N h2 _ v x' dv dx 2 hv hxs (by omega) (by omega) hp
    · rcases Nat.lt_or_ge 2 dx with hlt | hge
      · cases p with
        | debug => exact absurd ⟨rfl, hlt⟩ h
        | release => exact C37_release_zero_constant_ub C N h2 _ v x' dv dx 2 hv hxs C.zero rest hr hz (by omega) hp
      · exact C37_inplace_zero_constant_ub C p N h2 _ v x' dv dx 2 hv hxs C.zero rest hr hz (by omega) (by omega) hp
  rw [hmul]
  split_ifs <;> rfl

example : FreeTensor.fmexp .debug intCoeff (DenseAlg.ops intCoeff .debug 2) 3 (.ofVec [5, 1, 1]) (.ofVec [9]) = .ub :=
  C106_fmexp_outcome intCoeff .debug 2 rfl (by omega) 3 1 0 (by omega) _ _ ⟨rfl, by decide⟩ ⟨rfl, by decide⟩ (by omega) (by decide)

/-! ## `log` -/

/-- The number `log` computes. -/
def logConst (m : Nat) : S :=
  (List.range' 1 (m - 1)).reverse.foldl (fun r i => if i % 2 = 0 then C.sub r (C.div C.one (C.ratFromDegree i)) else C.add r (C.div C.one (C.ratFromDegree i)))
    C.zero

/-- One turn of `log` on a vector of at most one coefficient. -/
theorem log_acc (rv : Dense S) (a : S) (hrv : (rv.data = [] ∧ a = C.zero) ∨ rv.data = [a]) (i : Nat) :
    ∃ r, (if i % 2 = 0 then (DenseAlg.ops C p N).subScalarRdivide rv (.ofVec [C.one]) (C.ratFromDegree i)
        else (DenseAlg.ops C p N).addScalarRdivide rv (.ofVec [C.one]) (C.ratFromDegree i)) = .ok r ∧
      r.data = [if i % 2 = 0 then C.sub a (C.div C.one (C.ratFromDegree i)) else C.add a (C.div C.one (C.ratFromDegree i))] := by
  have h : ∀ f : S → S → S, Dense.combine C f rv.data [C.div C.one (C.ratFromDegree i)] = [f a (C.div C.one (C.ratFromDegree i))] := by
    intro f
    rcases hrv with ⟨h, rfl⟩ | h <;> rw [h] <;> rfl
  split_ifs
  · obtain ⟨r, e, hd⟩ := Dense.subInplace_data C rv (.ofVec [C.div C.one (C.ratFromDegree i)])
    exact ⟨r, e, hd.trans (h _)⟩
  · obtain ⟨r, e, hd⟩ := Dense.addInplace_data C rv (.ofVec [C.div C.one (C.ratFromDegree i)])
    exact ⟨r, e, hd.trans (h _)⟩

theorem logStep_eq (m : Nat) (x rv r : Dense S) (i : Nat)
    (h : (if i % 2 = 0 then (DenseAlg.ops C p N).subScalarRdivide rv (.ofVec [C.one]) (C.ratFromDegree i)
        else (DenseAlg.ops C p N).addScalarRdivide rv (.ofVec [C.one]) (C.ratFromDegree i)) = .ok r) :
    FreeTensor.logStep C (DenseAlg.ops C p N) m x (.ofVec [C.one]) rv i = ((DenseAlg.ops C p N).multiply r x (some m)).bind (fun _ => .ok r) := by
  unfold FreeTensor.logStep
  by_cases hi : i % 2 = 0
  · rw [if_pos hi] at h
    simp only [if_pos hi]
    rw [h]
    rfl
  · rw [if_neg hi] at h
    simp only [if_neg hi]
    rw [h]
    rfl

/-- C106.  `log` of a tensor of degree at least 1 returns in every build, for every `MAX_DEGREE`: the number `1 - 1/2 + 1/3 - …` (`MAX_DEGREE - 1` terms,
computed from the last to the first), whatever the tensor. -/
theorem C106_log_partial (h2 : 2 ≤ N) (hN : N < 2 ^ 32) (m dx : Nat) (hm : 2 ≤ m) (hd : 1 ≤ dx) (x : Dense S) (hx : FullTo N x dx) :
    ∃ r, FreeTensor.log C (DenseAlg.ops C p N) m x = .ok r ∧ r.data = [logConst C m] := by
  obtain ⟨b, x', e, hx'⟩ := drop_constant C p N x
  have hxs : FullTo N x' dx := ⟨by have := hx.1; unfold Dense.size at this ⊢; rw [hx', List.length_modify]; exact this, hx.2⟩
  unfold FreeTensor.log
  rw [dense_unit C p N h2 hN, Res.bind_ok, show (DenseAlg.ops C p N).toOwned x = .ok (.ofVec x.data) from rfl, Res.bind_ok]
  simp only
  rw [e, Res.bind_ok]
  simp only
  have key : ∀ (L : List Nat) (rv : Dense S) (a : S), ((rv.data = [] ∧ a = C.zero) ∨ rv.data = [a]) → L ≠ [] ∨ rv.data = [a] →
      ∃ r, L.foldlM (FreeTensor.logStep C (DenseAlg.ops C p N) m x' (.ofVec [C.one])) rv = .ok r ∧
        r.data = [L.foldl (fun r i => if i % 2 = 0 then C.sub r (C.div C.one (C.ratFromDegree i)) else C.add r (C.div C.one (C.ratFromDegree i))) a] := by
    intro L
    induction L with
    | nil => exact fun rv a _ h => ⟨rv, rfl, h.resolve_left (fun h => h rfl)⟩
    | cons i L ih =>
      intro rv a hrv _
      obtain ⟨r, e1, hr⟩ := log_acc C p N rv a hrv i
      obtain ⟨q, hq⟩ := C34_multiply_safe_partial C p N h2 r x' 0 dx m
        ⟨by unfold Dense.size; rw [hr]; rfl, by rw [Nat.zero_add, Nat.pow_one]; omega⟩ hxs (by omega) (pow_lt64_mono h2 (by omega) hx.2)
      obtain ⟨r', e2, hr'⟩ := ih r _ (.inr hr) (.inr hr)
      refine ⟨r', ?_, hr'⟩
      rw [List.foldlM_cons, logStep_eq C p N m x' rv r i e1, hq]
      exact e2
  exact key _ Dense.new C.zero (.inl ⟨rfl, rfl⟩) (.inl (by rw [range'_reverse_head _ (by omega)]; simp))

example : ∃ r, FreeTensor.log (fieldCoeff ℚ) (DenseAlg.ops (fieldCoeff ℚ) .debug 2) 4 (.ofVec [1, 2, 3]) = .ok r ∧ r.data = [logConst (fieldCoeff ℚ) 4] :=
  C106_log_partial (fieldCoeff ℚ) .debug 2 (by omega) (by omega) 4 1 (by omega) (by omega) _ ⟨rfl, by decide⟩

/-- C106.  `log` with `MAX_DEGREE ≤ 1` is the zero tensor. -/
theorem C106_log_low_partial (h2 : 2 ≤ N) (hN : N < 2 ^ 32) (m : Nat) (hm : m ≤ 1) (x : Dense S) :
    FreeTensor.log C (DenseAlg.ops C p N) m x = .ok .new := by
  obtain ⟨b, x', e, _⟩ := drop_constant C p N x
  unfold FreeTensor.log
  rw [dense_unit C p N h2 hN, Res.bind_ok, show (DenseAlg.ops C p N).toOwned x = .ok (.ofVec x.data) from rfl, Res.bind_ok]
  simp only
  rw [e, Res.bind_ok, show m - 1 = 0 by omega]
  rfl

example : FreeTensor.log intCoeff (DenseAlg.ops intCoeff .debug 2) 1 (.ofVec [1, 2, 3]) = .ok .new :=
  C106_log_low_partial intCoeff .debug 2 (by omega) (by omega) 1 (by omega) _

/-- C106.  `log` of a number, or of the zero tensor, accesses memory out of bounds once `MAX_DEGREE ≥ 2`. -/
theorem C106_log_scalar_ub (h2 : 2 ≤ N) (hN : N < 2 ^ 32) (m : Nat) (hm : 2 ≤ m) (x : Dense S) (hx : x.size ≤ 1) :
    FreeTensor.log C (DenseAlg.ops C p N) m x = .ub := by
  obtain ⟨b, x', e, hx'⟩ := drop_constant C p N x
  have hxs : x'.size ≤ 1 := by unfold Dense.size at hx ⊢; rw [hx', List.length_modify]; exact hx
  obtain ⟨r, e1, hr⟩ := log_acc C p N Dense.new C.zero (.inl ⟨rfl, rfl⟩) (m - 1)
  have hq := (C34_multiply_ub_iff C p N h2 r x' 0 0 m (scalar_hasDegree hN (by unfold Dense.size; rw [hr]; exact Nat.le_refl 1))
    (scalar_hasDegree hN hxs) (by rw [show min m (0 + 0) + 1 = 1 by omega, Nat.pow_one]; omega)).1.2 (by rintro ⟨h, _⟩; omega)
  unfold FreeTensor.log
  rw [dense_unit C p N h2 hN, Res.bind_ok, show (DenseAlg.ops C p N).toOwned x = .ok (.ofVec x.data) from rfl, Res.bind_ok]
  simp only
  rw [e, Res.bind_ok]
  simp only
  rw [range'_reverse_head _ (by omega), List.foldlM_cons, show (DenseAlg.ops C p N).new = Dense.new from rfl, logStep_eq C p N m x' Dense.new r _ e1, hq]
  rfl

example : FreeTensor.log intCoeff (DenseAlg.ops intCoeff .release 2) 2 (.ofVec [3]) = .ub :=
  C106_log_scalar_ub intCoeff .release 2 (by omega) (by omega) 2 (by omega) _ (by decide)

/-! ## The full statement is false -/

/-- C106 is false for every alphabet whose tensors of degree 2 are representable, every coefficient type with `0 == 0` and both profiles. -/
theorem C106_series_refuted (hz : C.eq C.zero C.zero = true) (h2 : 2 ≤ N) (hp : N ^ 3 < 2 ^ 64) : ¬ C106_series_full C p N := by
  intro h
  have hN : N < 2 ^ 32 := by
    by_contra hc
    have : (2 ^ 32) ^ 3 ≤ N ^ 3 := Nat.pow_le_pow_left (by omega) 3
    omega
  have hx : FullTo N (Dense.fromDimension C (geomSum N 2)) 1 := ⟨by unfold Dense.size; exact List.length_replicate, pow_lt64_mono h2 (by omega) hp⟩
  have hv : FullTo N (Dense.fromDimension C (geomSum N 3)) 2 := ⟨by unfold Dense.size; exact List.length_replicate, hp⟩
  obtain ⟨k, hk⟩ : ∃ k, geomSum N 2 = k + 1 := ⟨N, geomSum_two N⟩
  have hc : (Dense.fromDimension C (geomSum N 2)).data = C.zero :: List.replicate k C.zero := by
    rw [hk]
    rfl
  obtain ⟨⟨r, hr⟩, _⟩ := h 2 1 _ _ (by omega) (by omega) hx (by unfold coef stored; rw [hc]; rfl) hv
  cases (C39_dense_exp_ub C p N h2 hN 2 1 _ hx (by omega) (by omega) (by omega) C.zero _ hc (.inl hz)).symm.trans hr

example : ¬ C106_series_full intCoeff .debug 3 := C106_series_refuted intCoeff .debug 3 rfl (by omega) (by decide)

end

/-- C106, the number `log` returns over a field. -/
theorem C106_log_constant {S : Type} [Field S] [DecidableEq S] (m : Nat) :
    logConst (fieldCoeff S) m = ∑ k ∈ Finset.range (m - 1), (-1 : S) ^ k / ((k + 1 : Nat) : S) := by
  unfold logConst
  have key : ∀ (n : Nat) (a : S), (List.range' 1 n).reverse.foldl (fun r i => if i % 2 = 0 then (fieldCoeff S).sub r ((fieldCoeff S).div (fieldCoeff S).one
      ((fieldCoeff S).ratFromDegree i)) else (fieldCoeff S).add r ((fieldCoeff S).div (fieldCoeff S).one ((fieldCoeff S).ratFromDegree i))) a =
      a + ∑ k ∈ Finset.range n, (-1 : S) ^ k / ((k + 1 : Nat) : S) := by
    intro n
    induction n with
    | zero => intro a; simp
    | succ n ih =>
      intro a
      rw [range'_reverse_head _ (by omega), List.foldl_cons, Nat.add_sub_cancel, ih, Finset.sum_range_succ]
      show (if (n + 1) % 2 = 0 then a - 1 / ((n + 1 : Nat) : S) else a + 1 / ((n + 1 : Nat) : S)) + _ = _
      split_ifs with h
      · rw [Odd.neg_one_pow (by rw [Nat.odd_iff]; omega)]
        ring
      · rw [Even.neg_one_pow (by rw [Nat.even_iff]; omega)]
        ring
  have := key (m - 1) (fieldCoeff S).zero
  rw [this]
  exact zero_add _

example : logConst (fieldCoeff ℚ) 4 = 5 / 6 := by
  rw [C106_log_constant]
  norm_num [Finset.sum_range_succ]

end RA
