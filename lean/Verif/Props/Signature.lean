import Verif.Props.ExpLog

/-!
# Signatures: products of exponentials of Lie elements, computed with the operations of the crate (C88)
-/

namespace RA
open Spec TensorKey TensorBasis DenseAlg Series WordFn

theorem shuffles_mem' (u v : List Nat) : ∀ w ∈ shuffles u v, ∀ l, l ∈ u ∨ l ∈ v → l ∈ w := by
  match u, v with
  | [], v => simp [shuffles]
  | a :: u, [] =>
    intro w hw l hl
    rw [shuffles, List.mem_singleton] at hw
    simpa [hw] using hl
  | a :: u, b :: v =>
    intro w hw l hl
    rw [shuffles, List.mem_append, List.mem_map, List.mem_map] at hw
    rcases hw with ⟨x, hx, rfl⟩ | ⟨x, hx, rfl⟩
    · have := shuffles_mem' u (b :: v) x hx l
      simp only [List.mem_cons] at this hl ⊢
      tauto
    · have := shuffles_mem' (a :: u) v x hx l
      simp only [List.mem_cons] at this hl ⊢
      tauto
termination_by u.length + v.length

/-- The shuffle identities of a vector up to degree `D`: the constant term is `1`, and the product of the coefficients at two words is the sum of the coefficients over
the shuffles of the words. -/
def IsGroupLike {S R : Type} [CommRing S] (C : Coeff S R) (N D : Nat) (g : Dense S) : Prop :=
  coef C N g [] = 1 ∧ ∀ u v, ValidWord N u → ValidWord N v → u.length + v.length ≤ D → ((shuffles u v).map (coef C N g)).sum = coef C N g u * coef C N g v

/-- The Lie identities of a vector up to degree `D`: the constant term is zero, and the sum of the coefficients over the shuffles of two non-empty words is zero. -/
def IsLieVec {S R : Type} [CommRing S] (C : Coeff S R) (N D : Nat) (x : Dense S) : Prop :=
  coef C N x [] = 0 ∧ ∀ u v, ValidWord N u → ValidWord N v → u ≠ [] → v ≠ [] → u.length + v.length ≤ D → ((shuffles u v).map (coef C N x)).sum = 0

section
variable {S R : Type} [CommRing S] {C : Coeff S R} {N : Nat}

theorem sh_tval (g : Dense S) (u v : List Nat) (hu : ValidWord N u) (hv : ValidWord N v) : sh (tval C N g) u v = ((shuffles u v).map (coef C N g)).sum := by
  unfold sh
  congr 1
  exact List.map_congr_left fun w hw => tval_word g w fun l hl => (shuffles_mem u v w hw l hl).elim (hu l) (hv l)

theorem sh_tval_not (g : Dense S) (u v : List Nat) (h : ¬ (ValidWord N u ∧ ValidWord N v)) : sh (tval C N g) u v = 0 := by
  apply List.sum_eq_zero
  intro y hy
  obtain ⟨w, hw, rfl⟩ := List.mem_map.1 hy
  refine tval_not g w fun hv => h ⟨fun l hl => hv l ?_, fun l hl => hv l ?_⟩
  · exact shuffles_mem' u v w hw l (.inl hl)
  · exact shuffles_mem' u v w hw l (.inr hl)

theorem isGroupLike_iff (D : Nat) (g : Dense S) : IsGroupLike C N D g ↔ GroupLike D (tval C N g) := by
  unfold IsGroupLike GroupLike
  rw [tval_word g [] valid_nil]
  refine and_congr_right fun _ => ⟨fun h u v hl => ?_, fun h u v hu hv hl => ?_⟩
  · by_cases huv : ValidWord N u ∧ ValidWord N v
    · rw [sh_tval g u v huv.1 huv.2, h u v huv.1 huv.2 hl, tval_word g u huv.1, tval_word g v huv.2]
    · rw [sh_tval_not g u v huv]
      by_cases hu : ValidWord N u
      · rw [tval_not g v fun hv => huv ⟨hu, hv⟩, mul_zero]
      · rw [tval_not g u hu, zero_mul]
  · rw [← sh_tval g u v hu hv, h u v hl, tval_word g u hu, tval_word g v hv]

theorem isLieVec_iff (D : Nat) (x : Dense S) : IsLieVec C N D x ↔ PrimitiveTo D (tval C N x) := by
  unfold IsLieVec PrimitiveTo
  rw [tval_word x [] valid_nil]
  refine and_congr_right fun _ => ⟨fun h u v hu hv hl => ?_, fun h u v hu hv hu0 hv0 hl => ?_⟩
  · by_cases huv : ValidWord N u ∧ ValidWord N v
    · rw [sh_tval x u v huv.1 huv.2, h u v huv.1 huv.2 hu hv hl]
    · exact sh_tval_not x u v huv
  · rw [← sh_tval x u v hu hv, h u v hu0 hv0 hl]

theorem sh_congr {D : Nat} {f g : WordFn S} (h : EqTo D f g) (u v : List Nat) (hl : u.length + v.length ≤ D) : sh f u v = sh g u v := by
  unfold sh
  congr 1
  exact List.map_congr_left fun w hw => h w (by rw [shuffles_length u v w hw]; exact hl)

theorem GroupLike.congr {D : Nat} {f g : WordFn S} (h : EqTo D f g) (hg : GroupLike D g) : GroupLike D f :=
  ⟨(h [] (by simp)).trans hg.1, fun u v hl => by rw [sh_congr h u v hl, hg.2 u v hl, h u (by omega), h v (by omega)]⟩

theorem PrimitiveTo.congr {D : Nat} {f g : WordFn S} (h : EqTo D f g) (hg : PrimitiveTo D g) : PrimitiveTo D f :=
  ⟨(h [] (by simp)).trans hg.1, fun u v hu hv hl => by rw [sh_congr h u v hl, hg.2 u v hu hv hl]⟩

end

section
variable {S : Type} (C : Coeff S S) (p : Profile) (N : Nat)

/-- The product of the exponentials of the increments, up to degree `D`. -/
def signature (D : Nat) : List (Dense S) → Res (Dense S)
  | [] => (DenseAlg.ops C p N).fromKey TensorKey.new
  | x :: xs => do
    let e ← tensorExp C p N D x
    let g ← signature D xs
    (DenseAlg.ops C p N).multiply e g (some D)

variable [Field S]

variable {C N} in
theorem signature_value (hC : C.IsField) (h2 : 2 ≤ N) (hN : N < 2 ^ 32) (D : Nat) (hD : 1 ≤ D) (hp : N ^ (D + 1) < 2 ^ 64) (xs : List (Dense S))
    (hf : ∀ x ∈ xs, ∃ d, 1 ≤ d ∧ FullTo N x d) :
    ∃ g, signature C p N D xs = .ok g ∧ (∃ d, FullTo N g d ∧ d ≤ D ∧ (xs ≠ [] → 1 ≤ d)) ∧ EqTo D (tval C N g) (xs.map fun x => expTo S D (tval C N x)).prod := by
  induction xs with
  | nil =>
    obtain ⟨u, eu, hu, cu⟩ := tval_unit (C := C) p hC.toIsRing h2 hN
    exact ⟨u, eu, ⟨0, hu, by omega, by simp⟩, by rw [cu]; exact EqTo.refl _ _⟩
  | cons x xs ih =>
    obtain ⟨g, eg, ⟨dg, hg, hdg, _⟩, cg⟩ := ih fun y hy => hf y (by simp [hy])
    obtain ⟨d, hd, hx⟩ := hf x (by simp)
    obtain ⟨e, ee, ⟨de, he, hde, hde'⟩, ce⟩ := tensorExp_value (C := C) p hC h2 hN D hp x d hd hx
    have := hde' hD
    obtain ⟨r, er, hr, cr⟩ := tval_multiply (C := C) p hC.toIsRing h2 e g _ _ D he hg (by omega) hp
    refine ⟨r, ?_, ⟨_, hr, by omega, fun _ => by omega⟩, ?_⟩
    · unfold signature
      rw [ee, Res.bind_ok, eg, Res.bind_ok, er]
    · rw [List.map_cons, List.prod_cons]
      exact cr.trans (ce.mul cg)

theorem groupLike_prod [CharZero S] (D : Nat) (fs : List (WordFn S)) (h : ∀ f ∈ fs, PrimitiveTo D f) : GroupLike D (fs.map fun f => expTo S D f).prod := by
  induction fs with
  | nil => exact groupLike_one D
  | cons f fs ih =>
    rw [List.map_cons, List.prod_cons]
    exact groupLike_mul D _ _ (groupLike_exp D f (h f (by simp))) (ih fun g hg => h g (by simp [hg]))

/-- C88.  A product of exponentials of Lie elements satisfies the shuffle identities: the product of two coefficients is the sum of the coefficients over the shuffles
of their words. -/
theorem C88_shuffle [CharZero S] (hC : C.IsField) (h2 : 2 ≤ N) (hN : N < 2 ^ 32) (D : Nat) (hD : 1 ≤ D) (hp : N ^ (D + 1) < 2 ^ 64) (xs : List (Dense S))
    (hf : ∀ x ∈ xs, ∃ d, 1 ≤ d ∧ FullTo N x d) (hl : ∀ x ∈ xs, IsLieVec C N D x) : ∃ g, signature C p N D xs = .ok g ∧ IsGroupLike C N D g := by
  obtain ⟨g, eg, _, cg⟩ := signature_value p hC h2 hN D hD hp xs hf
  refine ⟨g, eg, (isGroupLike_iff D g).2 (GroupLike.congr cg ?_)⟩
  have := groupLike_prod D (xs.map (tval C N)) fun f hf => by
    obtain ⟨x, hx, rfl⟩ := List.mem_map.1 hf
    exact (isLieVec_iff D x).1 (hl x hx)
  rwa [List.map_map] at this

/-- C88.  Exponentials of Lie elements satisfy the shuffle identities. -/
theorem C88_exp [CharZero S] (hC : C.IsField) (h2 : 2 ≤ N) (hN : N < 2 ^ 32) (D : Nat) (hp : N ^ (D + 1) < 2 ^ 64) (x : Dense S) (d : Nat) (hd : 1 ≤ d)
    (hx : FullTo N x d) (hl : IsLieVec C N D x) : ∃ g, tensorExp C p N D x = .ok g ∧ IsGroupLike C N D g := by
  obtain ⟨g, eg, _, cg⟩ := tensorExp_value (C := C) p hC h2 hN D hp x d hd hx
  exact ⟨g, eg, (isGroupLike_iff D g).2 (GroupLike.congr cg (groupLike_exp D _ ((isLieVec_iff D x).1 hl)))⟩

/-- C88.  Logarithms of tensors with the shuffle identities are Lie elements. -/
theorem C88_log [CharZero S] (hC : C.IsField) (h2 : 2 ≤ N) (hN : N < 2 ^ 32) (D : Nat) (hD : 1 ≤ D) (hp : N ^ (D + 1) < 2 ^ 64) (g : Dense S) (d : Nat) (hd : 1 ≤ d)
    (hg : FullTo N g d) (hs : IsGroupLike C N D g) : ∃ l, tensorLog C p N D g = .ok l ∧ IsLieVec C N D l := by
  obtain ⟨l, el, _, cl⟩ := tensorLog_value (C := C) p hC h2 hN D hD hp g d hd hg
  exact ⟨l, el, (isLieVec_iff D l).2 (PrimitiveTo.congr cl (primitive_log D _ ((isGroupLike_iff D g).1 hs)))⟩

/-- C88.  The tensors with the shuffle identities are closed under the product. -/
theorem C88_product (hC : C.IsField) (h2 : 2 ≤ N) (D : Nat) (hD : 1 ≤ D) (hp : N ^ (D + 1) < 2 ^ 64) (g h : Dense S) (dg dh : Nat) (hd : 1 ≤ dg + dh)
    (hg : FullTo N g dg) (hh : FullTo N h dh) (sg : IsGroupLike C N D g) (sh : IsGroupLike C N D h) :
    ∃ r, (DenseAlg.ops C p N).multiply g h (some D) = .ok r ∧ IsGroupLike C N D r := by
  obtain ⟨r, er, _, cr⟩ := tval_multiply (C := C) p hC.toIsRing h2 g h dg dh D hg hh (by omega) hp
  exact ⟨r, er, (isGroupLike_iff D r).2 (GroupLike.congr cr (groupLike_mul D _ _ ((isGroupLike_iff D g).1 sg) ((isGroupLike_iff D h).1 sh)))⟩

/-- C88, Baker-Campbell-Hausdorff: the logarithm of the product of two exponentials of Lie elements is a Lie element. -/
theorem C88_bch [CharZero S] (hC : C.IsField) (h2 : 2 ≤ N) (hN : N < 2 ^ 32) (D : Nat) (hD : 1 ≤ D) (hp : N ^ (D + 1) < 2 ^ 64) (x y : Dense S) (dx dy : Nat)
    (hdx : 1 ≤ dx) (hdy : 1 ≤ dy) (hx : FullTo N x dx) (hy : FullTo N y dy) (lx : IsLieVec C N D x) (ly : IsLieVec C N D y) :
    ∃ a b r l, tensorExp C p N D x = .ok a ∧ tensorExp C p N D y = .ok b ∧ (DenseAlg.ops C p N).multiply a b (some D) = .ok r ∧ tensorLog C p N D r = .ok l ∧
      IsLieVec C N D l := by
  obtain ⟨a, ea, ⟨da, ha, hda, hda'⟩, ca⟩ := tensorExp_value (C := C) p hC h2 hN D hp x dx hdx hx
  obtain ⟨b, eb, ⟨db, hb, hdb, hdb'⟩, cb⟩ := tensorExp_value (C := C) p hC h2 hN D hp y dy hdy hy
  have := hda' hD
  obtain ⟨r, er, hr, cr⟩ := tval_multiply (C := C) p hC.toIsRing h2 a b _ _ D ha hb (by omega) hp
  have hgr : GroupLike D (tval C N r) := GroupLike.congr (cr.trans (ca.mul cb))
    (groupLike_mul D _ _ (groupLike_exp D _ ((isLieVec_iff D x).1 lx)) (groupLike_exp D _ ((isLieVec_iff D y).1 ly)))
  obtain ⟨l, el, hl⟩ := C88_log C p N hC h2 hN D hD hp r _ (by omega) hr ((isGroupLike_iff D r).2 hgr)
  exact ⟨a, b, r, l, ea, eb, er, el, hl⟩

/-- C88, Chen's identity: the signature of two paths one after the other is the product of the signatures. -/
theorem C88_chen (hC : C.IsField) (h2 : 2 ≤ N) (hN : N < 2 ^ 32) (D : Nat) (hD : 1 ≤ D) (hp : N ^ (D + 1) < 2 ^ 64) (xs ys : List (Dense S))
    (hf : ∀ x ∈ xs ++ ys, ∃ d, 1 ≤ d ∧ FullTo N x d) (hne : xs ≠ [] ∨ ys ≠ []) :
    ∃ g h r s, signature C p N D xs = .ok g ∧ signature C p N D ys = .ok h ∧ (DenseAlg.ops C p N).multiply g h (some D) = .ok r ∧
      signature C p N D (xs ++ ys) = .ok s ∧ ∀ w, ValidWord N w → coef C N r w = coef C N s w := by
  obtain ⟨g, eg, ⟨dg, hg, hdg, hdg'⟩, cg⟩ := signature_value p hC h2 hN D hD hp xs fun x hx => hf x (by simp [hx])
  obtain ⟨h, eh, ⟨dh, hh, hdh, hdh'⟩, ch⟩ := signature_value p hC h2 hN D hD hp ys fun x hx => hf x (by simp [hx])
  obtain ⟨s, es, ⟨ds, hs, hds, _⟩, cs⟩ := signature_value p hC h2 hN D hD hp (xs ++ ys) hf
  have : 1 ≤ dg + dh := by
    rcases hne with h | h
    · have := hdg' h; omega
    · have := hdh' h; omega
  obtain ⟨r, er, hr, cr⟩ := tval_multiply (C := C) p hC.toIsRing h2 g h _ _ D hg hh (by omega) hp
  refine ⟨g, h, r, s, eg, eh, er, es, fun w hw => ?_⟩
  rw [List.map_append, List.prod_append] at cs
  rw [coef_of_eqTo hC.toIsRing h2 hr (by omega) (cr.trans (cg.mul ch)) w hw, coef_of_eqTo hC.toIsRing h2 hs hds cs w hw]

/-! ## Inverses -/

theorem inverse_unique {D : Nat} {a g b : WordFn S} (h1 : EqTo D (a * g) 1) (h2 : EqTo D (g * b) 1) : EqTo D a b := by
  have e1 : EqTo D (a * (g * b)) a := by
    have := (EqTo.refl D a).mul h2
    rwa [mul_one] at this
  have e2 : EqTo D (a * g * b) b := by
    have := h1.mul (EqTo.refl D b)
    rwa [one_mul] at this
  rw [mul_assoc] at e2
  exact e1.symm.trans e2

theorem expTo_zero (D : Nat) : expTo S D (0 : WordFn S) = 1 := by
  unfold expTo
  rw [Finset.sum_range_succ', Finset.sum_eq_zero fun k _ => by rw [zero_pow (by omega), smul_zero]]
  simp

theorem right_inverse [CharZero S] (D : Nat) (g : WordFn S) (h : g [] = 1) : ∃ b, EqTo D (g * b) 1 := by
  have hy : g - 1 ∈ (wordFilt S).F 1 := (WordFn.mem_order_one _).2 (by rw [WordFn.sub_apply, h, WordFn.one_apply, if_pos rfl, sub_self])
  have hl := (wordFilt S).logTo_mem hy D
  have h1 := (eqTo_iff D _ _).2 ((wordFilt S).exp_log hy D)
  rw [add_sub_cancel] at h1
  have h2 := (eqTo_iff D _ _).2 ((wordFilt S).exp_add hl (Submodule.neg_mem _ hl) (Commute.neg_right (Commute.refl _)) D)
  rw [add_neg_cancel, expTo_zero] at h2
  exact ⟨_, (h1.symm.mul (EqTo.refl _ _)).trans h2⟩

/-- The signed reversal as a formal tensor. -/
def antipodeW (g : WordFn S) : WordFn S := antipode g

theorem antipode_both [CharZero S] (D : Nat) (g : WordFn S) (hg : GroupLike D g) : EqTo D (antipodeW g * g) 1 ∧ EqTo D (g * antipodeW g) 1 := by
  have h1 : EqTo D (antipodeW g * g) 1 := fun w hw => antipode_left D g hg w hw
  obtain ⟨b, hb⟩ := right_inverse D g hg.1
  exact ⟨h1, ((EqTo.refl _ _).mul (inverse_unique h1 hb)).trans hb⟩

theorem valid_reverse {N : Nat} {w : List Nat} : ValidWord N w.reverse ↔ ValidWord N w := ⟨fun h l hl => h l (List.mem_reverse.2 hl), fun h l hl => h l (List.mem_reverse.1 hl)⟩

/-- C88.  A tensor with the shuffle identities is inverted, on both sides, by reversing every word and changing the sign at words of odd length. -/
theorem C88_inverse [CharZero S] (hC : C.IsField) (h2 : 2 ≤ N) (D : Nat) (hD : 1 ≤ D) (hp : N ^ (D + 1) < 2 ^ 64) (g h : Dense S) (dg dh : Nat) (hd : 1 ≤ dg + dh)
    (hg : FullTo N g dg) (hh : FullTo N h dh) (sg : IsGroupLike C N D g)
    (ha : ∀ w, ValidWord N w → w.length ≤ D → coef C N h w = (-1) ^ w.length * coef C N g w.reverse) :
    ∃ l r, (DenseAlg.ops C p N).multiply h g (some D) = .ok l ∧ (DenseAlg.ops C p N).multiply g h (some D) = .ok r ∧
      ∀ w, ValidWord N w → coef C N l w = (if w = [] then 1 else 0) ∧ coef C N r w = (if w = [] then 1 else 0) := by
  obtain ⟨l, el, hl, cl⟩ := tval_multiply (C := C) p hC.toIsRing h2 h g _ _ D hh hg (by omega) hp
  obtain ⟨r, er, hr, cr⟩ := tval_multiply (C := C) p hC.toIsRing h2 g h _ _ D hg hh (by omega) hp
  refine ⟨l, r, el, er, fun w hw => ?_⟩
  have e : EqTo D (tval C N h) (antipodeW (tval C N g)) := by
    intro w hl
    show tval C N h w = (-1) ^ w.length * tval C N g w.reverse
    by_cases hw : ValidWord N w
    · rw [tval_word h w hw, tval_word g _ (valid_reverse.2 hw), ha w hw hl]
    · rw [tval_not h w hw, tval_not g _ fun h => hw (valid_reverse.1 h), mul_zero]
  obtain ⟨i1, i2⟩ := antipode_both D _ ((isGroupLike_iff D g).1 sg)
  rw [coef_of_eqTo hC.toIsRing h2 hl (by omega) (cl.trans ((e.mul (EqTo.refl _ _)).trans i1)) w hw,
    coef_of_eqTo hC.toIsRing h2 hr (by omega) (cr.trans (((EqTo.refl _ _).mul e).trans i2)) w hw, WordFn.one_apply]
  by_cases hl : w.length ≤ D
  · rw [if_pos hl]
    exact ⟨rfl, rfl⟩
  · rw [if_neg hl, if_neg (by rintro rfl; simp at hl)]
    exact ⟨rfl, rfl⟩

theorem prod_reverse_inverse [CharZero S] (D : Nat) (fs : List (WordFn S)) (h : ∀ f ∈ fs, f [] = 0) :
    EqTo D ((fs.map fun f => expTo S D f).prod * ((fs.reverse.map fun f => expTo S D (-f)).prod)) 1 := by
  induction fs with
  | nil => simp; exact EqTo.refl _ _
  | cons f fs ih =>
    rw [List.map_cons, List.prod_cons, List.reverse_cons, List.map_append, List.prod_append, List.map_singleton, List.prod_singleton]
    have hf := (WordFn.mem_order_one f).2 (h f (by simp))
    have h2 := (eqTo_iff D _ _).2 ((wordFilt S).exp_add hf (Submodule.neg_mem _ hf) (Commute.neg_right (Commute.refl _)) D)
    rw [add_neg_cancel, expTo_zero] at h2
    have := ((EqTo.refl D (expTo S D f)).mul (ih fun g hg => h g (by simp [hg]))).mul (EqTo.refl D (expTo S D (-f)))
    rw [mul_one] at this
    refine EqTo.trans ?_ h2
    refine EqTo.trans ?_ this
    rw [mul_assoc, mul_assoc, mul_assoc]
    exact EqTo.refl _ _

/-- C88.  The signature of the path run backwards, the increments negated and in reverse order, has at every word the coefficient of the reversed word, with the sign
changed at words of odd length. -/
theorem C88_backwards [CharZero S] (hC : C.IsField) (h2 : 2 ≤ N) (hN : N < 2 ^ 32) (D : Nat) (hD : 1 ≤ D) (hp : N ^ (D + 1) < 2 ^ 64) (xs ys : List (Dense S))
    (hf : ∀ x ∈ xs, ∃ d, 1 ≤ d ∧ FullTo N x d) (hl : ∀ x ∈ xs, IsLieVec C N D x) (hy : xs.reverse.mapM (DenseAlg.ops C p N).uminus = .ok ys) :
    ∃ g h, signature C p N D xs = .ok g ∧ signature C p N D ys = .ok h ∧
      ∀ w, ValidWord N w → coef C N h w = (-1) ^ w.length * coef C N g w.reverse := by
  have key : ∀ xs ys : List (Dense S), (∀ x ∈ xs, ∃ d, 1 ≤ d ∧ FullTo N x d) → xs.mapM (DenseAlg.ops C p N).uminus = .ok ys →
      (∀ y ∈ ys, ∃ d, 1 ≤ d ∧ FullTo N y d) ∧ ys.map (tval C N) = xs.map fun x => - tval C N x := by
    intro xs
    induction xs with
    | nil =>
      intro ys _ e
      cases e
      simp
    | cons x xs ih =>
      intro ys hf e
      obtain ⟨d, hd, hx⟩ := hf x (by simp)
      obtain ⟨m, em, hm, cm⟩ := tval_uminus (C := C) p hC.toIsRing x d hx
      rw [List.mapM_cons, em] at e
      cases e' : xs.mapM (DenseAlg.ops C p N).uminus with
      | ok zs =>
        rw [e'] at e
        cases e
        obtain ⟨i1, i2⟩ := ih zs (fun z hz => hf z (by simp [hz])) e'
        refine ⟨fun y hy => ?_, by rw [List.map_cons, List.map_cons, i2, cm]⟩
        rcases List.mem_cons.1 hy with rfl | hy
        · exact ⟨d, hd, hm⟩
        · exact i1 y hy
      | panic => rw [e'] at e; cases e
      | ub => rw [e'] at e; cases e
      | diverge => rw [e'] at e; cases e
  obtain ⟨hfy, hv⟩ := key xs.reverse ys (fun x hx => hf x (List.mem_reverse.1 hx)) hy
  obtain ⟨g, eg, ⟨dg, hg, hdg, _⟩, cg⟩ := signature_value p hC h2 hN D hD hp xs hf
  obtain ⟨h, eh, ⟨dh, hh, hdh, _⟩, ch⟩ := signature_value p hC h2 hN D hD hp ys hfy
  refine ⟨g, h, eg, eh, fun w hw => ?_⟩
  have hxs : xs.map (fun x => expTo S D (tval C N x)) = (xs.map (tval C N)).map fun f => expTo S D f := by rw [List.map_map]; rfl
  have hys : ys.map (fun x => expTo S D (tval C N x)) = (xs.map (tval C N)).reverse.map fun f => expTo S D (-f) := by
    rw [show ys.map (fun x => expTo S D (tval C N x)) = (ys.map (tval C N)).map fun f => expTo S D f by rw [List.map_map]; rfl, hv, List.map_map, ← List.map_reverse,
      List.map_map]
    rfl
  rw [hxs] at cg
  rw [hys] at ch
  have hgl : GroupLike D (tval C N g) := GroupLike.congr cg (groupLike_prod D _ fun f hf' => by
    obtain ⟨x, hx, rfl⟩ := List.mem_map.1 hf'
    exact (isLieVec_iff D x).1 (hl x hx))
  have inv : EqTo D (tval C N g * tval C N h) 1 := (cg.mul ch).trans (prod_reverse_inverse D _ fun f hf' => by
    obtain ⟨x, hx, rfl⟩ := List.mem_map.1 hf'
    rw [tval_word x [] valid_nil, (hl x hx).1])
  have e := inverse_unique (antipode_both D _ hgl).1 inv
  rw [coef_of_eqTo hC.toIsRing h2 hh hdh e.symm w hw]
  split_ifs with hlen
  · show (-1) ^ w.length * tval C N g w.reverse = _
    rw [tval_word g _ (valid_reverse.2 hw)]
  · rw [coef_tval_zero hC.toIsRing h2 hg hdg _ (valid_reverse.2 hw) (by rw [List.length_reverse]; exact hlen), mul_zero]

/-- Linear combinations of letters are Lie elements. -/
theorem lie_linear (hC : C.IsRing) (h2 : 2 ≤ N) (D : Nat) (x : Dense S) (hx : FullTo N x 1) (h0 : coef C N x [] = 0) : IsLieVec C N D x := by
  refine ⟨h0, fun u v hu hv hu0 hv0 _ => List.sum_eq_zero fun y hy => ?_⟩
  obtain ⟨w, hw, rfl⟩ := List.mem_map.1 hy
  have := List.length_pos_iff.2 hu0
  have := List.length_pos_iff.2 hv0
  exact coef_zero_of_length C N hC (hx.hasDegree h2) w (fun l hl => (shuffles_mem u v w hw l hl).elim (hu l) (hv l))
    (by rw [shuffles_length u v w hw]; omega)

/-- C88.  Signatures of piecewise linear paths: increments in the span of the letters. -/
theorem C88_piecewise_linear [CharZero S] (hC : C.IsField) (h2 : 2 ≤ N) (hN : N < 2 ^ 32) (D : Nat) (hD : 1 ≤ D) (hp : N ^ (D + 1) < 2 ^ 64) (xs : List (Dense S))
    (hf : ∀ x ∈ xs, FullTo N x 1 ∧ coef C N x [] = 0) :
    ∃ g, signature C p N D xs = .ok g ∧ IsGroupLike C N D g ∧ ∀ l, 1 ≤ l → l ≤ N → coef C N g [l] = (xs.map fun x => coef C N x [l]).sum := by
  obtain ⟨g, eg, _, cg⟩ := signature_value p hC h2 hN D hD hp xs fun x hx => ⟨1, le_rfl, (hf x hx).1⟩
  obtain ⟨g', eg', hg'⟩ := C88_shuffle C p N hC h2 hN D hD hp xs (fun x hx => ⟨1, le_rfl, (hf x hx).1⟩)
    fun x hx => lie_linear C N hC.toIsRing h2 D x (hf x hx).1 (hf x hx).2
  cases eg.symm.trans eg'
  refine ⟨g, eg, hg', fun l h1 hN' => ?_⟩
  have hv : ValidWord N [l] := by intro m hm; rw [List.mem_singleton] at hm; omega
  rw [← tval_word g [l] hv, cg [l] (by simpa using hD)]
  have hexp : ∀ x ∈ xs, expTo S D (tval C N x) [] = 1 ∧ expTo S D (tval C N x) [l] = coef C N x [l] := by
    intro x hx
    have h0 : tval C N x [] = 0 := by rw [tval_word x [] valid_nil, (hf x hx).2]
    refine ⟨expTo_nil D _ h0, ?_⟩
    unfold expTo
    rw [WordFn.sum_apply, Finset.sum_eq_single 1]
    · rw [WordFn.smul_apply, pow_one, tval_word x [l] hv]
      simp
    · intro k _ hk
      rw [WordFn.smul_apply]
      rcases Nat.lt_or_ge k 1 with h | h
      · rw [show k = 0 by omega, pow_zero, WordFn.one_apply, if_neg (by simp), mul_zero]
      · have := (wordFilt S).pow_mem' ((WordFn.mem_order_one _).2 h0) k [l] (by simp; omega)
        rw [this, mul_zero]
    · intro h
      exact absurd (Finset.mem_range.2 (by omega)) h
  clear eg eg' cg hg'
  have hprod : ∀ xs : List (Dense S), (∀ x ∈ xs, expTo S D (tval C N x) [] = 1 ∧ expTo S D (tval C N x) [l] = coef C N x [l]) →
      (xs.map fun x => expTo S D (tval C N x)).prod [] = 1 ∧ (xs.map fun x => expTo S D (tval C N x)).prod [l] = (xs.map fun x => coef C N x [l]).sum := by
    intro xs
    induction xs with
    | nil => intro _; exact ⟨rfl, rfl⟩
    | cons x xs ih =>
      intro h
      obtain ⟨i1, i2⟩ := ih fun y hy => h y (by simp [hy])
      obtain ⟨j1, j2⟩ := h x (by simp)
      rw [List.map_cons, List.prod_cons, List.map_cons, List.sum_cons, WordFn.mul_nil, WordFn.mul_cons, i1, i2, j1, one_mul, one_mul]
      refine ⟨rfl, ?_⟩
      show _ + expTo S D (tval C N x) [l] * (xs.map fun x => expTo S D (tval C N x)).prod [] = _
      rw [i1, j2]
      ring
  exact (hprod xs hexp).2

end

/-! ## Concrete cases -/

/-- The increments `2 e_1 + 3 e_2` and `e_1 - e_2`. -/
def path : List (Dense Rat) := [Dense.ofVec [0, 2, 3], Dense.ofVec [0, 1, -1]]

theorem path_full : ∀ x ∈ path, FullTo 2 x 1 ∧ coef (fieldCoeff Rat) 2 x [] = 0 := by
  intro x hx
  simp only [path, List.mem_cons, List.not_mem_nil, or_false] at hx
  rcases hx with rfl | rfl <;> exact ⟨⟨rfl, by decide⟩, by rfl⟩

theorem path_lie (D : Nat) : ∀ x ∈ path, IsLieVec (fieldCoeff Rat) 2 D x := fun x hx =>
  lie_linear (fieldCoeff Rat) 2 (fieldCoeff_isField Rat).toIsRing (by omega) D x (path_full x hx).1 (path_full x hx).2

example := C88_piecewise_linear (fieldCoeff Rat) .debug 2 (fieldCoeff_isField Rat) (by omega) (by omega) 4 (by omega) (by decide) path path_full
example := C88_shuffle (fieldCoeff Rat) .debug 2 (fieldCoeff_isField Rat) (by omega) (by omega) 4 (by omega) (by decide) path
  (fun x hx => ⟨1, le_rfl, (path_full x hx).1⟩) (path_lie 4)
example := C88_chen (fieldCoeff Rat) .debug 2 (fieldCoeff_isField Rat) (by omega) (by omega) 4 (by omega) (by decide) path path
  (fun x hx => ⟨1, le_rfl, (path_full x (by simpa using hx)).1⟩) (.inl (by simp [path]))
example := C88_backwards (fieldCoeff Rat) .debug 2 (fieldCoeff_isField Rat) (by omega) (by omega) 4 (by omega) (by decide) path
  [Dense.ofVec [0, -1, 1], Dense.ofVec [0, -2, -3]] (fun x hx => ⟨1, le_rfl, (path_full x hx).1⟩) (path_lie 4) (by decide +kernel)
/-- The exponential of `e_1` up to degree two. -/
theorem exp_letter : IsGroupLike (fieldCoeff Rat) 2 2 (Dense.ofVec [1, 1, 0, 1 / 2, 0, 0, 0]) := by
  obtain ⟨g, e, h⟩ := C88_exp (fieldCoeff Rat) .debug 2 (fieldCoeff_isField Rat) (by omega) (by omega) 2 (by decide) (Dense.ofVec [0, 1, 0]) 1 le_rfl ⟨rfl, by decide⟩
    (lie_linear (fieldCoeff Rat) 2 (fieldCoeff_isField Rat).toIsRing (by omega) 2 _ ⟨rfl, by decide⟩ (by rfl))
  have e' : tensorExp (fieldCoeff Rat) .debug 2 2 (Dense.ofVec [0, 1, 0]) = .ok (Dense.ofVec [1, 1, 0, 1 / 2, 0, 0, 0]) := by decide +kernel
  cases e.symm.trans e'
  exact h
example := C88_log (fieldCoeff Rat) .debug 2 (fieldCoeff_isField Rat) (by omega) (by omega) 2 (by omega) (by decide) (Dense.ofVec [1, 1, 0, 1 / 2, 0, 0, 0]) 2 (by omega)
  ⟨rfl, by decide⟩ exp_letter
example := C88_product (fieldCoeff Rat) .debug 2 (fieldCoeff_isField Rat) (by omega) 2 (by omega) (by decide) (Dense.ofVec [1, 1, 0, 1 / 2, 0, 0, 0])
  (Dense.ofVec [1, 1, 0, 1 / 2, 0, 0, 0]) 2 2 (by omega) ⟨rfl, by decide⟩ ⟨rfl, by decide⟩ exp_letter exp_letter
example := C88_inverse (fieldCoeff Rat) .debug 2 (fieldCoeff_isField Rat) (by omega) 2 (by omega) (by decide) (Dense.ofVec [1, 1, 0, 1 / 2, 0, 0, 0])
  (Dense.ofVec [1, -1, 0, 1 / 2, 0, 0, 0]) 2 2 (by omega) ⟨rfl, by decide⟩ ⟨rfl, by decide⟩ exp_letter (by
    intro w hw hl
    have := words2 w hw hl
    simp only [List.mem_cons, List.not_mem_nil, or_false] at this
    rcases this with rfl | rfl | rfl | rfl | rfl | rfl | rfl <;> decide +kernel)
example := C88_bch (fieldCoeff Rat) .debug 2 (fieldCoeff_isField Rat) (by omega) (by omega) 4 (by omega) (by decide) (Dense.ofVec [0, 2, 3]) (Dense.ofVec [0, 1, -1]) 1 1
  le_rfl le_rfl ⟨rfl, by decide⟩ ⟨rfl, by decide⟩ (path_lie 4 _ (by simp [path])) (path_lie 4 _ (by simp [path]))
/-- The logarithm of `exp e_1 exp e_2` up to degree two is `e_1 + e_2 + [e_1, e_2] / 2`. -/
example : (do let g ← signature (fieldCoeff Rat) .debug 2 2 [Dense.ofVec [0, 1, 0], Dense.ofVec [0, 0, 1]]; tensorLog (fieldCoeff Rat) .debug 2 2 g) =
    .ok (Dense.ofVec [0, 1, 1, 0, 1 / 2, -1 / 2, 0]) := by decide +kernel
/-- The signature of the path up to degree two. -/
example : signature (fieldCoeff Rat) .debug 2 2 path = .ok (Dense.ofVec [1, 3, 2, 9 / 2, 1 / 2, 11 / 2, 2]) := by decide +kernel

end RA
