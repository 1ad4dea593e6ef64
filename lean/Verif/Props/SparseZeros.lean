import Verif.Props.Wrapping
import Verif.Props.Sparse
import Verif.Model.Float

/-!
# Exactly when operations on sparse vectors leave explicit zeros (C27), and what they mean for equality (C28)

No laws on the coefficients: the statements hold for rings with zero divisors, for wrapping integers and for floating-point numbers.
-/

namespace RA

variable {K S R : Type} [DecidableEq K] (C : Coeff S R)

theorem zeroFree_iff_find {a : Sparse K S} (ha : a.WF) : a.ZeroFree C ↔ ∀ k v, Sparse.find a.entries k = some v → C.eq v C.zero = false :=
  ⟨fun h k v hv => find_of_zeroFree C h k v hv, zeroFree_of_find C ha⟩

theorem zeroFree_map {a : Sparse K S} (ha : a.WF) (f : S → S) :
    Sparse.ZeroFree C (⟨a.entries.map fun e => (e.1, f e.2)⟩ : Sparse K S) ↔ ∀ k v, Sparse.find a.entries k = some v → C.eq (f v) C.zero = false := by
  rw [zeroFree_iff_find C (Sparse.noDup_map ha f)]
  constructor
  · intro h k v hv
    exact h k (f v) (by rw [Sparse.find_map, hv]; rfl)
  · intro h k v hv
    rw [Sparse.find_map] at hv
    cases hf : Sparse.find a.entries k with
    | none => rw [hf] at hv; cases hv
    | some x =>
      rw [hf] at hv
      cases hv
      exact h k x hf

/-- C27, exactly when the vector operations leave no explicit zeros, for every coefficient type: a sum, if neither operand stores a zero at a key that
the other does not store; a difference likewise, with the negated entries of the subtrahend; a negation, a product and a quotient, if no negated, multiplied
or divided entry compares equal to zero; a product by zero always. -/
theorem C27_vector_ops_iff_partial (a o : Sparse K S) (ha : a.WF) (ho : o.WF) (s : S) (t : R) :
    ∃ ra rs n m d, (Sparse.ops C).addInplace a o = .ok ra ∧ (Sparse.ops C).subInplace a o = .ok rs ∧ (Sparse.ops C).uminusInplace a = .ok n ∧
      (Sparse.ops C).scalarLmultiplyInplace a s = .ok m ∧ (Sparse.ops C).scalarRdivideInplace a t = .ok d ∧
      (ra.ZeroFree C ↔ ∀ k v, ((Sparse.ops C).get a k = .ok (some v) → (Sparse.ops C).get o k = .ok none → C.eq v C.zero = false) ∧
        ((Sparse.ops C).get a k = .ok none → (Sparse.ops C).get o k = .ok (some v) → C.eq v C.zero = false)) ∧
      (rs.ZeroFree C ↔ ∀ k v, ((Sparse.ops C).get a k = .ok (some v) → (Sparse.ops C).get o k = .ok none → C.eq v C.zero = false) ∧
        ((Sparse.ops C).get a k = .ok none → (Sparse.ops C).get o k = .ok (some v) → C.eq (C.uminus v) C.zero = false)) ∧
      (n.ZeroFree C ↔ ∀ k v, (Sparse.ops C).get a k = .ok (some v) → C.eq (C.uminus v) C.zero = false) ∧
      (m.ZeroFree C ↔ C.eq s C.zero = true ∨ ∀ k v, (Sparse.ops C).get a k = .ok (some v) → C.eq (C.mul v s) C.zero = false) ∧
      (d.ZeroFree C ↔ ∀ k v, (Sparse.ops C).get a k = .ok (some v) → C.eq (C.div v t) C.zero = false) := by
  have hget : ∀ (x : Sparse K S) k y, (Sparse.ops C).get x k = .ok y ↔ Sparse.find x.entries k = y :=
    fun x k y => ⟨fun h => Res.ok.inj h, fun h => congrArg Res.ok h⟩
  simp only [hget]
  obtain ⟨ra, rs, h1, h2, h3⟩ := C26_add_sub C a o ho
  have hwa : ra.WF := by cases h1; exact Sparse.noDup_foldl _ (fun m e hm => Sparse.noDup_addStep C hm e) _ _ ha
  have hws : rs.WF := by cases h2; exact Sparse.noDup_foldl _ (fun m e hm => Sparse.noDup_subStep C hm e) _ _ ha
  have key : ∀ (r : Sparse K S) (f : S → S → S) (g : S → S), r.WF →
      (∀ k, Sparse.find r.entries k = Spec.sparseEntry f g (fun v => C.eq v C.zero) (Sparse.find a.entries k) (Sparse.find o.entries k)) →
      (r.ZeroFree C ↔ ∀ k v, (Sparse.find a.entries k = some v → Sparse.find o.entries k = none → C.eq v C.zero = false) ∧
        (Sparse.find a.entries k = none → Sparse.find o.entries k = some v → C.eq (g v) C.zero = false)) := by
    intro r f g hr he
    rw [zeroFree_iff_find C hr]
    constructor
    · intro h k v
      refine ⟨fun e1 e2 => h k v (by rw [he, e1, e2]; rfl), fun e1 e2 => h k (g v) (by rw [he, e1, e2]; rfl)⟩
    · intro h k v hv
      rw [he] at hv
      cases hf : Sparse.find a.entries k <;> cases hg : Sparse.find o.entries k <;> rw [hf, hg] at hv <;> simp [Spec.sparseEntry] at hv
      · rw [← hv]
        exact (h k _).2 hf hg
      · rw [← hv]
        exact (h k _).1 hf hg
      · rw [← hv.2]
        exact hv.1
  have hmul : ∃ m, (Sparse.ops C).scalarLmultiplyInplace a s = .ok m ∧
      (m.ZeroFree C ↔ C.eq s C.zero = true ∨ ∀ k v, Sparse.find a.entries k = some v → C.eq (C.mul v s) C.zero = false) := by
    show ∃ m, Sparse.scalarLmultiplyInplace C a s = .ok m ∧ _
    unfold Sparse.scalarLmultiplyInplace
    split_ifs with hs
    · exact ⟨_, rfl, by simp [hs, Sparse.ZeroFree]⟩
    · refine ⟨_, rfl, ?_⟩
      rw [zeroFree_map C ha (fun v => C.mul v s)]
      simp [hs]
  obtain ⟨m, hm, hm'⟩ := hmul
  exact ⟨ra, rs, _, m, _, h1, h2, rfl, hm, rfl, key ra C.add id hwa fun k => Res.ok.inj (h3 k _ _ rfl rfl).1,
    key rs C.sub C.uminus hws fun k => Res.ok.inj (h3 k _ _ rfl rfl).2, zeroFree_map C ha C.uminus, hm', zeroFree_map C ha fun v => C.div v t⟩

/-- The operations on whole vectors, with zero-free operands and with divisors in `P`. -/
def SparseOp.Vectorial (P : R → Prop) : SparseOp K S R → Prop
  | .add o | .sub o => o.WF ∧ o.ZeroFree C
  | .div r => P r
  | .addKey _ _ | .subKey _ _ => False
  | _ => True

/-- C27, for which coefficient types histories of operations on whole vectors never leave an explicit zero: exactly those where negations of nonzero
values, products of nonzero values and quotients of nonzero values by the divisors that occur do not compare equal to zero. -/
theorem C27_histories_iff_partial [Nonempty K] (P : R → Prop) :
    (∀ (a : Sparse K S) (ops : List (SparseOp K S R)) (r : Sparse K S), a.WF → a.ZeroFree C → (∀ op ∈ ops, op.Vectorial C P) →
      ops.foldlM (SparseOp.run C) a = .ok r → r.ZeroFree C) ↔
    (∀ x, C.eq x C.zero = false → C.eq (C.uminus x) C.zero = false) ∧
      (∀ x s, C.eq x C.zero = false → C.eq s C.zero = false → C.eq (C.mul x s) C.zero = false) ∧
      ∀ r, P r → ∀ x, C.eq x C.zero = false → C.eq (C.div x r) C.zero = false := by
  have hget : ∀ (x : Sparse K S) k y, (Sparse.ops C).get x k = .ok y ↔ Sparse.find x.entries k = y :=
    fun x k y => ⟨fun h => Res.ok.inj h, fun h => congrArg Res.ok h⟩
  constructor
  · intro h
    obtain ⟨k⟩ := ‹Nonempty K›
    have hx : ∀ x, C.eq x C.zero = false → Sparse.ZeroFree C (⟨[(k, x)]⟩ : Sparse K S) := fun x hx e he => by
      rw [List.mem_singleton.1 he]
      exact hx
    have hw : ∀ x : S, Sparse.WF (⟨[(k, x)]⟩ : Sparse K S) := fun x => by simp [Sparse.WF]
    refine ⟨fun x h1 => ?_, fun x s h1 hs => ?_, fun r hr x h1 => ?_⟩
    · exact h ⟨[(k, x)]⟩ [.uminus] ⟨[(k, C.uminus x)]⟩ (hw x) (hx x h1) (fun op ho => by rw [List.mem_singleton.1 ho]; trivial) rfl (k, C.uminus x) (List.mem_singleton.2 rfl)
    · refine h ⟨[(k, x)]⟩ [.mul s] ⟨[(k, C.mul x s)]⟩ (hw x) (hx x h1) (fun op ho => by rw [List.mem_singleton.1 ho]; trivial) ?_ (k, C.mul x s) (List.mem_singleton.2 rfl)
      show (Sparse.scalarLmultiplyInplace C ⟨[(k, x)]⟩ s >>= fun r => pure r) = _
      unfold Sparse.scalarLmultiplyInplace
      rw [hs]
      rfl
    · exact h ⟨[(k, x)]⟩ [.div r] ⟨[(k, C.div x r)]⟩ (hw x) (hx x h1) (fun op ho => by rw [List.mem_singleton.1 ho]; exact hr) rfl (k, C.div x r)
        (List.mem_singleton.2 rfl)
  · rintro ⟨hn, hm, hd⟩ a ops
    induction ops generalizing a with
    | nil =>
      intro r _ hz _ h
      cases h
      exact hz
    | cons op ops ih =>
      intro r ha hz hops h
      rw [List.foldlM_cons] at h
      have hop := hops op List.mem_cons_self
      have hstep : ∃ a', SparseOp.run C a op = .ok a' ∧ a'.WF ∧ a'.ZeroFree C := by
        cases op with
        | uminus => exact ⟨_, rfl, Sparse.noDup_map ha _, (zeroFree_map C ha C.uminus).2 fun k v hv => hn v (find_of_zeroFree C hz k v hv)⟩
        | add o =>
          obtain ⟨ra, rs, h1, h2, h3⟩ := C26_add_sub C a o hop.1
          have hwa : ra.WF := by cases h1; exact Sparse.noDup_foldl _ (fun m e hm => Sparse.noDup_addStep C hm e) _ _ ha
          refine ⟨ra, h1, hwa, zeroFree_of_find C hwa fun k v hv => ?_⟩
          have e : Sparse.find ra.entries k = _ := Res.ok.inj (h3 k _ _ rfl rfl).1
          rw [e] at hv
          cases hf : Sparse.find a.entries k <;> cases hg : Sparse.find o.entries k <;> rw [hf, hg] at hv <;> simp [Spec.sparseEntry] at hv
          · rw [← hv]
            exact find_of_zeroFree C hop.2 k _ hg
          · rw [← hv]
            exact find_of_zeroFree C hz k _ hf
          · rw [← hv.2]
            exact hv.1
        | sub o =>
          obtain ⟨ra, rs, h1, h2, h3⟩ := C26_add_sub C a o hop.1
          have hws : rs.WF := by cases h2; exact Sparse.noDup_foldl _ (fun m e hm => Sparse.noDup_subStep C hm e) _ _ ha
          refine ⟨rs, h2, hws, zeroFree_of_find C hws fun k v hv => ?_⟩
          have e : Sparse.find rs.entries k = _ := Res.ok.inj (h3 k _ _ rfl rfl).2
          rw [e] at hv
          cases hf : Sparse.find a.entries k <;> cases hg : Sparse.find o.entries k <;> rw [hf, hg] at hv <;> simp [Spec.sparseEntry] at hv
          · rw [← hv]
            exact hn _ (find_of_zeroFree C hop.2 k _ hg)
          · rw [← hv]
            exact find_of_zeroFree C hz k _ hf
          · rw [← hv.2]
            exact hv.1
        | mul s =>
          show ∃ a', Sparse.scalarLmultiplyInplace C a s = .ok a' ∧ _
          unfold Sparse.scalarLmultiplyInplace
          split_ifs with hs
          · exact ⟨_, rfl, List.nodup_nil, by intro e he; cases he⟩
          · exact ⟨_, rfl, Sparse.noDup_map ha fun v => C.mul v s, (zeroFree_map C ha fun v => C.mul v s).2 fun k v hv =>
              hm v s (find_of_zeroFree C hz k v hv) (by simpa using hs)⟩
        | div t => exact ⟨_, rfl, Sparse.noDup_map ha fun v => C.div v t, (zeroFree_map C ha fun v => C.div v t).2 fun k v hv => hd t hop v (find_of_zeroFree C hz k v hv)⟩
        | addKey => exact hop.elim
        | subKey => exact hop.elim
      obtain ⟨a', h1, h2, h3⟩ := hstep
      rw [h1, Res.bind_ok] at h
      exact ih a' r h2 h3 (fun op ho => hops op (List.mem_cons_of_mem _ ho)) h

/-- C27 over commutative rings, without division: exactly the rings without zero divisors. -/
theorem C27_rings_iff_partial [Nonempty K] [CommRing S] (hC : C.IsRing) (hE : C.EqLawful) :
    (∀ (a : Sparse K S) (ops : List (SparseOp K S R)) (r : Sparse K S), a.WF → a.ZeroFree C → (∀ op ∈ ops, op.Vectorial C fun _ => False) →
      ops.foldlM (SparseOp.run C) a = .ok r → r.ZeroFree C) ↔ NoZeroDivisors S := by
  have hne : ∀ v, C.eq v C.zero = false ↔ v ≠ 0 := by
    intro v
    rw [← Bool.not_eq_true, hE, hC.zero]
  rw [C27_histories_iff_partial]
  simp only [hne, hC.uminus, hC.mul, neg_ne_zero]
  constructor
  · rintro ⟨-, h, -⟩
    exact ⟨fun {x y} hxy => by
      by_contra hc
      rw [not_or] at hc
      exact h x y hc.1 hc.2 hxy⟩
  · intro _
    exact ⟨fun _ h => h, fun x s hx hs => mul_ne_zero hx hs, fun _ h => h.elim⟩

/-- The integers. -/
example (r : Sparse Nat Int) (h : [SparseOp.add ⟨[(2, -7), (3, 2)]⟩, .mul 2, .sub ⟨[(1, 10)]⟩].foldlM (SparseOp.run intCoeff) ⟨[(1, 5), (2, 7)]⟩ = .ok r) :
    r.ZeroFree intCoeff := by
  refine (C27_rings_iff_partial (K := Nat) intCoeff intCoeff_isRing intCoeff_eqLawful).2 inferInstance ⟨[(1, 5), (2, 7)]⟩ _ r (by unfold Sparse.WF; decide)
    (by unfold Sparse.ZeroFree; decide) (fun op hop => ?_) h
  simp only [List.mem_cons, List.not_mem_nil, or_false] at hop
  rcases hop with rfl | rfl | rfl
  · exact ⟨by unfold Sparse.WF; decide, by unfold Sparse.ZeroFree; decide⟩
  · trivial
  · exact ⟨by unfold Sparse.WF; decide, by unfold Sparse.ZeroFree; decide⟩

/-- Wrapping integers of eight bits: 16 times 16 is stored as an explicit zero. -/
example : ∃ m, (Sparse.ops (wrapCoeff 8)).scalarLmultiplyInplace (⟨[(1, 16), (2, 3)]⟩ : Sparse Nat (BitVec 8)) 16 = .ok m ∧ ¬ m.ZeroFree (wrapCoeff 8) := by
  obtain ⟨_, _, _, m, _, _, _, _, h, _, _, _, _, hm, _⟩ := C27_vector_ops_iff_partial (wrapCoeff 8) (⟨[(1, 16), (2, 3)]⟩ : Sparse Nat (BitVec 8)) ⟨[]⟩
    (by unfold Sparse.WF; decide) (by unfold Sparse.WF; decide) 16 1
  refine ⟨m, h, fun hz => ?_⟩
  rcases hm.1 hz with h1 | h1
  · exact absurd h1 (by decide)
  · exact absurd (h1 1 16 rfl) (by decide)

/-- Floating-point numbers: half the least positive number rounds to an explicit zero. -/
example : ∃ m, (Sparse.ops (floatCoeff .f64)).scalarLmultiplyInplace (⟨[(1, .fin (1 / 2 ^ 1074))]⟩ : Sparse Nat Fl) (.fin (1 / 2)) = .ok m ∧
    ¬ m.ZeroFree (floatCoeff .f64) := by
  obtain ⟨_, _, _, m, _, _, _, _, h, _, _, _, _, hm, _⟩ := C27_vector_ops_iff_partial (floatCoeff .f64) (⟨[(1, .fin (1 / 2 ^ 1074))]⟩ : Sparse Nat Fl) ⟨[]⟩
    (by unfold Sparse.WF; decide) (by unfold Sparse.WF; decide) (.fin (1 / 2)) (.fin 1)
  refine ⟨m, h, fun hz => ?_⟩
  rcases hm.1 hz with h1 | h1
  · exact absurd h1 (by decide +kernel)
  · exact absurd (h1 1 (.fin (1 / 2 ^ 1074)) rfl) (by decide +kernel)

/-! ## Equality -/

/-- C28, in terms of `get`: the same keys are stored, with values that compare equal. -/
theorem C28_eq_get (a b : Sparse K S) (ha : a.WF) (hb : b.WF) :
    (Sparse.ops C).eq a b = true ↔
      ∀ k, ((Sparse.ops C).get a k = .ok none ∧ (Sparse.ops C).get b k = .ok none) ∨
        ∃ x y, (Sparse.ops C).get a k = .ok (some x) ∧ (Sparse.ops C).get b k = .ok (some y) ∧ C.eq y x = true := by
  have hget : ∀ (x : Sparse K S) k y, (Sparse.ops C).get x k = .ok y ↔ Sparse.find x.entries k = y :=
    fun x k y => ⟨fun h => Res.ok.inj h, fun h => congrArg Res.ok h⟩
  simp only [hget]
  rw [C28_eq_iff C a b ha hb]
  refine forall_congr' fun k => ?_
  cases Sparse.find a.entries k <;> cases Sparse.find b.entries k <;> simp

/-- C28.  A sparse vector equals itself exactly if each of its values does (no NaN among them). -/
theorem C28_eq_refl_iff (a : Sparse K S) (ha : a.WF) : (Sparse.ops C).eq a a = true ↔ ∀ k v, (Sparse.ops C).get a k = .ok (some v) → C.eq v v = true := by
  have hget : ∀ (x : Sparse K S) k y, (Sparse.ops C).get x k = .ok y ↔ Sparse.find x.entries k = y :=
    fun x k y => ⟨fun h => Res.ok.inj h, fun h => congrArg Res.ok h⟩
  simp only [hget]
  rw [C28_eq_iff C a a ha ha]
  refine forall_congr' fun k => ?_
  cases Sparse.find a.entries k <;> simp

/-- C28.  Vectors with the same coefficients compare equal exactly if they store the same keys: only explicit zeros distinguish them. -/
theorem C28_same_coefficients (hE : C.EqLawful) (a b : Sparse K S) (ha : a.WF) (hb : b.WF) (h : ∀ k, a.coef C k = b.coef C k) :
    (Sparse.ops C).eq a b = true ↔ ∀ k, (Sparse.ops C).get a k = .ok none ↔ (Sparse.ops C).get b k = .ok none := by
  have hget : ∀ (x : Sparse K S) k y, (Sparse.ops C).get x k = .ok y ↔ Sparse.find x.entries k = y :=
    fun x k y => ⟨fun h => Res.ok.inj h, fun h => congrArg Res.ok h⟩
  simp only [hget]
  rw [C28_eq_iff C a b ha hb]
  refine forall_congr' fun k => ?_
  have hk := h k
  unfold Sparse.coef at hk
  cases hf : Sparse.find a.entries k <;> cases hg : Sparse.find b.entries k <;> rw [hf, hg] at hk <;> simp
  exact (hE _ _).2 hk.symm

/-- An explicit zero: `{1: 5, 2: 0}` and `{1: 5}` have the same coefficients and differ. -/
example : (Sparse.ops intCoeff).eq (⟨[(1, 5), (2, 0)]⟩ : Sparse Nat Int) ⟨[(1, 5)]⟩ = false := by
  rw [← Bool.not_eq_true, C28_same_coefficients intCoeff intCoeff_eqLawful _ _ (by unfold Sparse.WF; decide) (by unfold Sparse.WF; decide) (fun k => by
    by_cases h1 : k = 1
    · subst h1; rfl
    · by_cases h2 : k = 2
      · subst h2; rfl
      · simp [Sparse.coef, Sparse.find, Ne.symm h1, Ne.symm h2])]
  exact fun h => absurd ((h 2).2 rfl) (by simp [Sparse.ops, Sparse.req, VecReq.full, Sparse.get, Sparse.find])

/-- A NaN. -/
example : (Sparse.ops (floatCoeff .f64)).eq (⟨[(1, .nan)]⟩ : Sparse Nat Fl) ⟨[(1, .nan)]⟩ = false := by
  rw [← Bool.not_eq_true, C28_eq_refl_iff _ _ (by unfold Sparse.WF; decide)]
  exact fun h => absurd (h 1 .nan rfl) (by decide)

example := C28_eq_get intCoeff (⟨[(1, 5), (2, 7)]⟩ : Sparse Nat Int) ⟨[(2, 7), (1, 5)]⟩ (by unfold Sparse.WF; decide) (by unfold Sparse.WF; decide)

end RA
