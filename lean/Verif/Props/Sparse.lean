import Verif.Proofs.Sparse
import Verif.Props.DenseState
import Verif.Model.Deref

/-!
# Properties of the sparse vector (C23, C26-C30), of the key extension (C31, C32) and of wrappers (C42)

`Sparse.ops C` is the `Vector` implementation of `SimpleSparseVector`.  The entry list is in hash-map iteration order, which is arbitrary: the
statements hold for every order.  `WF a` says that no key is stored twice; every operation keeps it (`C26_wf`).
-/

namespace RA
open Spec

section
variable {K S R : Type} [DecidableEq K] (C : Coeff S R)

/-- No key is stored twice. -/
def Sparse.WF (a : Sparse K S) : Prop := (a.entries.map (·.1)).Nodup

/-- The coefficient of a sparse vector at a key: a missing entry counts as zero. -/
def Sparse.coef (a : Sparse K S) (k : K) : S := (Sparse.find a.entries k).getD C.zero

/-! ## C23: insertion (sparse part) -/

/-- C23 holds of the sparse vector. -/
theorem C23_sparse_insert : C23_insert_full (Sparse.ops (K := K) C) := by
  intro d k v
  refine ⟨⟨Sparse.hmInsert d.entries k v⟩, rfl, ?_, ?_⟩
  · show Res.ok (Sparse.find _ k) = _
    rw [Sparse.find_hmInsert, if_pos rfl]
  · intro k' hk
    show Res.ok (Sparse.find _ k') = Res.ok (Sparse.find _ k')
    rw [Sparse.find_hmInsert, if_neg hk]

example : C23_insert_full (Sparse.ops (K := Nat) intCoeff) := C23_sparse_insert intCoeff

/-! ## C26: arithmetic -/

/-- C26, the constructors: `new()` stores nothing, `from_key_scalar(k, s)` stores `s` at `k` and nothing else, and `from_key(k)` stores one there. -/
theorem C26_constructors (k : K) (s : S) :
    (∀ k' : K, (Sparse.ops C).get (Sparse.ops C).new k' = .ok none) ∧
    (∃ a, (Sparse.ops C).fromKeyScalar k s = .ok a ∧ a.WF ∧ ∀ k', (Sparse.ops C).get a k' = .ok (if k' = k then some s else none)) ∧
    (∃ a, (Sparse.ops C).fromKey k = .ok a ∧ a.WF ∧ ∀ k', (Sparse.ops C).get a k' = .ok (if k' = k then some C.one else none)) := by
  have hs : ∀ v : S, ∃ a, Sparse.fromKeyScalar k v = .ok a ∧ a.WF ∧ ∀ k', (Sparse.ops C).get a k' = .ok (if k' = k then some v else none) := by
    intro v
    refine ⟨⟨Sparse.hmInsert [] k v⟩, rfl, Sparse.noDup_hmInsert (m := []) List.nodup_nil _ _, fun k' => ?_⟩
    show Res.ok (Sparse.find _ k') = _
    rw [Sparse.find_hmInsert]
    rfl
  exact ⟨fun _ => rfl, hs s, hs C.one⟩

example : ∃ a : Sparse Nat Int, (Sparse.ops intCoeff).fromKeyScalar 3 5 = .ok a ∧ a.WF ∧
    ∀ k', (Sparse.ops intCoeff).get a k' = .ok (if k' = 3 then some 5 else none) := (C26_constructors intCoeff 3 5).2.1

/-- C26.  Every constructor and every operation keeps "no key twice". -/
theorem C26_wf (a o : Sparse K S) (ha : a.WF) (k : K) (s : S) (r : R) (f : S → S) (items : List (K × S)) :
    (∀ x, (Sparse.ops C).fromKeyScalar k s = .ok x → x.WF) ∧
    (∀ x, (Sparse.ops C).fromIterator items = .ok x → x.WF) ∧
    (∀ x, (Sparse.ops C).clear a = .ok x → x.WF) ∧
    (∀ b x, (Sparse.ops C).getMut a k f = .ok (b, x) → x.WF) ∧
    (∀ x, (Sparse.ops C).insertSingle a k s = .ok x → x.WF) ∧
    (∀ x, (Sparse.ops C).uminusInplace a = .ok x → x.WF) ∧
    (∀ x, (Sparse.ops C).addInplace a o = .ok x → x.WF) ∧
    (∀ x, (Sparse.ops C).subInplace a o = .ok x → x.WF) ∧
    (∀ x, (Sparse.ops C).scalarLmultiplyInplace a s = .ok x → x.WF) ∧
    (∀ x, (Sparse.ops C).scalarRmultiplyInplace a s = .ok x → x.WF) ∧
    (∀ x, (Sparse.ops C).scalarRdivideInplace a r = .ok x → x.WF) ∧
    (∀ x, (Sparse.ops C).scalarLdivideInplace a r = .ok x → x.WF) := by
  have hmul : ∀ x, Sparse.scalarLmultiplyInplace C a s = .ok x → x.WF := by
    intro x h
    unfold Sparse.scalarLmultiplyInplace at h
    split_ifs at h
    · cases h; exact List.nodup_nil
    · cases h; exact Sparse.noDup_map ha (fun v => C.mul v s)
  refine ⟨?_, ?_, ?_, ?_, ?_, ?_, ?_, ?_, hmul, hmul, ?_, ?_⟩
  · intro x h; cases h; exact Sparse.noDup_hmInsert (m := []) List.nodup_nil _ _
  · intro x h; cases h
    exact Sparse.noDup_foldl _ (fun m e hm => Sparse.noDup_hmInsert hm _ _) _ _ List.nodup_nil
  · intro x h; cases h; exact List.nodup_nil
  · intro b x h
    change Sparse.getMut a k f = _ at h
    unfold Sparse.getMut at h
    split_ifs at h
    · cases h; exact Sparse.noDup_modifyAt ha _ _
    · cases h; exact ha
  · intro x h; cases h; exact Sparse.noDup_hmInsert ha _ _
  · intro x h; cases h; exact Sparse.noDup_map ha _
  · intro x h; cases h; exact Sparse.noDup_foldl _ (fun m e hm => Sparse.noDup_addStep C hm e) _ _ ha
  · intro x h; cases h; exact Sparse.noDup_foldl _ (fun m e hm => Sparse.noDup_subStep C hm e) _ _ ha
  · intro x h; cases h; exact Sparse.noDup_map ha (fun v => C.div v r)
  · intro x h; cases h; exact Sparse.noDup_map ha (fun v => C.div v r)

example := C26_wf intCoeff (⟨[(1, 5), (2, 7)]⟩ : Sparse Nat Int) ⟨[(3, 4), (2, -7)]⟩ (by unfold Sparse.WF; decide) 4 9 2 (· + 1) [(1, 2), (1, 3)]

/-- Entry of `a += o`: a key missing from `o` is untouched, a key missing from `a` is copied, otherwise the sum, dropped when it is zero. -/
def Spec.sparseEntry (f : S → S → S) (g : S → S) (isZero : S → Bool) : Option S → Option S → Option S
  | x, none => x
  | none, some v => some (g v)
  | some i, some v => if isZero (f i v) then none else some (f i v)

/-- C26.  `add_inplace` and `sub_inplace`, exactly, for every order of the operand's entries and without laws on the coefficients. -/
theorem C26_add_sub (a o : Sparse K S) (ho : o.WF) :
    ∃ ra rs, (Sparse.ops C).addInplace a o = .ok ra ∧ (Sparse.ops C).subInplace a o = .ok rs ∧
      ∀ k x y, (Sparse.ops C).get a k = .ok x → (Sparse.ops C).get o k = .ok y →
        (Sparse.ops C).get ra k = .ok (Spec.sparseEntry C.add id (fun v => C.eq v C.zero) x y) ∧
        (Sparse.ops C).get rs k = .ok (Spec.sparseEntry C.sub C.uminus (fun v => C.eq v C.zero) x y) := by
  refine ⟨_, _, rfl, rfl, ?_⟩
  intro k x y hx hy
  cases hx
  cases hy
  have hm : ∀ f g z (x y : Option S), Sparse.mergeEntry f g z x y = Spec.sparseEntry f g z x y := by
    intro f g z x y
    cases x <;> cases y <;> rfl
  constructor
  · refine congrArg Res.ok ?_
    rw [Sparse.foldl_find (Sparse.addStep C) (Sparse.mergeEntry C.add id fun x => C.eq x C.zero) (by intro x; cases x <;> rfl)
      (Sparse.addStep_find C) o.entries ho, hm]
  · refine congrArg Res.ok ?_
    rw [Sparse.foldl_find (Sparse.subStep C) (Sparse.mergeEntry C.sub C.uminus fun x => C.eq x C.zero) (by intro x; cases x <;> rfl)
      (Sparse.subStep_find C) o.entries ho, hm]

example := C26_add_sub intCoeff (⟨[(1, 5), (2, 7)]⟩ : Sparse Nat Int) ⟨[(3, 4), (2, -7)]⟩ (by unfold Sparse.WF; decide)

/-- C26.  The iteration order of the operand is irrelevant: reordering it does not change any entry of the result. -/
theorem C26_order_irrelevant (a o o' : Sparse K S) (ho : o.WF) (hp : o.entries.Perm o'.entries) :
    ∃ ra ra' rs rs', (Sparse.ops C).addInplace a o = .ok ra ∧ (Sparse.ops C).addInplace a o' = .ok ra' ∧
      (Sparse.ops C).subInplace a o = .ok rs ∧ (Sparse.ops C).subInplace a o' = .ok rs' ∧
      ∀ k, (Sparse.ops C).get ra k = (Sparse.ops C).get ra' k ∧ (Sparse.ops C).get rs k = (Sparse.ops C).get rs' k := by
  have ho' : o'.WF := (hp.map Prod.fst).nodup_iff.1 ho
  have hfind : ∀ k, Sparse.find o.entries k = Sparse.find o'.entries k := by
    intro k
    cases h : Sparse.find o.entries k with
    | none =>
      symm
      rw [Sparse.find_eq_none] at h ⊢
      exact fun hk => h ((hp.map (·.1)).mem_iff.2 hk)
    | some v => exact (Sparse.find_of_mem ho' (hp.mem_iff.1 (Sparse.mem_of_find h))).symm
  obtain ⟨ra, rs, h1, h2, h3⟩ := C26_add_sub C a o ho
  obtain ⟨ra', rs', h1', h2', h3'⟩ := C26_add_sub C a o' ho'
  refine ⟨ra, ra', rs, rs', h1, h1', h2, h2', fun k => ?_⟩
  have e1 := h3 k _ _ rfl rfl
  have e2 := h3' k _ _ rfl rfl
  rw [e1.1, e1.2, e2.1, e2.2, hfind]
  exact ⟨rfl, rfl⟩

example := C26_order_irrelevant intCoeff (⟨[(1, 5), (2, 7)]⟩ : Sparse Nat Int) ⟨[(3, 4), (2, -7)]⟩ ⟨[(2, -7), (3, 4)]⟩ (by unfold Sparse.WF; decide)
  (List.Perm.swap _ _ _)

/-- C26.  Negation and the scalar operations, exactly.  A scalar equal to zero empties the vector. -/
theorem C26_scalar (a : Sparse K S) (s : S) (r : R) :
    ∃ n m d, (Sparse.ops C).uminusInplace a = .ok n ∧ (Sparse.ops C).scalarLmultiplyInplace a s = .ok m ∧
      (Sparse.ops C).scalarRmultiplyInplace a s = .ok m ∧ (Sparse.ops C).scalarRdivideInplace a r = .ok d ∧
      (Sparse.ops C).scalarLdivideInplace a r = .ok d ∧
      ∀ k x, (Sparse.ops C).get a k = .ok x →
        (Sparse.ops C).get n k = .ok (x.map C.uminus) ∧
        (Sparse.ops C).get m k = .ok (if C.eq s C.zero then none else x.map fun v => C.mul v s) ∧
        (Sparse.ops C).get d k = .ok (x.map fun v => C.div v r) := by
  have hm : ∃ m, Sparse.scalarLmultiplyInplace C a s = .ok m ∧
      ∀ k, Sparse.find m.entries k = if C.eq s C.zero then none else (Sparse.find a.entries k).map fun v => C.mul v s := by
    unfold Sparse.scalarLmultiplyInplace
    split_ifs
    · exact ⟨_, rfl, fun k => rfl⟩
    · exact ⟨_, rfl, fun k => Sparse.find_map a.entries (fun v => C.mul v s) k⟩
  obtain ⟨m, hm1, hm2⟩ := hm
  refine ⟨_, m, _, rfl, hm1, hm1, rfl, rfl, ?_⟩
  intro k x hx
  cases hx
  exact ⟨congrArg Res.ok (Sparse.find_map _ _ _), congrArg Res.ok (hm2 k), congrArg Res.ok (Sparse.find_map _ (fun v => C.div v r) _)⟩

example := C26_scalar intCoeff (⟨[(1, 5), (2, 7)]⟩ : Sparse Nat Int) 3 2

/-- C26.  Over exact coefficients all of these are the pointwise operations on coefficient functions. -/
theorem C26_coefficients [CommRing S] (hC : C.IsRing) (hE : C.EqLawful) (a o : Sparse K S) (ho : o.WF) (s : S) :
    ∃ ra rs n m, (Sparse.ops C).addInplace a o = .ok ra ∧ (Sparse.ops C).subInplace a o = .ok rs ∧
      (Sparse.ops C).uminusInplace a = .ok n ∧ (Sparse.ops C).scalarLmultiplyInplace a s = .ok m ∧
      ∀ k, ra.coef C k = a.coef C k + o.coef C k ∧ rs.coef C k = a.coef C k - o.coef C k ∧ n.coef C k = - a.coef C k ∧
        m.coef C k = a.coef C k * s := by
  obtain ⟨ra, rs, h1, h2, h3⟩ := C26_add_sub C a o ho
  obtain ⟨m, hm, hmk⟩ : ∃ m, (Sparse.ops C).scalarLmultiplyInplace a s = .ok m ∧ ∀ k, (Sparse.ops C).get m k =
      .ok (if C.eq s C.zero then none else (Sparse.find a.entries k).map fun v => C.mul v s) := by
    unfold Sparse.ops VecReq.full Sparse.req Sparse.scalarLmultiplyInplace
    simp only
    split_ifs
    · exact ⟨_, rfl, fun k => rfl⟩
    · exact ⟨_, rfl, fun k => congrArg Res.ok (Sparse.find_map a.entries (fun v => C.mul v s) k)⟩
  refine ⟨ra, rs, _, m, h1, h2, rfl, hm, fun k => ?_⟩
  obtain ⟨e1, e2⟩ := h3 k _ _ rfl rfl
  have e1' : Sparse.find ra.entries k = _ := Res.ok.inj e1
  have e2' : Sparse.find rs.entries k = _ := Res.ok.inj e2
  have e3' : Sparse.find m.entries k = _ := Res.ok.inj (hmk k)
  refine ⟨?_, ?_, ?_, ?_⟩
  · unfold Sparse.coef
    rw [e1']
    cases Sparse.find a.entries k <;> cases Sparse.find o.entries k <;> simp [Spec.sparseEntry, hC.zero, hC.add]
    split_ifs with hz
    · rw [hE] at hz; simp [hz]
    · rfl
  · unfold Sparse.coef
    rw [e2']
    cases Sparse.find a.entries k <;> cases Sparse.find o.entries k <;> simp [Spec.sparseEntry, hC.zero, hC.sub, hC.uminus]
    split_ifs with hz
    · rw [hE] at hz; simp [hz]
    · rfl
  · unfold Sparse.coef
    rw [Sparse.find_map a.entries C.uminus k]
    cases Sparse.find a.entries k <;> simp [hC.uminus, hC.zero]
  · unfold Sparse.coef
    rw [e3']
    split_ifs with hz
    · rw [hE, hC.zero] at hz; simp [hz, hC.zero]
    · cases Sparse.find a.entries k <;> simp [hC.mul, hC.zero]

example := C26_coefficients intCoeff intCoeff_isRing intCoeff_eqLawful (⟨[(1, 5), (2, 7)]⟩ : Sparse Nat Int) ⟨[(3, 4), (2, -7)]⟩
  (by unfold Sparse.WF; decide) 3

example : (Sparse.ops intCoeff).addInplace (⟨[(1, 5), (2, 7)]⟩ : Sparse Nat Int) ⟨[(3, 4), (2, -7), (1, 1)]⟩ = .ok ⟨[(1, 6), (3, 4)]⟩ ∧
    (⟨[(3, 4), (2, -7), (1, 1)]⟩ : Sparse Nat Int).WF := by
  refine ⟨by decide +kernel, ?_⟩
  unfold Sparse.WF
  decide

/-! ## C27: no explicit zeros -/

/-- No stored coefficient compares equal to zero. -/
def Sparse.ZeroFree (a : Sparse K S) : Prop := ∀ e ∈ a.entries, C.eq e.2 C.zero = false

/-- The in-place operations on sparse vectors. -/
inductive SparseOp (K S R : Type) where
  | uminus
  | add (o : Sparse K S)
  | sub (o : Sparse K S)
  | mul (s : S)
  | div (r : R)
  | addKey (k : K) (s : S)
  | subKey (k : K) (s : S)

/-- Apply one of them. -/
def SparseOp.run (a : Sparse K S) : SparseOp K S R → Res (Sparse K S)
  | .uminus => (Sparse.ops C).uminusInplace a
  | .add o => (Sparse.ops C).addInplace a o
  | .sub o => (Sparse.ops C).subInplace a o
  | .mul s => (Sparse.ops C).scalarLmultiplyInplace a s
  | .div r => (Sparse.ops C).scalarRdivideInplace a r
  | .addKey k s => KeyExt.addScalarMultiply C (Sparse.ops C) a k s
  | .subKey k s => KeyExt.subScalarMultiply C (Sparse.ops C) a k s

/-- C27, full statement: histories of in-place operations with zero-free operands and nonzero scalars stay zero-free. -/
def C27_zero_free_full (K : Type) [DecidableEq K] : Prop :=
  ∀ (a : Sparse K S) (ops : List (SparseOp K S R)) (r : Sparse K S), a.WF → a.ZeroFree C →
    (∀ op ∈ ops, match op with
      | .add o | .sub o => o.WF ∧ o.ZeroFree C
      | .mul s | .addKey _ s | .subKey _ s => C.eq s C.zero = false
      | _ => True) →
    ops.foldlM (SparseOp.run C) a = .ok r → r.ZeroFree C

/-- C27 is false over every nontrivial commutative ring: adding and subtracting the same basis key leaves an explicit zero. -/
theorem C27_zero_free_refuted [CommRing S] [Nontrivial S] (hC : C.IsRing) (hE : C.EqLawful) (k : K) : ¬ C27_zero_free_full C K := by
  intro h
  have h10 : C.eq C.one C.zero = false := by
    rw [← Bool.not_eq_true, hE, hC.one, hC.zero]
    exact one_ne_zero
  have := h ⟨[]⟩ [.addKey k C.one, .subKey k C.one] ⟨[(k, C.sub C.one C.one)]⟩ (by simp [Sparse.WF]) (by intro e he; cases he)
    (by
      intro op hop
      simp only [List.mem_cons, List.not_mem_nil, or_false] at hop
      rcases hop with rfl | rfl <;> exact h10)
    (by
      simp [List.foldlM, SparseOp.run, KeyExt.addScalarMultiply, KeyExt.subScalarMultiply, Sparse.ops, Sparse.req, VecReq.full,
        Sparse.getMut, Sparse.find, Sparse.insertSingle, Sparse.hmInsert, Sparse.modifyAt])
  have h2 := this (k, C.sub C.one C.one) (by simp)
  rw [← Bool.not_eq_true, hE, hC.sub, hC.zero] at h2
  exact h2 (sub_self _)

example : ¬ C27_zero_free_full intCoeff Nat := C27_zero_free_refuted intCoeff intCoeff_isRing intCoeff_eqLawful 4

/-- C27, constructors: `from_key_scalar(k, 0)` stores an explicit zero. -/
theorem C27_from_key_scalar_zero_refuted (hE : C.EqLawful) (k : K) :
    ∃ r, (Sparse.ops C).fromKeyScalar k C.zero = .ok r ∧ ¬ r.ZeroFree C := by
  refine ⟨⟨[(k, C.zero)]⟩, rfl, ?_⟩
  intro h
  have := h (k, C.zero) (by simp)
  rw [← Bool.not_eq_true, hE] at this
  exact this rfl

example := C27_from_key_scalar_zero_refuted intCoeff intCoeff_eqLawful 4

/-- C27, an operand with an explicit zero transmits it: `new() += from_key_scalar(k, 0)`. -/
theorem C27_add_transmits_zero_refuted (hE : C.EqLawful) (k : K) :
    ∃ o r, (Sparse.ops C).fromKeyScalar k C.zero = .ok o ∧ (Sparse.ops C).addInplace (Sparse.ops C).new o = .ok r ∧ ¬ r.ZeroFree C := by
  refine ⟨⟨[(k, C.zero)]⟩, ⟨[(k, C.zero)]⟩, rfl, by simp [Sparse.ops, Sparse.req, VecReq.full, Sparse.addInplace, Sparse.new,
    Sparse.addStep, Sparse.find, Sparse.hmInsert], ?_⟩
  intro h
  have := h (k, C.zero) (by simp)
  rw [← Bool.not_eq_true, hE] at this
  exact this rfl

example := C27_add_transmits_zero_refuted intCoeff intCoeff_eqLawful 4

theorem zeroFree_of_find {a : Sparse K S} (ha : a.WF) (h : ∀ k v, Sparse.find a.entries k = some v → C.eq v C.zero = false) :
    a.ZeroFree C := by
  rintro ⟨k, v⟩ he
  exact h k v (Sparse.find_of_mem ha he)

theorem find_of_zeroFree {a : Sparse K S} (h : a.ZeroFree C) (k : K) (v : S) (hv : Sparse.find a.entries k = some v) :
    C.eq v C.zero = false := h (k, v) (Sparse.mem_of_find hv)

/-- C27, the part that holds: over a field, the vector-level operations (negation, addition, subtraction, scaling, division by a nonzero scalar) with
zero-free operands.  Missing: the basis-key operations (see the refutation), operands or constructors holding explicit zeros, and
coefficient types where a product of nonzero values can compare equal to zero (floating-point underflow). -/
theorem C27_zero_free_partial [Field S] (C : Coeff S S) (hC : C.IsField) (hE : C.EqLawful) (a : Sparse K S) (ops : List (SparseOp K S S))
    (r : Sparse K S) (ha : a.WF) (hz : a.ZeroFree C)
    (hops : ∀ op ∈ ops, match op with
      | .add o | .sub o => o.WF ∧ o.ZeroFree C
      | .div s => s ≠ 0
      | .addKey _ _ | .subKey _ _ => False
      | _ => True)
    (h : ops.foldlM (SparseOp.run C) a = .ok r) : r.WF ∧ r.ZeroFree C := by
  have hne : ∀ v, C.eq v C.zero = false ↔ v ≠ 0 := by
    intro v; rw [← Bool.not_eq_true, hE, hC.zero]
  induction ops generalizing a with
  | nil => cases h; exact ⟨ha, hz⟩
  | cons op ops ih =>
    rw [List.foldlM_cons] at h
    have hop := hops op (by simp)
    have hstep : ∃ a', SparseOp.run C a op = .ok a' ∧ a'.WF ∧ a'.ZeroFree C := by
      cases op with
      | uminus =>
        refine ⟨_, rfl, Sparse.noDup_map ha _, zeroFree_of_find C (Sparse.noDup_map ha _) ?_⟩
        intro k v hv
        rw [Sparse.find_map] at hv
        cases hf : Sparse.find a.entries k with
        | none => rw [hf] at hv; cases hv
        | some x =>
          rw [hf] at hv
          injection hv with hv
          have := (hne x).1 (find_of_zeroFree C hz k x hf)
          rw [← hv, hne, hC.uminus]
          exact neg_ne_zero.2 this
      | add o =>
        obtain ⟨ra, rs, h1, h2, h3⟩ := C26_add_sub C a o hop.1
        have hw : ra.WF := by cases h1; exact Sparse.noDup_foldl _ (fun m e hm => Sparse.noDup_addStep C hm e) _ _ ha
        refine ⟨ra, h1, hw, zeroFree_of_find C hw ?_⟩
        intro k v hv
        have e : Sparse.find ra.entries k = _ := Res.ok.inj (h3 k _ _ rfl rfl).1
        rw [e] at hv
        cases hf : Sparse.find a.entries k <;> cases hg : Sparse.find o.entries k <;> rw [hf, hg] at hv <;>
          simp [Spec.sparseEntry] at hv
        · subst hv; exact find_of_zeroFree C hop.2 k _ hg
        · subst hv; exact find_of_zeroFree C hz k _ hf
        · rw [← hv.2]
          exact hv.1
      | sub o =>
        obtain ⟨ra, rs, h1, h2, h3⟩ := C26_add_sub C a o hop.1
        have hw : rs.WF := by cases h2; exact Sparse.noDup_foldl _ (fun m e hm => Sparse.noDup_subStep C hm e) _ _ ha
        refine ⟨rs, h2, hw, zeroFree_of_find C hw ?_⟩
        intro k v hv
        have e : Sparse.find rs.entries k = _ := Res.ok.inj (h3 k _ _ rfl rfl).2
        rw [e] at hv
        cases hf : Sparse.find a.entries k <;> cases hg : Sparse.find o.entries k <;> rw [hf, hg] at hv <;>
          simp [Spec.sparseEntry] at hv
        · have := (hne _).1 (find_of_zeroFree C hop.2 k _ hg)
          rw [← hv, hne, hC.uminus]
          exact neg_ne_zero.2 this
        · subst hv; exact find_of_zeroFree C hz k _ hf
        · rw [← hv.2]
          exact hv.1
      | mul s =>
        show ∃ a', Sparse.scalarLmultiplyInplace C a s = .ok a' ∧ _
        unfold Sparse.scalarLmultiplyInplace
        split_ifs with hs
        · exact ⟨_, rfl, List.nodup_nil, by intro e he; cases he⟩
        · refine ⟨_, rfl, Sparse.noDup_map ha (fun v => C.mul v s), zeroFree_of_find C (Sparse.noDup_map ha (fun v => C.mul v s)) ?_⟩
          intro k v hv
          rw [show Sparse.find _ k = _ from Sparse.find_map a.entries (fun v => C.mul v s) k] at hv
          cases hf : Sparse.find a.entries k with
          | none => rw [hf] at hv; cases hv
          | some x =>
            rw [hf] at hv
            injection hv with hv
            have := (hne x).1 (find_of_zeroFree C hz k x hf)
            rw [← hv, hne]
            show C.mul x s ≠ 0
            rw [hC.mul]
            exact mul_ne_zero this ((hne s).1 (by simpa using hs))
      | div s =>
        refine ⟨_, rfl, Sparse.noDup_map ha (fun v => C.div v s), zeroFree_of_find C (Sparse.noDup_map ha (fun v => C.div v s)) ?_⟩
        intro k v hv
        rw [show Sparse.find _ k = _ from Sparse.find_map a.entries (fun v => C.div v s) k] at hv
        cases hf : Sparse.find a.entries k with
        | none => rw [hf] at hv; cases hv
        | some x =>
          rw [hf] at hv
          injection hv with hv
          have := (hne x).1 (find_of_zeroFree C hz k x hf)
          rw [← hv, hne]
          show C.div x s ≠ 0
          rw [hC.div]
          exact div_ne_zero this hop
      | addKey k s => exact hop.elim
      | subKey k s => exact hop.elim
    obtain ⟨a', h1, h2, h3⟩ := hstep
    rw [h1, Res.bind_ok] at h
    exact ih a' h2 h3 (fun op ho => hops op (by simp [ho])) h

example (r : Sparse Nat ℚ)
    (h : [SparseOp.add ⟨[(2, -7), (3, 2)]⟩, .mul 2, .div 4].foldlM (SparseOp.run (fieldCoeff ℚ)) ⟨[(1, 5), (2, 7)]⟩ = .ok r) :
    r.WF ∧ r.ZeroFree (fieldCoeff ℚ) := by
  refine C27_zero_free_partial (fieldCoeff ℚ) (fieldCoeff_isField ℚ) (fieldCoeff_eqLawful ℚ) ⟨[(1, 5), (2, 7)]⟩ _ r (by unfold Sparse.WF; decide) ?_ ?_ h
  · intro e he
    simp only [List.mem_cons, List.not_mem_nil, or_false] at he
    rcases he with rfl | rfl <;> decide +kernel
  · intro op hop
    simp only [List.mem_cons, List.not_mem_nil, or_false] at hop
    rcases hop with rfl | rfl | rfl
    · refine ⟨by unfold Sparse.WF; decide, ?_⟩
      intro e he
      simp only [List.mem_cons, List.not_mem_nil, or_false] at he
      rcases he with rfl | rfl <;> decide +kernel
    · trivial
    · norm_num

example : (⟨[(1, 5), (2, 7)]⟩ : Sparse Nat ℚ).ZeroFree (fieldCoeff ℚ) ∧
    [SparseOp.add ⟨[(2, -7), (3, 2)]⟩, .mul 2, .div 4].foldlM (SparseOp.run (fieldCoeff ℚ)) ⟨[(1, 5), (2, 7)]⟩ =
      .ok (⟨[(1, 5 / 2), (3, 1)]⟩ : Sparse Nat ℚ) := by
  refine ⟨?_, by decide +kernel⟩
  intro e he
  simp only [List.mem_cons, List.not_mem_nil, or_false] at he
  rcases he with rfl | rfl <;> decide +kernel

/-! ## C28: equality -/

/-- C28.  `a == b` exactly when both store the same keys with equal values. -/
theorem C28_eq_iff (a b : Sparse K S) (ha : a.WF) (hb : b.WF) :
    (Sparse.ops C).eq a b = true ↔
      ∀ k, match Sparse.find a.entries k, Sparse.find b.entries k with
        | none, none => True
        | some x, some y => C.eq y x = true
        | _, _ => False := by
  show Sparse.eq C a b = true ↔ _
  have hall : (∀ e ∈ a.entries, (match Sparse.find b.entries e.1 with | some v1 => C.eq v1 e.2 | none => false) = true) ↔
      ∀ k x, Sparse.find a.entries k = some x → ∃ y, Sparse.find b.entries k = some y ∧ C.eq y x = true := by
    constructor
    · intro h k x hx
      have := h (k, x) (Sparse.mem_of_find hx)
      simp only at this
      cases hf : Sparse.find b.entries k with
      | none => rw [hf] at this; cases this
      | some y => rw [hf] at this; exact ⟨y, rfl, this⟩
    · rintro h ⟨k, x⟩ he
      obtain ⟨y, h1, h2⟩ := h k x (Sparse.find_of_mem ha he)
      simp only [h1, h2]
  have hlen : ∀ m : Sparse K S, (m.entries.map (·.1)).length = m.entries.length := fun m => List.length_map _
  unfold Sparse.eq
  constructor
  · intro h
    split_ifs at h with hl
    rw [List.all_eq_true] at h
    have hl' : a.entries.length = b.entries.length := by simpa using hl
    have h' := hall.1 h
    have hsub : (a.entries.map (·.1)) ⊆ (b.entries.map (·.1)) := by
      intro k hk
      obtain ⟨x, hx⟩ := Option.isSome_iff_exists.1 (Sparse.find_isSome.2 hk)
      obtain ⟨y, hy, _⟩ := h' k x hx
      exact Sparse.find_isSome.1 (by rw [hy]; rfl)
    have hperm : (a.entries.map (·.1)).Perm (b.entries.map (·.1)) :=
      (List.subperm_of_subset ha hsub).perm_of_length_le (by rw [hlen, hlen]; omega)
    intro k
    cases hfa : Sparse.find a.entries k with
    | none =>
      have : Sparse.find b.entries k = none := by
        rw [Sparse.find_eq_none] at hfa ⊢
        exact fun hk => hfa (hperm.mem_iff.2 hk)
      rw [this]
      trivial
    | some x =>
      obtain ⟨y, hy, he⟩ := h' k x hfa
      rw [hy]
      exact he
  · intro h
    have hk : ∀ k, k ∈ a.entries.map (·.1) ↔ k ∈ b.entries.map (·.1) := by
      intro k
      have := h k
      rw [← Sparse.find_isSome, ← Sparse.find_isSome]
      cases hfa : Sparse.find a.entries k <;> cases hfb : Sparse.find b.entries k <;> rw [hfa, hfb] at this <;> simp_all
    have hperm : (a.entries.map (·.1)).Perm (b.entries.map (·.1)) := (List.perm_ext_iff_of_nodup ha hb).2 hk
    have hl := hperm.length_eq
    rw [hlen, hlen] at hl
    rw [if_neg (by simpa using hl), List.all_eq_true]
    refine hall.2 ?_
    intro k x hx
    have := h k
    rw [hx] at this
    cases hfb : Sparse.find b.entries k with
    | none => rw [hfb] at this; exact this.elim
    | some y => rw [hfb] at this; exact ⟨y, rfl, this⟩

example := (C28_eq_iff intCoeff (⟨[(1, 5), (2, 7)]⟩ : Sparse Nat Int) ⟨[(2, 7), (1, 5)]⟩ (by unfold Sparse.WF; decide)
  (by unfold Sparse.WF; decide)).mp (by decide +kernel)

/-- C28.  It is symmetric whenever the coefficients' `==` is. -/
theorem C28_eq_symm (hs : ∀ x y, C.eq x y = true → C.eq y x = true) (a b : Sparse K S) (ha : a.WF) (hb : b.WF)
    (h : (Sparse.ops C).eq a b = true) : (Sparse.ops C).eq b a = true := by
  rw [C28_eq_iff C _ _ ha hb] at h
  rw [C28_eq_iff C _ _ hb ha]
  intro k
  have := h k
  cases hfa : Sparse.find a.entries k <;> cases hfb : Sparse.find b.entries k <;> rw [hfa, hfb] at this <;> simp_all

example : (Sparse.ops intCoeff).eq (⟨[(2, 7), (1, 5)]⟩ : Sparse Nat Int) ⟨[(1, 5), (2, 7)]⟩ = true :=
  C28_eq_symm intCoeff (fun x y h => by simpa [intCoeff, eq_comm] using h) ⟨[(1, 5), (2, 7)]⟩ ⟨[(2, 7), (1, 5)]⟩ (by unfold Sparse.WF; decide)
    (by unfold Sparse.WF; decide) (by decide +kernel)

/-- C28.  Transitive when the coefficients' `==` is. -/
theorem C28_eq_trans (ht : ∀ x y z, C.eq x y = true → C.eq y z = true → C.eq x z = true) (a b c : Sparse K S) (ha : a.WF) (hb : b.WF)
    (hc : c.WF) (h : (Sparse.ops C).eq a b = true) (h' : (Sparse.ops C).eq b c = true) : (Sparse.ops C).eq a c = true := by
  rw [C28_eq_iff C _ _ ha hb] at h
  rw [C28_eq_iff C _ _ hb hc] at h'
  rw [C28_eq_iff C _ _ ha hc]
  intro k
  have h1 := h k
  have h2 := h' k
  cases hfa : Sparse.find a.entries k <;> cases hfb : Sparse.find b.entries k <;> cases hfc : Sparse.find c.entries k <;>
    rw [hfa, hfb] at h1 <;> rw [hfb, hfc] at h2 <;> simp_all
  exact ht _ _ _ h2 h1

example : (Sparse.ops intCoeff).eq (⟨[(2, 7), (1, 5)]⟩ : Sparse Nat Int) ⟨[(2, 7), (1, 5)]⟩ = true :=
  C28_eq_trans intCoeff (fun x y z h h' => by simp [intCoeff] at *; omega) ⟨[(2, 7), (1, 5)]⟩ ⟨[(1, 5), (2, 7)]⟩ ⟨[(2, 7), (1, 5)]⟩
    (by unfold Sparse.WF; decide) (by unfold Sparse.WF; decide) (by unfold Sparse.WF; decide) (by decide +kernel) (by decide +kernel)

/-- C28.  For zero-free vectors over coefficients with lawful `==` it is equality of coefficient functions. -/
theorem C28_eq_zero_free (hE : C.EqLawful) (a b : Sparse K S) (ha : a.WF) (hb : b.WF) (hza : a.ZeroFree C) (hzb : b.ZeroFree C) :
    (Sparse.ops C).eq a b = true ↔ ∀ k, a.coef C k = b.coef C k := by
  rw [C28_eq_iff C _ _ ha hb]
  have hz : ∀ v, C.eq v C.zero = false → v ≠ C.zero := by
    intro v h hv
    rw [← Bool.not_eq_true, hE] at h
    exact h hv
  refine forall_congr' fun k => ?_
  unfold Sparse.coef
  cases hfa : Sparse.find a.entries k with
  | none =>
    cases hfb : Sparse.find b.entries k with
    | none => simp
    | some y =>
      have := hz y (find_of_zeroFree C hzb k y hfb)
      simp only [Option.getD_none, Option.getD_some, false_iff]
      exact fun h => this h.symm
  | some x =>
    cases hfb : Sparse.find b.entries k with
    | none =>
      have := hz x (find_of_zeroFree C hza k x hfa)
      simp only [Option.getD_none, Option.getD_some, false_iff]
      exact this
    | some y =>
      simp only [Option.getD_some]
      exact (hE y x).trans eq_comm

example : ∀ k, (⟨[(1, 5), (2, 7)]⟩ : Sparse Nat Int).coef intCoeff k = (⟨[(2, 7), (1, 5)]⟩ : Sparse Nat Int).coef intCoeff k := by
  refine (C28_eq_zero_free intCoeff intCoeff_eqLawful ⟨[(1, 5), (2, 7)]⟩ ⟨[(2, 7), (1, 5)]⟩ (by unfold Sparse.WF; decide)
    (by unfold Sparse.WF; decide) ?_ ?_).mp (by decide +kernel)
  all_goals
    intro e he
    simp only [List.mem_cons, List.not_mem_nil, or_false] at he
    rcases he with rfl | rfl <;> decide +kernel

example : (Sparse.ops intCoeff).eq (⟨[(1, 5), (2, 7)]⟩ : Sparse Nat Int) ⟨[(2, 7), (1, 5)]⟩ = true ∧
    (Sparse.ops intCoeff).eq (⟨[(1, 5), (2, 7)]⟩ : Sparse Nat Int) ⟨[(2, 7), (3, 5)]⟩ = false := by decide +kernel

/-! ## C29: building from an iterator -/

/-- C29, full statement for a basis: dense and sparse `from_iterator` of one list give the same coefficients. -/
def C29_from_iterator_full (B : Basis K) : Prop :=
  ∀ (items : List (K × S)) d s k x, (Dense.ops C B).fromIterator items = .ok d → (Sparse.ops C).fromIterator items = .ok s →
    coefAt C B d k = .ok x → s.coef C k = x

/-- C29, sparse side exactly: the *last* value listed for a key is kept. -/
theorem C29_sparse_from_iterator (items : List (K × S)) :
    ∃ s, (Sparse.ops C).fromIterator items = .ok s ∧ s.WF ∧
      ∀ k, (Sparse.ops C).get s k = .ok ((items.filter fun e => e.1 = k).map (·.2)).getLast? := by
  refine ⟨_, rfl, Sparse.noDup_foldl _ (fun m e hm => Sparse.noDup_hmInsert hm _ _) _ _ List.nodup_nil, fun k => ?_⟩
  refine congrArg Res.ok ?_
  rw [Sparse.find_foldl_insert, Sparse.find_nil]
  cases ((items.filter fun e => e.1 = k).map (·.2)).getLast? <;> rfl

example : ∃ s : Sparse Nat Int, (Sparse.ops intCoeff).fromIterator [(1, 2), (3, 4), (1, 5)] = .ok s ∧ (Sparse.ops intCoeff).get s 1 = .ok (some 5) := by
  obtain ⟨s, h, _, hg⟩ := C29_sparse_from_iterator intCoeff [(1, 2), (3, 4), (1, 5)]
  exact ⟨s, h, hg 1⟩

/-- C29 is false: a repeated key is summed by the dense constructor and overwritten by the sparse one. -/
theorem C29_from_iterator_refuted : ¬ C29_from_iterator_full intCoeff integerBasis := by
  intro h
  obtain ⟨d, h1, _, h3, h4⟩ := Dense.fromIterator_ok intCoeff integerBasis [(1, (1 : Int)), (1, 1)] id (by intro e _; rfl) (by simp) 255
    (by simp) (by intro e _ _; rfl)
  obtain ⟨s, h5, _, h6⟩ := C29_sparse_from_iterator intCoeff [(1, (1 : Int)), (1, 1)]
  have := h [(1, 1), (1, 1)] d s 1 _ h1 h5 (coef_ok intCoeff integerBasis d (k := 1) (i := 1) rfl)
  have e : Sparse.find s.entries 1 = some 1 := Res.ok.inj (h6 1)
  unfold Sparse.coef at this
  rw [e, h4 1 (by omega)] at this
  revert this
  decide

/-- C29, the part that holds: no key listed twice (and the dense side's basis gives different keys different indices and a dimension covering them). -/
theorem C29_from_iterator_partial [CommRing S] (hC : C.IsRing) (B : Basis K) (items : List (K × S)) (hnd : (items.map (·.1)).Nodup)
    (idx : K → Nat) (hidx : ∀ k, B.keyToIndex k = .ok (idx k)) (hinj : Function.Injective idx) (dim : Nat)
    (hlt : ∀ e ∈ items, idx e.1 < dim) (hdim : ∀ e ∈ items, (∀ e' ∈ items, idx e'.1 ≤ idx e.1) → B.dimForIndex (idx e.1) = .ok dim) :
    ∃ d s, (Dense.ops C B).fromIterator items = .ok d ∧ (Sparse.ops C).fromIterator items = .ok s ∧
      ∀ k, coefAt C B d k = .ok (s.coef C k) := by
  obtain ⟨s, h5, _, h6⟩ := C29_sparse_from_iterator C items
  have hlast : ∀ k, ((items.filter fun e => e.1 = k).map (·.2)).foldl C.add C.zero =
      (((items.filter fun e => e.1 = k).map (·.2)).getLast?).getD C.zero := by
    intro k
    have hlen : (items.filter fun e => e.1 = k).length ≤ 1 := by
      clear hlt hdim h5 h6
      induction items with
      | nil => simp
      | cons e es ih =>
        rw [List.map_cons, List.nodup_cons] at hnd
        rw [List.filter_cons]
        split_ifs with hk
        · simp only [decide_eq_true_eq] at hk
          subst hk
          have : es.filter (fun e' => decide (e'.1 = e.1)) = [] := by
            rw [List.filter_eq_nil_iff]
            intro e' he' h
            exact hnd.1 (List.mem_map.2 ⟨e', he', by simpa using h⟩)
          rw [this]
          simp
        · exact ih hnd.2
    generalize items.filter (fun e => decide (e.1 = k)) = l at hlen ⊢
    match l, hlen with
    | [], _ => rfl
    | [e], _ => simp [hC.add, hC.zero]
    | _ :: _ :: _, h => simp at h
  by_cases hne : items = []
  · subst hne
    refine ⟨_, s, C18_from_iterator_empty C B, h5, fun k => ?_⟩
    have e : Sparse.find s.entries k = _ := Res.ok.inj (h6 k)
    rw [coef_ok C B _ (hidx k)]
    unfold Sparse.coef
    rw [e]
    rfl
  · obtain ⟨d, h1, _, h3, h4⟩ := Dense.fromIterator_ok C B items idx (fun e _ => hidx e.1) hne dim hlt hdim
    refine ⟨d, s, h1, h5, fun k => ?_⟩
    have e : Sparse.find s.entries k = _ := Res.ok.inj (h6 k)
    rw [coef_ok C B d (hidx k)]
    unfold Sparse.coef
    rw [e, ← hlast]
    by_cases hk : idx k < dim
    · rw [h4 _ hk]
      simp only [Option.getD_some]
      congr 3
      refine List.filter_congr ?_
      intro e _
      rw [decide_eq_decide]
      exact ⟨fun h => hinj h, fun h => by rw [h]⟩
    · rw [List.getElem?_eq_none (by omega)]
      have : (items.filter fun e => decide (e.1 = k)) = [] := by
        rw [List.filter_eq_nil_iff]
        intro e he h
        have h' : e.1 = k := by simpa using h
        have := hlt e he
        rw [h'] at this
        omega
      rw [this]
      rfl

example : ∃ d s, (Dense.ops intCoeff integerBasis).fromIterator [(7, 3), (2, 5)] = .ok d ∧
    (Sparse.ops intCoeff).fromIterator [(7, 3), (2, 5)] = .ok s ∧ ∀ k, coefAt intCoeff integerBasis d k = .ok (s.coef intCoeff k) :=
  C29_from_iterator_partial intCoeff intCoeff_isRing integerBasis [(7, 3), (2, 5)] (by simp) id (fun _ => rfl) (fun _ _ h => h) 255
    (by simp) (fun _ _ _ => rfl)

/-! ## C30: value-returning operations -/

/-- C30, full statement: the value-returning forms succeed and give the result of the in-place forms. -/
def C30_value_ops_full (K : Type) [DecidableEq K] : Prop :=
  ∀ (a o : Sparse K S) (s : S) (r : R),
    (Sparse.ops C).uminus a = (Sparse.ops C).uminusInplace a ∧ (Sparse.ops C).add a o = (Sparse.ops C).addInplace a o ∧
    (Sparse.ops C).sub a o = (Sparse.ops C).subInplace a o ∧
    (Sparse.ops C).scalarLmultiply a s = (Sparse.ops C).scalarLmultiplyInplace a s ∧
    (Sparse.ops C).scalarRdivide a r = (Sparse.ops C).scalarRdivideInplace a r

/-- C30 is false for every key and coefficient type. -/
theorem C30_value_ops_refuted [Nonempty R] : ¬ C30_value_ops_full C K := by
  intro h
  obtain ⟨r⟩ := ‹Nonempty R›
  have := (h Sparse.new Sparse.new C.one r).1
  cases this

example : ¬ C30_value_ops_full (fieldCoeff ℚ) Nat := C30_value_ops_refuted (fieldCoeff ℚ)

/-- C30, what happens: every value-returning operation, `to_owned`, `swap`, `erase`, `insert` and every fused operation panics on every input. -/
theorem C30_value_ops_panic (a o : Sparse K S) (s : S) (r : R) (k : K) (l : List (K × S)) :
    (Sparse.ops C).toOwned a = .panic ∧ (Sparse.ops C).swap a o = .panic ∧ (Sparse.ops C).erase a k = .panic ∧
    (Sparse.ops C).insert a l = .panic ∧ (Sparse.ops C).uminus a = .panic ∧ (Sparse.ops C).add a o = .panic ∧
    (Sparse.ops C).sub a o = .panic ∧ (Sparse.ops C).scalarLmultiply a s = .panic ∧ (Sparse.ops C).scalarRmultiply a s = .panic ∧
    (Sparse.ops C).scalarRdivide a r = .panic ∧ (Sparse.ops C).scalarLdivide a r = .panic ∧
    (Sparse.ops C).addScalarLmultiply a o s = .panic ∧ (Sparse.ops C).addScalarRmultiply a o s = .panic ∧
    (Sparse.ops C).subScalarLmultiply a o s = .panic ∧ (Sparse.ops C).subScalarRmultiply a o s = .panic ∧
    (Sparse.ops C).addScalarLdivide a o r = .panic ∧ (Sparse.ops C).addScalarRdivide a o r = .panic ∧
    (Sparse.ops C).subScalarLdivide a o r = .panic ∧ (Sparse.ops C).subScalarRdivide a o r = .panic :=
  ⟨rfl, rfl, rfl, rfl, rfl, rfl, rfl, rfl, rfl, rfl, rfl, rfl, rfl, rfl, rfl, rfl, rfl, rfl, rfl⟩

example := C30_value_ops_panic intCoeff (⟨[(1, 5)]⟩ : Sparse Nat Int) ⟨[]⟩ 3 2 1 [(1, 2)]

/-! ## C31, C32: basis-key operations -/

/-- Entry of a vector after adding `s` at its key: `f` on a present entry, `v` for a missing one. -/
def C31_effect {V : Type} (T : VecOps V K S R) (run : V → K → Res V) (f : S → S) (v : S) : Prop :=
  ∀ d k x, T.get d k = .ok x → ∃ r, run d k = .ok r ∧ T.get r k = .ok (some (x.elim v f)) ∧
    ∀ k', k' ≠ k → T.get r k' = T.get d k'

/-- C31, full statement for a vector type: the three operations add `s`, `-s`, `1/r` to the coefficient (a missing one counts as zero) and touch nothing else. -/
def C31_key_ext_full {V : Type} (T : VecOps V K S R) : Prop :=
  ∀ (s : S) (r : R),
    C31_effect T (fun d k => KeyExt.addScalarMultiply C T d k s) (fun x => C.add x s) s ∧
    C31_effect T (fun d k => KeyExt.subScalarMultiply C T d k s) (fun x => C.sub x s) (C.uminus s) ∧
    C31_effect T (fun d k => KeyExt.addScalarDivide C T d k r) (fun x => C.add x (C.div C.one r)) (C.div C.one r)

theorem sparse_upsert (a : Sparse K S) (k : K) (f : S → S) (v : S) :
    ∃ r, (do
        let (found, v') ← (Sparse.ops C).getMut a k f
        if found then return v' else (Sparse.ops C).insertSingle v' k v : Res (Sparse K S)) = .ok r ∧
      (Sparse.ops C).get r k = .ok (some ((Sparse.find a.entries k).elim v f)) ∧
      ∀ k', k' ≠ k → (Sparse.ops C).get r k' = (Sparse.ops C).get a k' := by
  show ∃ r, (do
        let (found, v') ← Sparse.getMut a k f
        if found then return v' else Sparse.insertSingle v' k v : Res (Sparse K S)) = .ok r ∧ _
  unfold Sparse.getMut
  split_ifs with h
  · refine ⟨⟨Sparse.modifyAt a.entries k f⟩, rfl, ?_, fun k' hk => ?_⟩
    · refine congrArg Res.ok ?_
      rw [Sparse.find_modifyAt, if_pos rfl]
      cases hf : Sparse.find a.entries k with
      | none => rw [hf] at h; cases h
      | some x => rfl
    · refine congrArg Res.ok ?_
      rw [Sparse.find_modifyAt, if_neg hk]
  · refine ⟨⟨Sparse.hmInsert a.entries k v⟩, rfl, ?_, fun k' hk => ?_⟩
    · refine congrArg Res.ok ?_
      rw [Sparse.find_hmInsert, if_pos rfl]
      cases hf : Sparse.find a.entries k with
      | none => rfl
      | some x => rw [hf] at h; simp at h
    · refine congrArg Res.ok ?_
      rw [Sparse.find_hmInsert, if_neg hk]

/-- C31 holds of the sparse vector, for every coefficient type. -/
theorem C31_sparse : C31_key_ext_full C (Sparse.ops (K := K) C) := by
  intro s r
  refine ⟨?_, ?_, ?_⟩ <;> intro d k x hx <;> cases hx <;> exact sparse_upsert C d k _ _

example : C31_key_ext_full (fieldCoeff ℚ) (Sparse.ops (K := Nat) (fieldCoeff ℚ)) := C31_sparse (fieldCoeff ℚ)

omit [DecidableEq K] in
theorem dense_upsert (B : Basis K) (d : Dense S) (k : K) (i : Nat) (hk : B.keyToIndex k = .ok i) (f : S → S) (v : S) :
    (do
        let (found, v') ← (Dense.ops C B).getMut d k f
        if found then return v' else (Dense.ops C B).insertSingle v' k v : Res (Dense S)) =
      .ok (if i < d.data.length then d.writeSlice (d.data.modify i f) else d.makeMut) := by
  show (do
        let (found, v') ← Dense.getMut B d k f
        if found then return v' else Dense.insertSingle B v' k v : Res (Dense S)) = _
  unfold Dense.getMut Dense.insertSingle
  rw [hk]
  simp only [Res.bind_ok]
  split_ifs <;> rfl

omit [DecidableEq K] in
theorem dense_get (B : Basis K) (d : Dense S) (k : K) (i : Nat) (hk : B.keyToIndex k = .ok i) :
    (Dense.ops C B).get d k = .ok d.data[i]? := by
  show Dense.get B d k = _
  unfold Dense.get
  rw [hk]; rfl

omit [DecidableEq K] in
/-- C31, dense vectors, the part that holds: the key's index is stored, and the other key has a different index.  Missing: a key beyond the stored
dimension, whose contribution is dropped (`C31_dense_refuted`). -/
theorem C31_dense_partial (B : Basis K) (d : Dense S) (k : K) (i : Nat) (hk : B.keyToIndex k = .ok i) (x : S)
    (hx : (Dense.ops C B).get d k = .ok (some x)) (s : S) (r : R) :
    ∃ ra rs rd, KeyExt.addScalarMultiply C (Dense.ops C B) d k s = .ok ra ∧ KeyExt.subScalarMultiply C (Dense.ops C B) d k s = .ok rs ∧
      KeyExt.addScalarDivide C (Dense.ops C B) d k r = .ok rd ∧
      (Dense.ops C B).get ra k = .ok (some (C.add x s)) ∧ (Dense.ops C B).get rs k = .ok (some (C.sub x s)) ∧
      (Dense.ops C B).get rd k = .ok (some (C.add x (C.div C.one r))) ∧
      ∀ k' i', B.keyToIndex k' = .ok i' → i' ≠ i →
        (Dense.ops C B).get ra k' = (Dense.ops C B).get d k' ∧ (Dense.ops C B).get rs k' = (Dense.ops C B).get d k' ∧
        (Dense.ops C B).get rd k' = (Dense.ops C B).get d k' := by
  rw [dense_get C B d k i hk] at hx
  injection hx with hx
  have hi : i < d.data.length := by
    by_contra hc
    rw [List.getElem?_eq_none (by omega)] at hx
    cases hx
  have key : ∀ f : S → S, (Dense.ops C B).get (d.writeSlice (d.data.modify i f)) k = .ok (some (f x)) := by
    intro f
    rw [dense_get C B _ k i hk, Dense.writeSlice_data, List.getElem?_modify, hx]
    simp
  have other : ∀ (f : S → S) k' i', B.keyToIndex k' = .ok i' → i' ≠ i →
      (Dense.ops C B).get (d.writeSlice (d.data.modify i f)) k' = (Dense.ops C B).get d k' := by
    intro f k' i' hk' hne
    rw [dense_get C B _ k' i' hk', dense_get C B _ k' i' hk', Dense.writeSlice_data, List.getElem?_modify]
    simp [Ne.symm hne]
  refine ⟨_, _, _, dense_upsert C B d k i hk _ _, dense_upsert C B d k i hk _ _, dense_upsert C B d k i hk _ _, ?_, ?_, ?_, ?_⟩
  · rw [if_pos hi]; exact key _
  · rw [if_pos hi]; exact key _
  · rw [if_pos hi]; exact key _
  · intro k' i' hk' hne
    simp only [if_pos hi]
    exact ⟨other _ _ _ hk' hne, other _ _ _ hk' hne, other _ _ _ hk' hne⟩

example := C31_dense_partial intCoeff integerBasis (.ofVec [1, 2]) 1 1 rfl 2 (by decide +kernel) 3 1

omit [DecidableEq K] in
/-- C31 is false of dense vectors over every basis with a key: adding to a key of the empty vector is silently lost. -/
theorem C31_dense_refuted [Nonempty R] (B : Basis K) (k : K) (i : Nat) (hk : B.keyToIndex k = .ok i) :
    ¬ C31_key_ext_full C (Dense.ops C B) := by
  intro h
  obtain ⟨r⟩ := ‹Nonempty R›
  obtain ⟨r, h1, h2, _⟩ := (h C.one r).1 Dense.new k _ (dense_get C B _ k i hk)
  change KeyExt.addScalarMultiply C (Dense.ops C B) Dense.new k C.one = _ at h1
  unfold KeyExt.addScalarMultiply at h1
  rw [dense_upsert C B Dense.new k i hk, if_neg (by simp [Dense.new])] at h1
  injection h1 with h1
  subst h1
  rw [dense_get C B _ k i hk] at h2
  simp [Dense.new, Dense.makeMut, Dense.ofVec] at h2

example : ¬ C31_key_ext_full intCoeff (Dense.ops intCoeff integerBasis) := C31_dense_refuted intCoeff integerBasis 3 3 rfl

example : KeyExt.addScalarMultiply intCoeff (Sparse.ops intCoeff) (⟨[(1, 5)]⟩ : Sparse Nat Int) 2 3 = .ok ⟨[(1, 5), (2, 3)]⟩ ∧
    KeyExt.addScalarMultiply intCoeff (Dense.ops intCoeff integerBasis) (.ofVec [1, 2]) 1 3 = .ok ⟨.owned, [1, 5], []⟩ ∧
    KeyExt.addScalarMultiply intCoeff (Dense.ops intCoeff integerBasis) (.ofVec [1, 2]) 2 3 = .ok ⟨.owned, [1, 2], []⟩ := by
  decide +kernel

/-- C32, full statement for a vector type: `sub_scalar_divide(k, r)` subtracts `1/r` (a missing coefficient counts as zero). -/
def C32_sub_divide_full {V : Type} (T : VecOps V K S R) : Prop :=
  ∀ r : R, C31_effect T (fun d k => KeyExt.subScalarDivide C T d k r) (fun x => C.sub x (C.div C.one r)) (C.uminus (C.div C.one r))

/-- C32, what the code does on a stored sparse key: it subtracts `(-1)/r`; a missing key is set to `(-1)/r`. -/
theorem C32_sub_divide_actual (a : Sparse K S) (k : K) (r : R) :
    ∃ b, KeyExt.subScalarDivide C (Sparse.ops C) a k r = .ok b ∧
      (Sparse.ops C).get b k = .ok (some ((Sparse.find a.entries k).elim (C.div C.mone r) fun x => C.sub x (C.div C.mone r))) ∧
      ∀ k', k' ≠ k → (Sparse.ops C).get b k' = (Sparse.ops C).get a k' :=
  sparse_upsert C a k _ _

example := C32_sub_divide_actual (fieldCoeff ℚ) (⟨[(1, 5)]⟩ : Sparse Nat ℚ) 1 2

omit [DecidableEq K] in
/-- C32, dense vectors: the same for a stored key. -/
theorem C32_sub_divide_dense_actual (B : Basis K) (d : Dense S) (k : K) (i : Nat) (hk : B.keyToIndex k = .ok i) (x : S)
    (hx : (Dense.ops C B).get d k = .ok (some x)) (r : R) :
    ∃ b, KeyExt.subScalarDivide C (Dense.ops C B) d k r = .ok b ∧ (Dense.ops C B).get b k = .ok (some (C.sub x (C.div C.mone r))) := by
  rw [dense_get C B d k i hk] at hx
  injection hx with hx
  have hi : i < d.data.length := by
    by_contra hc
    rw [List.getElem?_eq_none (by omega)] at hx
    cases hx
  refine ⟨_, dense_upsert C B d k i hk _ _, ?_⟩
  rw [if_pos hi, dense_get C B _ k i hk, Dense.writeSlice_data, List.getElem?_modify, hx]
  simp

example := C32_sub_divide_dense_actual intCoeff integerBasis (.ofVec [1, 2]) 1 1 rfl 2 (by decide +kernel) 1

/-- C32 is false over every field of characteristic other than two, for sparse vectors: a stored key gets `1/r` *added*. -/
theorem C32_sub_divide_refuted [Field S] (C : Coeff S S) (hC : C.IsField) (h2 : (2 : S) ≠ 0) (k : K) :
    ¬ C32_sub_divide_full C (Sparse.ops (K := K) C) := by
  intro h
  obtain ⟨r, h1, h3, _⟩ := h 1 ⟨[(k, 0)]⟩ k (some 0) (by simp [Sparse.ops, Sparse.req, VecReq.full, Sparse.get, Sparse.find])
  obtain ⟨r', h1', h3', _⟩ := C32_sub_divide_actual C (⟨[(k, 0)]⟩ : Sparse K S) k 1
  cases h1'.symm.trans h1
  rw [h3'] at h3
  simp [Sparse.find, hC.sub, hC.div, hC.mone, hC.one] at h3
  apply h2
  have : (1 : S) + 1 = 0 := by
    nth_rewrite 1 [h3]
    ring
  rw [← this]
  ring

example : ¬ C32_sub_divide_full (fieldCoeff ℚ) (Sparse.ops (K := Nat) (fieldCoeff ℚ)) :=
  C32_sub_divide_refuted (fieldCoeff ℚ) (fieldCoeff_isField ℚ) (by norm_num) 1

omit [DecidableEq K] in
/-- The same for dense vectors. -/
theorem C32_sub_divide_dense_refuted [Field S] (C : Coeff S S) (hC : C.IsField) (h2 : (2 : S) ≠ 0) (B : Basis K) (k : K)
    (hk : B.keyToIndex k = .ok 0) : ¬ C32_sub_divide_full C (Dense.ops C B) := by
  intro h
  have hg : (Dense.ops C B).get (Dense.ofVec [0]) k = .ok (some 0) := dense_get C B _ k 0 hk
  obtain ⟨r, h1, h3, _⟩ := h 1 (Dense.ofVec [0]) k (some 0) hg
  obtain ⟨r', h1', h3'⟩ := C32_sub_divide_dense_actual C B (Dense.ofVec [0]) k 0 hk 0 hg 1
  cases h1'.symm.trans h1
  rw [h3'] at h3
  simp [hC.sub, hC.div, hC.mone, hC.one] at h3
  apply h2
  have : (1 : S) + 1 = 0 := by
    nth_rewrite 1 [h3]
    ring
  rw [← this]
  ring

example : ¬ C32_sub_divide_full (fieldCoeff ℚ) (Dense.ops (fieldCoeff ℚ) integerBasis) :=
  C32_sub_divide_dense_refuted (fieldCoeff ℚ) (fieldCoeff_isField ℚ) (by norm_num) integerBasis 0 rfl

/-- C32, the part that holds: sparse vectors over a field when the key is missing.  Missing: stored keys, where the sign is wrong. -/
theorem C32_sub_divide_partial [Field S] (C : Coeff S S) (hC : C.IsField) (a : Sparse K S) (k : K) (r : S)
    (hmiss : (Sparse.ops C).get a k = .ok none) :
    ∃ b, KeyExt.subScalarDivide C (Sparse.ops C) a k r = .ok b ∧ b.coef C k = a.coef C k - 1 / r ∧
      ∀ k', k' ≠ k → b.coef C k' = a.coef C k' := by
  obtain ⟨b, h1, h2, h3⟩ := C32_sub_divide_actual C a k r
  have hm : Sparse.find a.entries k = none := Res.ok.inj hmiss
  have e : Sparse.find b.entries k = _ := Res.ok.inj h2
  refine ⟨b, h1, ?_, fun k' hk => ?_⟩
  · unfold Sparse.coef
    rw [e, hm]
    simp [hC.div, hC.mone, hC.zero, neg_div]
  · unfold Sparse.coef
    have : Sparse.find b.entries k' = Sparse.find a.entries k' := Res.ok.inj (h3 k' hk)
    rw [this]

example := C32_sub_divide_partial (fieldCoeff ℚ) (fieldCoeff_isField ℚ) (⟨[(1, 5)]⟩ : Sparse Nat ℚ) 3 2 (by decide +kernel)

example : KeyExt.subScalarDivide (fieldCoeff ℚ) (Sparse.ops (fieldCoeff ℚ)) (⟨[(1, 5)]⟩ : Sparse Nat ℚ) 1 2 = .ok ⟨[(1, 11 / 2)]⟩ ∧
    KeyExt.subScalarDivide (fieldCoeff ℚ) (Sparse.ops (fieldCoeff ℚ)) (⟨[(1, 5)]⟩ : Sparse Nat ℚ) 3 2 = .ok ⟨[(1, 5), (3, -1 / 2)]⟩ := by
  decide +kernel

end
end RA
