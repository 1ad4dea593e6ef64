import Verif.Props.Sparse
import Verif.Props.Dense
import Verif.Model.Wrapper
import Verif.Proofs.Sparse
import Mathlib.Tactic.FieldSimp

/-!
# The trait `Vector` as a contract (C72) and operators through `VectorWrapper` (C73)
-/

namespace RA
open Spec

section
variable {V K S R : Type}

/-- The computation returns a well-formed vector with coefficients `f`. -/
def Gives (Inv : V → Prop) (co : V → K → S) (x : Res V) (f : K → S) : Prop := ∃ r, x = .ok r ∧ Inv r ∧ ∀ k, co r k = f k

/-- What an implementor of `Vector` has to provide for arithmetic: `co v k` is the coefficient of `k` in `v`, zero where nothing is stored, `dv r` is the
scalar `1 / r` and `Inv` an invariant of the type. -/
structure CorrectArith [CommRing S] (T : VecReq V K S R) (Inv : V → Prop) (co : V → K → S) (dv : R → S) : Prop where
  toOwned : ∀ v, Inv v → Gives Inv co (T.toOwned v) (co v)
  uminus : ∀ v, Inv v → Gives Inv co (T.uminusInplace v) fun k => - co v k
  add : ∀ v o, Inv v → Inv o → Gives Inv co (T.addInplace v o) fun k => co v k + co o k
  sub : ∀ v o, Inv v → Inv o → Gives Inv co (T.subInplace v o) fun k => co v k - co o k
  lmul : ∀ v s, Inv v → Gives Inv co (T.scalarLmultiplyInplace v s) fun k => s * co v k
  rdiv : ∀ v r, Inv v → Gives Inv co (T.scalarRdivideInplace v r) fun k => co v k * dv r

/-- What an implementor has to provide for access by key: a reference to the entry when there is one, and insertion when there is none. -/
structure CorrectAccess [CommRing S] [DecidableEq K] (T : VecReq V K S R) (Inv : V → Prop) (co : V → K → S) : Prop where
  get : ∀ v k, Inv v → ∃ x, T.get v k = .ok x ∧ x.getD 0 = co v k
  getMut : ∀ v k f x, Inv v → T.get v k = .ok x → ∃ v', T.getMut v k f = .ok (x.isSome, v') ∧ Inv v' ∧
    ∀ k', co v' k' = if k' = k ∧ x.isSome then f (co v k) else co v k'
  insert : ∀ v k s, Inv v → co v k = 0 → Gives Inv co (T.insertSingle v k s) fun k' => if k' = k then s else co v k'

theorem Gives.congr {Inv : V → Prop} {co : V → K → S} {x : Res V} {f g : K → S} (h : Gives Inv co x f) (e : ∀ k, f k = g k) : Gives Inv co x g := by
  obtain ⟨r, h1, h2, h3⟩ := h
  exact ⟨r, h1, h2, fun k => (h3 k).trans (e k)⟩

theorem Gives.bind {Inv : V → Prop} {co : V → K → S} {x : Res V} {f : K → S} {F : V → Res V} {g : (K → S) → K → S} (h : Gives Inv co x f)
    (hF : ∀ v, Inv v → Gives Inv co (F v) (g (co v))) (hg : ∀ f f', (∀ k, f k = f' k) → ∀ k, g f k = g f' k) :
    Gives Inv co (x >>= F) (g f) := by
  obtain ⟨r, h1, h2, h3⟩ := h
  rw [h1, Res.bind_ok]
  exact (hF r h2).congr (hg _ _ h3)

/-- C72.  For every type whose required methods are right, all provided methods of the trait are right: each does what its name and comment say. -/
theorem C72_provided [CommRing S] (T : VecReq V K S R) (Inv : V → Prop) (co : V → K → S) (dv : R → S) (h : CorrectArith T Inv co dv) (v o : V) (hv : Inv v)
    (ho : Inv o) (s : S) (r : R) :
    Gives Inv co (T.full.uminus v) (fun k => - co v k) ∧
    Gives Inv co (T.full.add v o) (fun k => co v k + co o k) ∧
    Gives Inv co (T.full.sub v o) (fun k => co v k - co o k) ∧
    Gives Inv co (T.full.scalarLmultiply v s) (fun k => s * co v k) ∧
    Gives Inv co (T.full.scalarRmultiply v s) (fun k => co v k * s) ∧
    Gives Inv co (T.full.scalarRdivide v r) (fun k => co v k * dv r) ∧
    Gives Inv co (T.full.scalarLdivide v r) (fun k => dv r * co v k) ∧
    Gives Inv co (T.full.scalarRmultiplyInplace v s) (fun k => co v k * s) ∧
    Gives Inv co (T.full.scalarLdivideInplace v r) (fun k => dv r * co v k) ∧
    Gives Inv co (T.full.addScalarRmultiply v o s) (fun k => co v k + co o k * s) ∧
    Gives Inv co (T.full.addScalarLmultiply v o s) (fun k => co v k + s * co o k) ∧
    Gives Inv co (T.full.subScalarRmultiply v o s) (fun k => co v k - co o k * s) ∧
    Gives Inv co (T.full.subScalarLmultiply v o s) (fun k => co v k - s * co o k) ∧
    Gives Inv co (T.full.addScalarRdivide v o r) (fun k => co v k + co o k * dv r) ∧
    Gives Inv co (T.full.addScalarLdivide v o r) (fun k => co v k + dv r * co o k) ∧
    Gives Inv co (T.full.subScalarRdivide v o r) (fun k => co v k - co o k * dv r) ∧
    Gives Inv co (T.full.subScalarLdivide v o r) (fun k => co v k - dv r * co o k) := by
  have hmul : ∀ v, Inv v → Gives Inv co (T.scalarLmultiply v s) fun k => s * co v k := fun v hv =>
    (h.toOwned v hv).bind (g := fun f k => s * f k) (fun u hu => h.lmul u s hu) (fun f f' e k => by rw [e])
  have hdiv : ∀ v, Inv v → Gives Inv co (T.scalarRdivide v r) fun k => co v k * dv r := fun v hv =>
    (h.toOwned v hv).bind (g := fun f k => f k * dv r) (fun u hu => h.rdiv u r hu) (fun f f' e k => by rw [e])
  have hadd : ∀ x (f : K → S), Gives Inv co x f → Gives Inv co (x >>= fun u => T.addInplace v u) fun k => co v k + f k := fun x f hx =>
    hx.bind (g := fun f k => co v k + f k) (fun u hu => h.add v u hv hu) (fun f f' e k => by rw [e])
  have hsub : ∀ x (f : K → S), Gives Inv co x f → Gives Inv co (x >>= fun u => T.subInplace v u) fun k => co v k - f k := fun x f hx =>
    hx.bind (g := fun f k => co v k - f k) (fun u hu => h.sub v u hv hu) (fun f f' e k => by rw [e])
  refine ⟨?_, ?_, ?_, hmul v hv, (hmul v hv).congr fun k => mul_comm _ _, hdiv v hv, (hdiv v hv).congr fun k => mul_comm _ _,
    (h.lmul v s hv).congr fun k => mul_comm _ _, (h.rdiv v r hv).congr fun k => mul_comm _ _,
    hadd _ _ ((hmul o ho).congr fun k => mul_comm _ _), hadd _ _ (hmul o ho), hsub _ _ ((hmul o ho).congr fun k => mul_comm _ _), hsub _ _ (hmul o ho),
    hadd _ _ (hdiv o ho), hadd _ _ ((hdiv o ho).congr fun k => mul_comm _ _), hsub _ _ (hdiv o ho), hsub _ _ ((hdiv o ho).congr fun k => mul_comm _ _)⟩
  · exact (h.toOwned v hv).bind (g := fun f k => - f k) (fun u hu => h.uminus u hu) (fun f f' e k => by rw [e])
  · exact (h.toOwned v hv).bind (g := fun f k => f k + co o k) (fun u hu => h.add u o hu ho) (fun f f' e k => by rw [e])
  · exact (h.toOwned v hv).bind (g := fun f k => f k - co o k) (fun u hu => h.sub u o hu ho) (fun f f' e k => by rw [e])

/-- C72.  The extension methods `add_scalar_multiply`, `sub_scalar_multiply`, `add_scalar_divide` add `s`, `-s`, `1 / r` to the coefficient of a key, and
`sub_scalar_divide` does so with `-1 / r` only when the key is absent: when it is present it *adds* `1 / r`. -/
theorem C72_key_ext [CommRing S] [DecidableEq K] (C : Coeff S R) (hC : C.IsRing) (T : VecReq V K S R) (Inv : V → Prop) (co : V → K → S)
    (h : CorrectAccess T Inv co) (v : V) (hv : Inv v) (k : K) (s : S) (r : R) :
    Gives Inv co (KeyExt.addScalarMultiply C T.full v k s) (fun k' => if k' = k then co v k + s else co v k') ∧
    Gives Inv co (KeyExt.subScalarMultiply C T.full v k s) (fun k' => if k' = k then co v k - s else co v k') ∧
    Gives Inv co (KeyExt.addScalarDivide C T.full v k r) (fun k' => if k' = k then co v k + C.div 1 r else co v k') ∧
    ∀ x, T.full.get v k = .ok x → Gives Inv co (KeyExt.subScalarDivide C T.full v k r)
      (fun k' => if k' = k then x.elim (C.div (-1) r) (fun c => c - C.div (-1) r) else co v k') := by
  obtain ⟨x, hx, hxc⟩ := h.get v k hv
  have key : ∀ (f : S → S) (t : S), ∃ v', T.getMut v k f = .ok (x.isSome, v') ∧
      Gives Inv co (if x.isSome = true then pure v' else T.insertSingle v' k t)
        (fun k' => if k' = k then x.elim t f else co v k') := by
    intro f t
    obtain ⟨v', e, hv', hc⟩ := h.getMut v k f x hv hx
    refine ⟨v', e, ?_⟩
    cases x with
    | some c =>
      refine ⟨v', rfl, hv', fun k' => ?_⟩
      rw [hc, ← hxc]
      simp
    | none =>
      have h0 : ∀ k', co v' k' = co v k' := fun k' => by rw [hc]; simp
      refine (h.insert v' k t hv' (by rw [h0, ← hxc]; rfl)).congr fun k' => ?_
      rw [h0]
      rfl
  have hm : ∀ (f : S → S) (t : S) (g : S → S), (∀ c, f c = g c) → t = g 0 → ∀ k', (if k' = k then x.elim t f else co v k') =
      if k' = k then g (co v k) else co v k' := by
    intro f t g hf ht k'
    rw [← hxc]
    cases x with
    | some c => simp only [Option.elim, Option.getD, hf]
    | none => simp only [Option.elim, Option.getD, ht]
  refine ⟨?_, ?_, ?_, ?_⟩
  · obtain ⟨v', e, hg⟩ := key (fun x => C.add x s) s
    unfold KeyExt.addScalarMultiply
    rw [show T.full.getMut = T.getMut from rfl, show T.full.insertSingle = T.insertSingle from rfl, e, Res.bind_ok]
    exact hg.congr (hm _ _ (fun c => c + s) (fun c => hC.add c s) (by rw [zero_add]))
  · obtain ⟨v', e, hg⟩ := key (fun x => C.sub x s) (C.uminus s)
    unfold KeyExt.subScalarMultiply
    rw [show T.full.getMut = T.getMut from rfl, show T.full.insertSingle = T.insertSingle from rfl, e, Res.bind_ok]
    exact hg.congr (hm _ _ (fun c => c - s) (fun c => hC.sub c s) (by rw [hC.uminus, zero_sub]))
  · obtain ⟨v', e, hg⟩ := key (fun x => C.add x (C.div C.one r)) (C.div C.one r)
    unfold KeyExt.addScalarDivide
    rw [show T.full.getMut = T.getMut from rfl, show T.full.insertSingle = T.insertSingle from rfl]
    dsimp only
    rw [e, Res.bind_ok]
    exact hg.congr (hm _ _ (fun c => c + C.div 1 r) (fun c => by rw [hC.add, hC.one]) (by rw [zero_add, hC.one]))
  · intro x' hx'
    rw [show T.full.get = T.get from rfl, hx] at hx'
    cases hx'
    obtain ⟨v', e, hg⟩ := key (fun x => C.sub x (C.div C.mone r)) (C.div C.mone r)
    unfold KeyExt.subScalarDivide
    rw [show T.full.getMut = T.getMut from rfl, show T.full.insertSingle = T.insertSingle from rfl]
    dsimp only
    rw [e, Res.bind_ok]
    refine hg.congr fun k' => ?_
    cases x <;> simp only [hC.sub, hC.mone]

/-! The contracts are met by the two vector types of the crate: arithmetic by the dense one, access by the sparse one. -/

/-- The coefficient of a key of a dense vector. -/
def denseCo [CommRing S] (B : Basis K) (d : Dense S) (k : K) : S :=
  match B.keyToIndex k with
  | .ok i => d.data[i]?.getD 0
  | _ => 0

/-- It is what `get` returns, with zero where nothing is stored. -/
theorem C72_dense_get [CommRing S] (C : Coeff S R) (B : Basis K) (d : Dense S) (k : K) (x : Option S) (h : (Dense.ops C B).get d k = .ok x) :
    denseCo B d k = x.getD 0 := by
  change Dense.get B d k = _ at h
  unfold Dense.get at h
  unfold denseCo
  cases hk : B.keyToIndex k with
  | ok i => rw [hk] at h; cases h; rfl
  | _ => rw [hk] at h; cases h

example := C72_dense_get intCoeff (tensorBasis .debug 2) (.ofVec [3, 4, 5]) ⟨1, 1⟩ (some 5) (by decide +kernel)

/-- C72.  The dense vector meets the arithmetic contract over every ordered basis and every field. -/
theorem C72_dense {S : Type} [Field S] (C : Coeff S S) (hC : C.IsField) (B : Basis K) :
    CorrectArith (Dense.req C B) (fun _ => True) (denseCo B) (fun r => r⁻¹) := by
  have hmap : ∀ (d r : Dense S) (f : S → S), r.data = d.data.map f → f 0 = 0 → ∀ k, denseCo B r k = f (denseCo B d k) := by
    intro d r f hr hf k
    unfold denseCo
    cases B.keyToIndex k with
    | ok i =>
      dsimp only
      rw [hr, List.getElem?_map]
      cases d.data[i]? <;> simp [hf]
    | _ => exact hf.symm
  have hcomb : ∀ (d o r : Dense S) (f : S → S → S), r.data = Dense.combine C f d.data o.data → (∀ x, f x 0 = x) → ∀ k,
      denseCo B r k = f (denseCo B d k) (denseCo B o k) := by
    intro d o r f hr hf k
    unfold denseCo
    cases B.keyToIndex k with
    | ok i =>
      dsimp only
      rw [hr, Dense.combine_getElem?, hC.zero]
      cases d.data[i]? <;> cases o.data[i]? <;> simp [hf]
    | _ => exact (hf 0).symm
  refine ⟨fun v _ => ⟨_, rfl, trivial, fun k => rfl⟩, fun v _ => ⟨_, rfl, trivial, ?_⟩, fun v o _ _ => ?_, fun v o _ _ => ?_,
    fun v s _ => ⟨_, rfl, trivial, ?_⟩, fun v r _ => ⟨_, rfl, trivial, ?_⟩⟩
  · exact hmap v _ (fun x => -x) (by rw [Dense.writeSlice_data]; exact congrArg (v.data.map ·) (funext hC.uminus)) neg_zero
  · obtain ⟨r, h1, h2⟩ := Dense.addInplace_data C v o
    exact ⟨r, h1, trivial, hcomb v o r (· + ·) (by rw [h2]; congr 1; exact funext fun a => funext (hC.add a)) add_zero⟩
  · obtain ⟨r, h1, h2⟩ := Dense.subInplace_data C v o
    exact ⟨r, h1, trivial, hcomb v o r (· - ·) (by rw [h2]; congr 1; exact funext fun a => funext (hC.sub a)) sub_zero⟩
  · exact hmap v _ (fun x => s * x)
      (by rw [Dense.writeSlice_data]; exact congrArg (v.data.map ·) (funext fun x => (hC.mul x s).trans (mul_comm _ _))) (mul_zero s)
  · exact hmap v _ (fun x => x * r⁻¹)
      (by rw [Dense.writeSlice_data]; exact congrArg (v.data.map ·) (funext fun x => (hC.div x r).trans (div_eq_mul_inv _ _))) (zero_mul _)

/-- The coefficient of a key of a sparse vector. -/
def sparseCo [CommRing S] [DecidableEq K] (v : Sparse K S) (k : K) : S := (Sparse.find v.entries k).getD 0

/-- C72.  The sparse vector meets the access contract. -/
theorem C72_sparse [CommRing S] [DecidableEq K] (C : Coeff S R) :
    CorrectAccess (Sparse.req (K := K) C) (fun v => Sparse.NoDup v.entries) sparseCo where
  get := fun v k _ => ⟨_, rfl, rfl⟩
  getMut := by
    intro v k f x hv hx
    change Res.ok (Sparse.find v.entries k) = _ at hx
    cases hx
    show ∃ v', Sparse.getMut v k f = _ ∧ _
    unfold Sparse.getMut
    cases hf : Sparse.find v.entries k with
    | some c =>
      refine ⟨⟨Sparse.modifyAt v.entries k f⟩, rfl, Sparse.noDup_modifyAt hv k f, fun k' => ?_⟩
      unfold sparseCo
      rw [Sparse.find_modifyAt, hf]
      by_cases hk : k' = k <;> simp [hk]
    | none => exact ⟨v, rfl, hv, fun k' => by simp⟩
  insert := by
    intro v k s hv _
    refine ⟨⟨Sparse.hmInsert v.entries k s⟩, rfl, Sparse.noDup_hmInsert hv k s, fun k' => ?_⟩
    unfold sparseCo
    rw [Sparse.find_hmInsert]
    by_cases hk : k' = k <;> simp [hk]

example := C72_provided _ _ _ _ (C72_dense (K := TensorKey) (fieldCoeff ℚ) (fieldCoeff_isField ℚ) (tensorBasis .debug 2)) (.ofVec [1, 2]) (.ofBorrowed [3, 4, 5])
  trivial trivial 7 9

example := C72_key_ext (fieldCoeff ℚ) (fieldCoeff_isField ℚ).toIsRing _ _ _ (C72_sparse (K := Nat) (fieldCoeff ℚ)) ⟨[(4, 5), (6, 7)]⟩ (by unfold Sparse.NoDup; decide) 6 3 2

/-! ## C73: operators -/

/-- C73, the full statement for one vector type: `+`, `-` and `*` of wrapped vectors are sum, difference and multiple. -/
def C73_operators_full [CommRing S] (T : VecOps V K S R) (Inv : V → Prop) (co : V → K → S) : Prop :=
  ∀ a b s, Inv a → Inv b →
    Gives (fun w => Inv w.inner) (fun w => co w.inner) (VectorWrapper.add T ⟨a⟩ ⟨b⟩) (fun k => co a k + co b k) ∧
    Gives (fun w => Inv w.inner) (fun w => co w.inner) (VectorWrapper.sub T ⟨a⟩ ⟨b⟩) (fun k => co a k - co b k) ∧
    Gives (fun w => Inv w.inner) (fun w => co w.inner) (VectorWrapper.mul T ⟨a⟩ s) (fun k => co a k * s)

theorem Gives.wrap {Inv : V → Prop} {co : V → K → S} {x : Res V} {f : K → S} (h : Gives Inv co x f) :
    Gives (fun w : VectorWrapper V => Inv w.inner) (fun w => co w.inner) (x >>= fun r => pure ⟨r⟩) f := by
  obtain ⟨r, h1, h2, h3⟩ := h
  rw [h1, Res.bind_ok]
  exact ⟨⟨r⟩, rfl, h2, h3⟩

/-- C73 for every type that meets the contract of C72, in particular (`C73_dense`) for dense vectors. -/
theorem C73_operators_partial [CommRing S] (T : VecReq V K S R) (Inv : V → Prop) (co : V → K → S) (dv : R → S) (r : R) (h : CorrectArith T Inv co dv) :
    C73_operators_full T.full Inv co := by
  intro a b s ha hb
  obtain ⟨_, h1, h2, _, h3, _⟩ := C72_provided T Inv co dv h a b ha hb s r
  exact ⟨h1.wrap, h2.wrap, h3.wrap⟩

/-- C73 for dense vectors over any ordered basis and any field. -/
theorem C73_dense_partial {S : Type} [Field S] (C : Coeff S S) (hC : C.IsField) (B : Basis K) :
    C73_operators_full (Dense.ops C B) (fun _ => True) (denseCo B) :=
  C73_operators_partial _ _ _ _ 1 (C72_dense C hC B)

example := C73_dense_partial (K := TensorKey) (fieldCoeff ℚ) (fieldCoeff_isField ℚ) (tensorBasis .debug 2) (.ofVec [1, 2]) (.ofBorrowed [3, 4, 5]) 3 trivial trivial

example : VectorWrapper.add (Dense.ops intCoeff (tensorBasis .debug 2)) ⟨.ofVec [1, 2, 3]⟩ ⟨.ofBorrowed [-1, -1, -1]⟩ = .ok ⟨.ofVec [0, 1, 2]⟩ := by
  decide +kernel

/-- C73 is false for sparse vectors: every operator panics, whatever the vectors (`to_owned` is `todo!()`). -/
theorem C73_sparse_panics [DecidableEq K] (C : Coeff S R) (a b : VectorWrapper (Sparse K S)) (s : S) :
    VectorWrapper.add (Sparse.ops C) a b = .panic ∧ VectorWrapper.sub (Sparse.ops C) a b = .panic ∧ VectorWrapper.mul (Sparse.ops C) a s = .panic :=
  ⟨rfl, rfl, rfl⟩

theorem C73_operators_refuted [CommRing S] [DecidableEq K] (C : Coeff S R) :
    ¬ C73_operators_full (Sparse.ops (K := K) C) (fun v => Sparse.NoDup v.entries) sparseCo := by
  intro h
  obtain ⟨⟨r, h1, _⟩, _⟩ := h ⟨[]⟩ ⟨[]⟩ 0 (by simp [Sparse.NoDup]) (by simp [Sparse.NoDup])
  rw [(C73_sparse_panics C _ _ 0).1] at h1
  cases h1

example : ¬ C73_operators_full (Sparse.ops (K := Nat) intCoeff) (fun v => Sparse.NoDup v.entries) sparseCo := C73_operators_refuted intCoeff

example := C73_sparse_panics (K := Nat) intCoeff ⟨⟨[(1, 2)]⟩⟩ ⟨⟨[(3, 4)]⟩⟩ 5

/-- C73, construction: the sum of two tensors made from lists of terms collects the terms of both lists. -/
theorem C73_from_partial [CommRing S] (C : Coeff S R) (hC : C.IsRing) (p : Profile) (N : Nat) (h2 : 2 ≤ N) (hN : N < 2 ^ 32) (xs ys : List (List Nat × S)) (D E : Nat)
    (hx : ∀ e ∈ xs, ValidWord N e.1) (hxD : ∀ e ∈ xs, e.1.length ≤ D) (hxe : ∃ e ∈ xs, e.1.length = D)
    (hy : ∀ e ∈ ys, ValidWord N e.1) (hyE : ∀ e ∈ ys, e.1.length ≤ E) (hye : ∃ e ∈ ys, e.1.length = E)
    (hD : D ≤ TensorKey.maxDepth N) (hE : E ≤ TensorKey.maxDepth N) (hpD : N ^ (D + 1) < 2 ^ 64) (hpE : N ^ (E + 1) < 2 ^ 64) (kx ky : List (TensorKey × S))
    (hkx : xs.mapM (fun e => (fun k => (k, e.2)) <$> TensorKey.fromLetters p N e.1) = .ok kx)
    (hky : ys.mapM (fun e => (fun k => (k, e.2)) <$> TensorKey.fromLetters p N e.1) = .ok ky) :
    ∃ a b c, VectorWrapper.from (Dense.ops C (tensorBasis p N)) kx = .ok a ∧ VectorWrapper.from (Dense.ops C (tensorBasis p N)) ky = .ok b ∧
      VectorWrapper.add (Dense.ops C (tensorBasis p N)) a b = .ok c ∧
      ∀ u ku, ValidWord N u → u.length ≤ TensorKey.maxDepth N → TensorKey.fromLetters p N u = .ok ku →
        (Dense.ops C (tensorBasis p N)).get c.inner ku =
          .ok (if u.length ≤ max D E then some ((valuesOf xs u).sum + (valuesOf ys u).sum) else none) := by
  have hsum : ∀ l : List S, l.foldl C.add C.zero = l.sum := fun l => by
    rw [show C.add = (· + ·) from funext fun a => funext (hC.add a), hC.zero, List.sum_eq_foldl]
  have hnil : ∀ (l : List (List Nat × S)) (F : Nat) u, (∀ e ∈ l, e.1.length ≤ F) → F < u.length → (valuesOf l u).sum = 0 := by
    intro l F u hl hu
    have : valuesOf l u = [] := by
      unfold valuesOf
      rw [List.map_eq_nil_iff, List.filter_eq_nil_iff]
      intro e he h
      have := hl e he
      rw [of_decide_eq_true h] at this
      omega
    rw [this, List.sum_nil]
  obtain ⟨a, ha, _, ga⟩ := C18_from_iterator C p N h2 hN xs D hx hxD hxe hD hpD kx hkx
  obtain ⟨b, hb, _, gb⟩ := C18_from_iterator C p N h2 hN ys E hy hyE hye hE hpE ky hky
  obtain ⟨r, c, _, hc, _, hdat, _, gr⟩ := C19_add C (tensorBasis p N) a b
  refine ⟨⟨a⟩, ⟨b⟩, ⟨c⟩, ?_, ?_, ?_, fun u ku hu hl hk => ?_⟩
  · unfold VectorWrapper.from; rw [ha]; rfl
  · unfold VectorWrapper.from; rw [hb]; rfl
  · unfold VectorWrapper.add; rw [hc]; rfl
  · have hget : (Dense.ops C (tensorBasis p N)).get c ku = (Dense.ops C (tensorBasis p N)).get r ku := by
      show Dense.get _ c ku = Dense.get _ r ku
      unfold Dense.get
      rw [hdat]
    show (Dense.ops C (tensorBasis p N)).get c ku = _
    rw [hget, gr ku _ _ (ga u ku hu hl hk) (gb u ku hu hl hk), hsum, hsum]
    congr 1
    by_cases h1 : u.length ≤ D <;> by_cases h3 : u.length ≤ E
    · rw [if_pos h1, if_pos h3, if_pos (by omega)]
      simp [combineEntry, hC.add]
    · rw [if_pos h1, if_neg h3, if_pos (by omega), hnil ys E u hyE (by omega)]
      simp [combineEntry]
    · rw [if_neg h1, if_pos h3, if_pos (by omega), hnil xs D u hxD (by omega)]
      simp [combineEntry, hC.add, hC.zero]
    · rw [if_neg h1, if_neg h3, if_neg (by omega)]
      simp [combineEntry]

/-- The crate's test of the wrapper, as an instance. -/
example := C73_from_partial intCoeff intCoeff_isRing .debug 2 (by omega) (by omega) [([], 1), ([1], 2), ([2], 3)] [([], -1), ([1], -1), ([2], -1)] 1 1
  (by decide) (by decide) (by decide) (by decide) (by decide) (by decide) (by decide +kernel) (by decide +kernel) (by decide) (by decide)
  [(⟨0, 0⟩, 1), (⟨1, 0⟩, 2), (⟨1, 1⟩, 3)] [(⟨0, 0⟩, -1), (⟨1, 0⟩, -1), (⟨1, 1⟩, -1)] (by decide +kernel) (by decide +kernel)

end
end RA
