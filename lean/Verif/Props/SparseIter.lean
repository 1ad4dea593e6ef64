import Verif.Model.SparseMore
import Verif.Props.Sparse

/-!
# Iteration over sparse vectors (C59)
-/

namespace RA
open Spec

section
variable {K S R : Type} [DecidableEq K] (C : Coeff S R)

/-- The sparse vectors that a program can make, by any sequence of the operations that return.  `perm`: the hash map may change its iteration order. -/
inductive Sparse.Made : Sparse K S → Prop
  | new : Made (Sparse.ops C).new
  | fromKey {k x} : (Sparse.ops C).fromKey k = .ok x → Made x
  | fromKeyScalar {k s x} : (Sparse.ops C).fromKeyScalar k s = .ok x → Made x
  | fromIterator {items x} : (Sparse.ops C).fromIterator items = .ok x → Made x
  | perm {a x : Sparse K S} : Made a → a.entries.Perm x.entries → Made x
  | clear {a x} : Made a → (Sparse.ops C).clear a = .ok x → Made x
  | getMut {a k f b x} : Made a → (Sparse.ops C).getMut a k f = .ok (b, x) → Made x
  | insertSingle {a k s x} : Made a → (Sparse.ops C).insertSingle a k s = .ok x → Made x
  | uminus {a x} : Made a → (Sparse.ops C).uminusInplace a = .ok x → Made x
  | add {a o x} : Made a → Made o → (Sparse.ops C).addInplace a o = .ok x → Made x
  | sub {a o x} : Made a → Made o → (Sparse.ops C).subInplace a o = .ok x → Made x
  | lmul {a s x} : Made a → (Sparse.ops C).scalarLmultiplyInplace a s = .ok x → Made x
  | rmul {a s x} : Made a → (Sparse.ops C).scalarRmultiplyInplace a s = .ok x → Made x
  | rdiv {a r x} : Made a → (Sparse.ops C).scalarRdivideInplace a r = .ok x → Made x
  | ldiv {a r x} : Made a → (Sparse.ops C).scalarLdivideInplace a r = .ok x → Made x

theorem made_wf {a : Sparse K S} (h : Sparse.Made C a) : a.WF := by
  induction h with
  | new => exact List.nodup_nil
  | fromKey h => cases h; simp [Sparse.WF, Sparse.hmInsert, Sparse.find]
  | fromKeyScalar h => cases h; simp [Sparse.WF, Sparse.hmInsert, Sparse.find]
  | fromIterator h =>
    cases h
    exact Sparse.noDup_foldl _ (fun m e hm => Sparse.noDup_hmInsert hm _ _) _ _ List.nodup_nil
  | perm _ hp ih => exact (hp.map Prod.fst).nodup_iff.1 ih
  | clear _ h _ => cases h; exact List.nodup_nil
  | @getMut a k f b x _ h ih =>
    change Sparse.getMut a k f = _ at h
    unfold Sparse.getMut at h
    split_ifs at h
    · cases h; exact Sparse.noDup_modifyAt ih _ _
    · cases h; exact ih
  | insertSingle _ h ih => cases h; exact Sparse.noDup_hmInsert ih _ _
  | uminus _ h ih => cases h; exact Sparse.noDup_map ih _
  | add _ _ h ih _ => cases h; exact Sparse.noDup_foldl _ (fun m e hm => Sparse.noDup_addStep C hm e) _ _ ih
  | sub _ _ h ih _ => cases h; exact Sparse.noDup_foldl _ (fun m e hm => Sparse.noDup_subStep C hm e) _ _ ih
  | @lmul a s x _ h ih | @rmul a s x _ h ih =>
    change Sparse.scalarLmultiplyInplace C _ _ = _ at h
    unfold Sparse.scalarLmultiplyInplace at h
    split_ifs at h
    · cases h; exact List.nodup_nil
    · cases h; exact Sparse.noDup_map ih (fun v => C.mul v s)
  | @rdiv a r x _ h ih | @ldiv a r x _ h ih => cases h; exact Sparse.noDup_map ih (fun v => C.div v r)

/-- C59.  Iterating over any sparse vector that a program can make visits every stored key exactly once, with the value `get` returns for it, and nothing
else. -/
theorem C59_iteration (a : Sparse K S) (h : Sparse.Made C a) :
    (a.intoIter.map Sparse.itemKey).Nodup ∧
      ∀ k v, (∃ e ∈ a.intoIter, Sparse.itemKey e = k ∧ Sparse.itemValue e = v) ↔ (Sparse.ops C).get a k = .ok (some v) := by
  refine ⟨made_wf C h, fun k v => ⟨?_, ?_⟩⟩
  · rintro ⟨⟨k', v'⟩, he, rfl, rfl⟩
    exact congrArg Res.ok (Sparse.find_of_mem (made_wf C h) he)
  · intro hg
    exact ⟨(k, v), Sparse.mem_of_find (Res.ok.inj hg), rfl, rfl⟩

example : ∃ a : Sparse Nat Int, Sparse.Made intCoeff a ∧ a.intoIter = [(2, -7), (1, -5)] :=
  ⟨_, .uminus (.insertSingle (.fromKeyScalar (k := 2) (s := 7) rfl) (k := 1) (s := 5) rfl) rfl, by decide⟩

example := C59_iteration intCoeff (K := Nat) _ (.uminus (.insertSingle (.fromKeyScalar (k := 2) (s := 7) rfl) (k := 1) (s := 5) rfl) rfl)

/-- C59.  Building a sparse vector from the items of another, in whatever order they come, gives the same coefficients. -/
theorem C59_rebuild (a : Sparse K S) (h : Sparse.Made C a) (items : List (K × S)) (hp : a.intoIter.Perm items) :
    ∃ s, (Sparse.ops C).fromIterator items = .ok s ∧ ∀ k, (Sparse.ops C).get s k = (Sparse.ops C).get a k := by
  obtain ⟨s, h1, _, h3⟩ := C29_sparse_from_iterator C items
  refine ⟨s, h1, fun k => ?_⟩
  have hnd : (items.map (·.1)).Nodup := (hp.map Prod.fst).nodup_iff.1 (made_wf C h)
  have hfa : Sparse.find a.entries k = Sparse.find items k := by
    apply Option.ext
    intro v
    constructor
    · intro hv
      exact Sparse.find_of_mem hnd (hp.mem_iff.1 (Sparse.mem_of_find hv))
    · intro hv
      exact Sparse.find_of_mem (made_wf C h) (hp.mem_iff.2 (Sparse.mem_of_find hv))
  rw [h3 k]
  show _ = Res.ok (Sparse.find a.entries k)
  rw [hfa]
  congr 1
  clear h1 h3 hfa hp
  induction items with
  | nil => rfl
  | cons e es ih =>
    rw [List.map_cons, List.nodup_cons] at hnd
    have ih := ih hnd.2
    rw [List.filter_cons]
    unfold Sparse.find at ih ⊢
    rw [List.find?_cons]
    by_cases hk : e.1 = k
    · have : es.filter (fun e' => decide (e'.1 = k)) = [] := by
        rw [List.filter_eq_nil_iff]
        intro e' he' h
        exact hnd.1 (List.mem_map.2 ⟨e', he', by rw [hk]; simpa using h⟩)
      simp [hk, this]
    · simpa [hk] using ih

example : ∃ s, (Sparse.ops intCoeff).fromIterator [(1, 5), (2, 7)] = .ok s ∧
    ∀ k, (Sparse.ops intCoeff).get s k = (Sparse.ops intCoeff).get (⟨[(2, 7), (1, 5)]⟩ : Sparse Nat Int) k :=
  C59_rebuild intCoeff ⟨[(2, 7), (1, 5)]⟩ (.insertSingle (.fromKeyScalar (k := 2) (s := 7) rfl) (k := 1) (s := 5) (by decide +kernel)) _ (by decide)

/-- C59.  Building a dense vector from the items of a sparse one, in whatever order they come, gives the same coefficients. -/
theorem C59_to_dense [CommRing S] (hC : C.IsRing) (B : Basis K) (a : Sparse K S) (h : Sparse.Made C a) (items : List (K × S))
    (hp : a.intoIter.Perm items) (idx : K → Nat) (hidx : ∀ k, B.keyToIndex k = .ok (idx k)) (hinj : Function.Injective idx) (dim : Nat)
    (hlt : ∀ e ∈ items, idx e.1 < dim) (hdim : ∀ e ∈ items, (∀ e' ∈ items, idx e'.1 ≤ idx e.1) → B.dimForIndex (idx e.1) = .ok dim) :
    ∃ d, (Dense.ops C B).fromIterator items = .ok d ∧ ∀ k, coefAt C B d k = .ok (a.coef C k) := by
  obtain ⟨d, s, h1, h2, h3⟩ := C29_from_iterator_partial C hC B items ((hp.map Prod.fst).nodup_iff.1 (made_wf C h)) idx hidx hinj dim hlt hdim
  obtain ⟨s', h2', h4⟩ := C59_rebuild C a h items hp
  cases h2.symm.trans h2'
  refine ⟨d, h1, fun k => ?_⟩
  rw [h3 k]
  unfold Sparse.coef
  rw [show Sparse.find s.entries k = Sparse.find a.entries k from Res.ok.inj (h4 k)]

example : ∃ d, (Dense.ops intCoeff integerBasis).fromIterator [(1, 5), (2, 7)] = .ok d ∧
    ∀ k, coefAt intCoeff integerBasis d k = .ok ((⟨[(2, 7), (1, 5)]⟩ : Sparse Nat Int).coef intCoeff k) :=
  C59_to_dense intCoeff intCoeff_isRing integerBasis ⟨[(2, 7), (1, 5)]⟩
    (.insertSingle (.fromKeyScalar (k := 2) (s := 7) rfl) (k := 1) (s := 5) (by decide +kernel)) _ (by decide) id (fun _ => rfl) (fun _ _ h => h) 255
    (by simp) (fun _ _ _ => rfl)

end

end RA
