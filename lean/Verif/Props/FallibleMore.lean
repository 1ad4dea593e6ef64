import Verif.Model.FallibleMore
import Verif.Props.FallibleProduct

/-!
# Coefficient arithmetic that panics: the methods built from others (C101)
-/

namespace RA
namespace Spec

/-- A vector built by a loop of `n` turns, as in `Loop`, on a local value.  If a turn does not return, neither does the construction, and it ends as the first such
turn; otherwise the result is a vector with its own storage. -/
def Built {S : Type} (turn : Nat → Res Unit × S) (n : Nat) (old : Nat → Option S) (r : Res (Dense S)) : Prop :=
  (∃ j < n, StopsAt (fun i => (turn i).1) n j ∧ (r >>= fun _ => .ok ()) = (turn j).1) ∨
  ((∀ i < n, (turn i).1 = .ok ()) ∧ ∃ v, r = .ok v ∧ v.mode = .owned ∧ ∀ i, v.data[i]? = if i < n then some (turn i).2 else old i)

/-- Adding the values of `l` to `x`, one after the other. -/
def sumF {S : Type} (g : S → S → Res Unit × S) : S → List S → Res S
  | x, [] => .ok x
  | x, y :: l => do
    (g x y).1
    sumF g (g x y).2 l

end Spec

namespace Fallible
open Spec
variable {K S R V : Type}

theorem built_of_loop {turn : Nat → Res Unit × S} {n : Nat} {old : Nat → Option S} {q : Res Unit × Dense S} (hm : q.2.mode = .owned)
    (h : Loop turn n old q.1 (fun i => q.2.data[i]?)) : Built turn n old (temp q) := by
  obtain ⟨j, h1, h2, h3⟩ := h
  unfold outcomeAt at h2
  by_cases hj : j < n
  · refine .inl ⟨j, hj, h1, ?_⟩
    rw [if_pos hj] at h2
    simp only at h2
    rw [← h2]
    unfold temp
    cases q.1 <;> rfl
  · have hjn : j = n := by have := h1.1; omega
    subst hjn
    rw [if_neg hj] at h2
    refine .inr ⟨h1.2.1, q.2, by unfold temp; rw [h2], hm, fun i => ?_⟩
    refine (h3 i).trans ?_
    by_cases hi : i < j
    · rw [if_pos ⟨by omega, hi⟩, if_pos hi]
    · rw [if_neg (by omega), if_neg hi]

theorem withArg_ok {A : Type} {r : Res A} {a : A} (f : A → Unw V Unit) (v : V) (h : r = .ok a) : withArg r f v = f a v := by rw [h]; rfl

theorem withArg_stop {A : Type} {r : Res A} {e : Res Unit} (f : A → Unw V Unit) (v : V) (h : (r >>= fun _ => .ok ()) = e) (he : e ≠ .ok ()) :
    withArg r f v = (e, v) := by
  subst h
  cases r with
  | ok a => exact absurd rfl he
  | _ => rfl

theorem dMul_loop (F : FCoeff S R) (d : Dense S) (s : S) :
    Loop (fun i => F.mulIn (d.data[i]?.getD F.zero) s) d.size (fun i => d.data[i]?) (dMul F d s).1 (fun i => (dMul F d s).2.data[i]?) := by
  unfold dMul
  rw [onSlice_makeMut]
  exact onSlice_each (fun x => F.mulIn x s) d F.zero

theorem dAdd_lender (F : FCoeff S R) (d o left : Dense S) (h : left = (dAdd F d o).2 ∨ left = (dSub F d o).2) :
    (d.mode = .borrowedMut ∧ o.size ≤ d.size → left.mode = .borrowedMut ∧ left.lent = left.data) ∧
    (¬ (d.mode = .borrowedMut ∧ o.size ≤ d.size) → left.mode = .owned ∧ left.lent = d.lent) := by
  rcases h with rfl | rfl
  · unfold dAdd
    simp only
    rw [onSlice_grow_makeMut]
    unfold onSlice
    simp only [Dense.writeSlice_data]
    exact ⟨fun h => (grow_write F d o.size _).2.1 h.1 h.2, (grow_write F d o.size _).2.2⟩
  · unfold dSub onSlice
    simp only [Dense.writeSlice_data]
    exact ⟨fun h => (grow_write F d o.size _).2.1 h.1 h.2, (grow_write F d o.size _).2.2⟩

/-- A method `self.op(tmp)` with a temporary built from `o` by `turn`. -/
theorem fused_ok (F : FCoeff S R) (d o : Dense S) (turn : Nat → Res Unit × S) (g : S → S → Res Unit × S) (op : Dense S → Dense S → Res Unit × Dense S)
    (hop : ∀ d o : Dense S, Loop (fun i => g (d.data[i]?.getD F.zero) (o.data[i]?.getD F.zero)) o.size
      (fun i => if i < max d.size o.size then some (d.data[i]?.getD F.zero) else none) (op d o).1 (fun i => (op d o).2.data[i]?))
    (hl : ∀ d o : Dense S, (d.mode = .borrowedMut ∧ o.size ≤ d.size → (op d o).2.mode = .borrowedMut ∧ (op d o).2.lent = (op d o).2.data) ∧
      (¬ (d.mode = .borrowedMut ∧ o.size ≤ d.size) → (op d o).2.mode = .owned ∧ (op d o).2.lent = d.lent))
    (r : Res (Dense S)) (hb : Built turn o.size (fun i => o.data[i]?) r) :
    (∀ j < o.size, StopsAt (fun i => (turn i).1) o.size j → withArg r (fun t d => op d t) d = ((turn j).1, d)) ∧
    ((∀ i < o.size, (turn i).1 = .ok ()) →
      Loop (fun i => g (d.data[i]?.getD F.zero) (turn i).2) o.size (fun i => if i < max d.size o.size then some (d.data[i]?.getD F.zero) else none)
        (withArg r (fun t d => op d t) d).1 (fun i => (withArg r (fun t d => op d t) d).2.data[i]?) ∧
      (d.mode = .borrowedMut ∧ o.size ≤ d.size → (withArg r (fun t d => op d t) d).2.mode = .borrowedMut ∧
        (withArg r (fun t d => op d t) d).2.lent = (withArg r (fun t d => op d t) d).2.data) ∧
      (¬ (d.mode = .borrowedMut ∧ o.size ≤ d.size) → (withArg r (fun t d => op d t) d).2.mode = .owned ∧
        (withArg r (fun t d => op d t) d).2.lent = d.lent)) := by
  rcases hb with ⟨j, hj, hs, hr⟩ | ⟨hs, v, hv, _, hd⟩
  · refine ⟨fun j' hj' hs' => ?_, fun h => absurd (h j hj) (hs.2.2 hj)⟩
    rw [StopsAt.unique hs' hs]
    exact withArg_stop _ _ hr (hs.2.2 hj)
  · refine ⟨fun j hj h => absurd (hs j hj) (h.2.2 hj), fun _ => ?_⟩
    have hsz : v.size = o.size := by
      have h1 := hd o.size
      rw [if_neg (by omega)] at h1
      have h2 : v.data.length ≤ o.size := List.getElem?_eq_none_iff.1 (h1.trans (List.getElem?_eq_none (Nat.le_refl _)))
      rcases Nat.lt_or_ge v.data.length o.size with h | h
      · have h3 := hd v.data.length
        rw [if_pos h, List.getElem?_eq_none (Nat.le_refl _)] at h3
        cases h3
      · exact Nat.le_antisymm h2 h
    have hw : withArg r (fun t d => op d t) d = op d v := withArg_ok (fun t d => op d t) d hv
    rw [hw]
    refine ⟨?_, ?_⟩
    · obtain ⟨j, h1, h2, h3⟩ := hop d v
      rw [hsz] at h1 h2 h3
      have ht : ∀ i < o.size, g (d.data[i]?.getD F.zero) (v.data[i]?.getD F.zero) = g (d.data[i]?.getD F.zero) (turn i).2 := fun i hi => by
        rw [hd i, if_pos hi]
        rfl
      refine ⟨j, ⟨h1.1, fun i hi => ?_, fun hj => ?_⟩, ?_, fun i => ?_⟩
      · have := h1.2.1 i hi
        simp only at this ⊢
        rw [← this, ht i (by have := h1.1; omega)]
      · have := h1.2.2 hj
        simp only at this ⊢
        rw [← ht j hj]
        exact this
      · rw [h2]
        unfold outcomeAt
        by_cases hj : j < o.size
        · rw [if_pos hj, if_pos hj]
          simp only
          rw [ht j hj]
        · rw [if_neg hj, if_neg hj]
      · refine (h3 i).trans ?_
        by_cases hi : i ≤ j ∧ i < o.size
        · rw [if_pos hi, if_pos hi]
          simp only
          rw [ht i hi.2]
        · rw [if_neg hi, if_neg hi]
    · rw [← hsz]
      exact hl d v

end Fallible

section
open Spec Fallible
variable {K S R : Type} (F : FCoeff S R)

/-- C101.  The methods of dense vectors that return a new vector, with coefficients that may panic: the new vector is returned if all the updates of its entries
return, and otherwise nothing is; the operands are not written to. -/
theorem C101_dense_new (d o : Dense S) (s : S) (r : R) :
    Built (fun i => F.addIn (d.data[i]?.getD F.zero) (o.data[i]?.getD F.zero)) o.size
      (fun i => if i < max d.size o.size then some (d.data[i]?.getD F.zero) else none) (dAddNew F d o) ∧
    Built (fun i => F.subIn (d.data[i]?.getD F.zero) (o.data[i]?.getD F.zero)) o.size
      (fun i => if i < max d.size o.size then some (d.data[i]?.getD F.zero) else none) (dSubNew F d o) ∧
    Built (fun i => F.mulIn (d.data[i]?.getD F.zero) s) d.size (fun i => d.data[i]?) (dMulNew F d s) ∧
    Built (fun i => F.divIn (d.data[i]?.getD F.zero) r) d.size (fun i => d.data[i]?) (dDivNew F d r) ∧
    Built (fun i => (F.uminus (d.data[i]?.getD F.zero) >>= fun _ => .ok (), match F.uminus (d.data[i]?.getD F.zero) with
      | .ok y => y
      | _ => d.data[i]?.getD F.zero)) d.size (fun i => d.data[i]?) (dUminusNew F d) := by
  have ho : ∀ left, left = (dAdd F (.ofVec d.data) o).2 ∨ left = (dSub F (.ofVec d.data) o).2 → left.mode = .owned := fun left h =>
    ((dAdd_lender F (.ofVec d.data) o left h).2 (by rintro ⟨h, _⟩; cases h)).1
  exact ⟨built_of_loop (ho _ (.inl rfl)) (C100_dense_add F (.ofVec d.data) o).1, built_of_loop (ho _ (.inr rfl)) (C100_dense_add F (.ofVec d.data) o).2,
    built_of_loop rfl (dMul_loop F (.ofVec d.data) s), built_of_loop rfl (C100_dense_scale F (.ofVec d.data) s r).2.1,
    built_of_loop rfl (C100_dense_scale F (.ofVec d.data) s r).2.2⟩

/-- C101.  `add_scalar_lmultiply` and `sub_scalar_lmultiply` of dense vectors: all the products are computed before the first of them is added.  If one of them does
not return, the vector is as it was, not grown, in the same storage.  Otherwise the products are added, or subtracted, entry by entry as in C100. -/
theorem C101_fused_multiply (d o : Dense S) (s : S) (g : S → S → Res Unit × S) (q : Res Unit × Dense S)
    (hq : g = F.addIn ∧ q = dAddMul F d o s ∨ g = F.subIn ∧ q = dSubMul F d o s) :
    (∀ j < o.size, StopsAt (fun i => (F.mulIn (o.data[i]?.getD F.zero) s).1) o.size j → q = ((F.mulIn (o.data[j]?.getD F.zero) s).1, d)) ∧
    ((∀ i < o.size, (F.mulIn (o.data[i]?.getD F.zero) s).1 = .ok ()) →
      Loop (fun i => g (d.data[i]?.getD F.zero) (F.mulIn (o.data[i]?.getD F.zero) s).2) o.size
        (fun i => if i < max d.size o.size then some (d.data[i]?.getD F.zero) else none) q.1 (fun i => q.2.data[i]?) ∧
      (d.mode = .borrowedMut ∧ o.size ≤ d.size → q.2.mode = .borrowedMut ∧ q.2.lent = q.2.data) ∧
      (¬ (d.mode = .borrowedMut ∧ o.size ≤ d.size) → q.2.mode = .owned ∧ q.2.lent = d.lent)) := by
  have hb := built_of_loop rfl (dMul_loop F (.ofVec o.data) s)
  rcases hq with ⟨rfl, rfl⟩ | ⟨rfl, rfl⟩
  · exact fused_ok F d o _ F.addIn (dAdd F) (fun d o => (C100_dense_add F d o).1) (fun d o => dAdd_lender F d o _ (.inl rfl)) _ hb
  · exact fused_ok F d o _ F.subIn (dSub F) (fun d o => (C100_dense_add F d o).2) (fun d o => dAdd_lender F d o _ (.inr rfl)) _ hb

/-- C101.  The same for `add_scalar_rdivide` and `sub_scalar_rdivide`. -/
theorem C101_fused_divide (d o : Dense S) (r : R) (g : S → S → Res Unit × S) (q : Res Unit × Dense S)
    (hq : g = F.addIn ∧ q = dAddDiv F d o r ∨ g = F.subIn ∧ q = dSubDiv F d o r) :
    (∀ j < o.size, StopsAt (fun i => (F.divIn (o.data[i]?.getD F.zero) r).1) o.size j → q = ((F.divIn (o.data[j]?.getD F.zero) r).1, d)) ∧
    ((∀ i < o.size, (F.divIn (o.data[i]?.getD F.zero) r).1 = .ok ()) →
      Loop (fun i => g (d.data[i]?.getD F.zero) (F.divIn (o.data[i]?.getD F.zero) r).2) o.size
        (fun i => if i < max d.size o.size then some (d.data[i]?.getD F.zero) else none) q.1 (fun i => q.2.data[i]?) ∧
      (d.mode = .borrowedMut ∧ o.size ≤ d.size → q.2.mode = .borrowedMut ∧ q.2.lent = q.2.data) ∧
      (¬ (d.mode = .borrowedMut ∧ o.size ≤ d.size) → q.2.mode = .owned ∧ q.2.lent = d.lent)) := by
  have hb := built_of_loop rfl (onSlice_each (fun x => F.divIn x r) (.ofVec o.data) F.zero)
  rcases hq with ⟨rfl, rfl⟩ | ⟨rfl, rfl⟩
  · exact fused_ok F d o _ F.addIn (dAdd F) (fun d o => (C100_dense_add F d o).1) (fun d o => dAdd_lender F d o _ (.inl rfl)) _ hb
  · exact fused_ok F d o _ F.subIn (dSub F) (fun d o => (C100_dense_add F d o).2) (fun d o => dAdd_lender F d o _ (.inr rfl)) _ hb

/-! ## `VectorKeyExt` -/

/-- The four methods of `VectorKeyExt` at a key that is present: the operation `g` they apply to the entry, and the scalar `y` they apply it with.  The last one subtracts
`-1 / r`. -/
def Spec.KeyPresent {V : Type} (T : KeyOps V K S) (v : V) (k : K) (g : S → S → Res Unit × S) (y : S) (q : Res Unit × V) : Prop :=
  g = F.addIn ∧ q = keyAdd F T k y v ∨ g = F.subIn ∧ q = keySub F T k y v ∨
  (∃ r, F.div F.one r = .ok y ∧ g = F.addIn ∧ q = keyAddDiv F T k r v) ∨ ∃ r, F.div F.mone r = .ok y ∧ g = F.subIn ∧ q = keySubDiv F T k r v

/-- The four methods of `VectorKeyExt` at a key that is not present: the scalar `y` they try to insert. -/
def Spec.KeyAbsent {V : Type} (T : KeyOps V K S) (v : V) (k : K) (y : S) (q : Res Unit × V) : Prop :=
  q = keyAdd F T k y v ∨ (∃ s, F.uminus s = .ok y ∧ q = keySub F T k s v) ∨
  (∃ r, F.div F.one r = .ok y ∧ q = keyAddDiv F T k r v) ∨ ∃ r, F.div F.mone r = .ok y ∧ q = keySubDiv F T k r v

/-- C101.  In the division methods of `VectorKeyExt`, for any vector type, a quotient that does not return leaves the vector as it was. -/
theorem C101_key_quotient {V : Type} (T : KeyOps V K S) (v : V) (k : K) (r : R) (e : Res Unit) (he : e ≠ .ok ()) :
    ((F.div F.one r >>= fun _ => .ok ()) = e → keyAddDiv F T k r v = (e, v)) ∧
    ((F.div F.mone r >>= fun _ => .ok ()) = e → keySubDiv F T k r v = (e, v)) := by
  constructor
  · rintro rfl
    unfold keyAddDiv
    cases h : F.div F.one r with
    | ok c => rw [h] at he; exact absurd rfl he
    | _ => rfl
  · rintro rfl
    unfold keySubDiv
    cases h : F.div F.mone r with
    | ok c => rw [h] at he; exact absurd rfl he
    | _ => rfl

theorem keyPresent_ok {V : Type} (T : KeyOps V K S) (v : V) (k : K) (g : S → S → Res Unit × S) (y : S) (q : Res Unit × V) (h : Spec.KeyPresent F T v k g y q)
    (e : Res Unit) (left : V) (ht : T.getMut k (fun x => g x y) v = (e >>= fun _ => .ok true, left)) : q = (e, left) := by
  rcases h with ⟨rfl, rfl⟩ | ⟨rfl, rfl⟩ | ⟨r, hr, rfl, rfl⟩ | ⟨r, hr, rfl, rfl⟩
  · unfold keyAdd
    show Unw.bind _ _ v = _
    unfold Unw.bind
    rw [ht]
    cases e <;> rfl
  · unfold keySub
    show Unw.bind _ _ v = _
    unfold Unw.bind
    rw [ht]
    cases e <;> rfl
  · unfold keyAddDiv
    rw [hr]
    show Unw.bind (T.getMut k fun x => F.addIn x y) _ v = _
    unfold Unw.bind
    rw [ht]
    cases e <;> rfl
  · unfold keySubDiv
    rw [hr]
    show Unw.bind (T.getMut k fun x => F.subIn x y) _ v = _
    unfold Unw.bind
    rw [ht]
    cases e <;> rfl

theorem keyAbsent_ok {V : Type} (T : KeyOps V K S) (v v' : V) (k : K) (y : S) (q : Res Unit × V) (h : Spec.KeyAbsent F T v k y q)
    (ht : ∀ f, T.getMut k f v = (.ok false, v')) : q = T.insertSingle k y v' := by
  rcases h with rfl | ⟨s, hs, rfl⟩ | ⟨r, hr, rfl⟩ | ⟨r, hr, rfl⟩
  · unfold keyAdd
    show Unw.bind _ _ v = _
    unfold Unw.bind
    rw [ht]
    rfl
  · unfold keySub
    rw [hs]
    show Unw.bind _ _ v = _
    unfold Unw.bind
    rw [ht]
    rfl
  · unfold keyAddDiv
    rw [hr]
    show Unw.bind (T.getMut k fun x => F.addIn x y) _ v = _
    unfold Unw.bind
    rw [ht]
    rfl
  · unfold keySubDiv
    rw [hr]
    show Unw.bind (T.getMut k fun x => F.subIn x y) _ v = _
    unfold Unw.bind
    rw [ht]
    rfl

/-- C101.  `VectorKeyExt` on a dense vector that has an entry at the key: the entry holds what the operation on it left, whether or not it returned; no other entry
changes.  Through an exclusively borrowed buffer the lender sees the same; otherwise the vector has its own storage afterwards. -/
theorem C101_key_dense_present (B : Basis K) (d : Dense S) (k : K) (i : Nat) (hk : B.keyToIndex k = .ok i) (x : S) (hx : d.data[i]? = some x)
    (g : S → S → Res Unit × S) (y : S) (q : Res Unit × Dense S) (h : Spec.KeyPresent F (denseKeys B) d k g y q) :
    q.1 = (g x y).1 ∧ (∀ j : Nat, q.2.data[j]? = if j = i then some (g x y).2 else d.data[j]?) ∧
    (d.mode = .borrowedMut → q.2.mode = .borrowedMut ∧ q.2.lent = q.2.data) ∧ (d.mode ≠ .borrowedMut → q.2.mode = .owned ∧ q.2.lent = d.lent) := by
  have hi : i < d.data.length := (List.getElem?_eq_some_iff.1 hx).1
  have hq := keyPresent_ok F (denseKeys B) d k g y q h (g x y).1 (d.writeSlice (d.data.set i (g x y).2)) (by
    unfold denseKeys
    simp only [hk, hx]
    rcases g x y with ⟨⟨⟩ | _ | _ | _, z⟩ <;> rfl)
  subst hq
  refine ⟨rfl, fun j => ?_, ?_⟩
  · simp only [Dense.writeSlice_data]
    rw [List.getElem?_set]
    by_cases hj : j = i
    · subst hj
      simp [hi]
    · simp [hj, Ne.symm hj]
  · rcases d with ⟨_ | _ | _, data, lent⟩
    · exact ⟨nofun, fun _ => ⟨rfl, rfl⟩⟩
    · exact ⟨nofun, fun _ => ⟨rfl, rfl⟩⟩
    · exact ⟨fun _ => ⟨rfl, rfl⟩, fun h => absurd rfl h⟩

/-- C101.  `VectorKeyExt` on a dense vector that is too short for the key: it returns, and no entry changes (`insert_single` does nothing).  A negative is computed all
the same by `sub_scalar_multiply`; if that does not return, neither does the method. -/
theorem C101_key_dense_absent (B : Basis K) (d : Dense S) (k : K) (i : Nat) (hk : B.keyToIndex k = .ok i) (hx : d.data[i]? = none) :
    (∀ y q, Spec.KeyAbsent F (denseKeys B) d k y q → q.1 = .ok () ∧ q.2.data = d.data ∧ q.2.lent = d.lent ∧
      q.2.mode = if d.mode = .borrowed then .owned else d.mode) ∧
    (∀ (s : S) (e : Res Unit), e ≠ .ok () → (F.uminus s >>= fun _ => .ok ()) = e → (keySub F (denseKeys B) k s d).1 = e ∧
      (keySub F (denseKeys B) k s d).2.data = d.data ∧ (keySub F (denseKeys B) k s d).2.lent = d.lent) := by
  have hg : ∀ f, (denseKeys (S := S) B).getMut k f d = (.ok false, d.makeMut) := fun f => by
    unfold denseKeys
    simp only [hk, hx]
  constructor
  · intro y q h
    have hq := keyAbsent_ok F (denseKeys B) d d.makeMut k y q h hg
    have hins : (denseKeys (S := S) B).insertSingle k y d.makeMut = (.ok (), d.makeMut) := by
      unfold denseKeys
      simp only [hk]
      rfl
    rw [hins] at hq
    subst hq
    rcases d with ⟨_ | _ | _, data, lent⟩ <;> exact ⟨rfl, rfl, rfl, rfl⟩
  · intro s e he hs
    subst hs
    have : keySub F (denseKeys B) k s d = (F.uminus s >>= fun _ => .ok (), d.makeMut) := by
      unfold keySub
      show Unw.bind _ _ d = _
      unfold Unw.bind
      rw [hg]
      cases h : F.uminus s with
      | ok y => rw [h] at he; exact absurd rfl he
      | _ => rfl
    rw [this]
    rcases d with ⟨_ | _ | _, data, lent⟩ <;> exact ⟨rfl, rfl, rfl⟩

/-- C101.  `VectorKeyExt` on sparse vectors.  A key that is present: its entry holds what the operation on it left, whether or not it returned, even if that is zero.
A key that is not: it is inserted.  No other entry changes, and no key is stored twice. -/
theorem C101_key_sparse [DecidableEq K] (a : Sparse K S) (ha : Sparse.NoDup a.entries) (k : K) :
    (∀ x, Sparse.find a.entries k = some x → ∀ g y q, Spec.KeyPresent F sparseKeys a k g y q →
      q.1 = (g x y).1 ∧ Sparse.NoDup q.2.entries ∧ ∀ k', Sparse.find q.2.entries k' = if k' = k then some (g x y).2 else Sparse.find a.entries k') ∧
    (Sparse.find a.entries k = none → ∀ y q, Spec.KeyAbsent F sparseKeys a k y q →
      q.1 = .ok () ∧ Sparse.NoDup q.2.entries ∧ ∀ k', Sparse.find q.2.entries k' = if k' = k then some y else Sparse.find a.entries k') ∧
    (Sparse.find a.entries k = none → ∀ (s : S) (e : Res Unit), e ≠ .ok () → (F.uminus s >>= fun _ => .ok ()) = e →
      keySub F sparseKeys k s a = (e, a)) := by
  refine ⟨fun x hx g y q h => ?_, fun hx y q h => ?_, fun hx s e he hs => ?_⟩
  · have hq := keyPresent_ok F sparseKeys a k g y q h (g x y).1 ⟨Sparse.modifyAt a.entries k fun _ => (g x y).2⟩ (by
      unfold sparseKeys
      simp only [hx]
      rcases g x y with ⟨⟨⟩ | _ | _ | _, z⟩ <;> rfl)
    subst hq
    refine ⟨rfl, Sparse.noDup_modifyAt ha k fun _ => (g x y).2, fun k' => ?_⟩
    rw [Sparse.find_modifyAt]
    by_cases hk : k' = k
    · subst hk
      simp [hx]
    · simp [hk]
  · have hq := keyAbsent_ok F sparseKeys a a k y q h (fun f => by unfold sparseKeys; simp only [hx])
    subst hq
    exact ⟨rfl, Sparse.noDup_hmInsert ha _ _, fun k' => Sparse.find_hmInsert _ _ _ _⟩
  · subst hs
    unfold keySub
    show Unw.bind _ _ a = _
    unfold Unw.bind
    rw [show (sparseKeys (S := S)).getMut k (fun x => F.subIn x s) a = (.ok false, a) by unfold sparseKeys; simp only [hx]]
    cases h : F.uminus s with
    | ok y => rw [h] at he; exact absurd rfl he
    | _ => rfl

/-! ## `from_iterator` -/

theorem sumF_append (g : S → S → Res Unit × S) (x : S) (l l' : List S) : sumF g x (l ++ l') = sumF g x l >>= fun y => sumF g y l' := by
  induction l generalizing x with
  | nil => rfl
  | cons y l ih =>
    show ((g x y).1 >>= fun _ => sumF g _ (l ++ l')) = ((g x y).1 >>= fun _ => sumF g _ l) >>= _
    rw [ih]
    cases (g x y).1 <;> rfl

theorem fromIteratorStepF_fold (es : List (Nat × S)) (l : List S) (h : ∀ e ∈ es, e.1 < l.length) :
    (∀ l', es.foldlM (fromIteratorStepF F) l = .ok l' → l'.length = l.length ∧ ∀ i x, l[i]? = some x →
      ∃ y, sumF F.addIn x ((es.filter fun e => e.1 = i).map (·.2)) = .ok y ∧ l'[i]? = some y) ∧
    ((∀ i x, l[i]? = some x → ∃ y, sumF F.addIn x ((es.filter fun e => e.1 = i).map (·.2)) = .ok y) → ∃ l', es.foldlM (fromIteratorStepF F) l = .ok l') := by
  induction es generalizing l with
  | nil =>
    refine ⟨fun l' hl => ?_, fun _ => ⟨l, rfl⟩⟩
    cases hl
    exact ⟨rfl, fun i x hx => ⟨x, rfl, hx⟩⟩
  | cons e es ih =>
    have he : e.1 < l.length := h e (by simp)
    have hx : l[e.1]? = some l[e.1] := List.getElem?_eq_getElem he
    rw [List.foldlM_cons]
    have hstep : fromIteratorStepF F l e = (F.addIn l[e.1] e.2).1 >>= fun _ => .ok (l.set e.1 (F.addIn l[e.1] e.2).2) := by
      unfold fromIteratorStepF
      rw [hx]
      simp only
      rcases F.addIn l[e.1] e.2 with ⟨⟨⟩ | _ | _ | _, z⟩ <;> rfl
    rw [hstep]
    have hsum : ∀ i x, l[i]? = some x → sumF F.addIn x (((e :: es).filter fun e => e.1 = i).map (·.2)) =
        if e.1 = i then (F.addIn l[e.1] e.2).1 >>= fun _ => sumF F.addIn (F.addIn l[e.1] e.2).2 ((es.filter fun e => e.1 = i).map (·.2))
        else sumF F.addIn x ((es.filter fun e => e.1 = i).map (·.2)) := by
      intro i x hi
      by_cases hei : e.1 = i
      · subst hei
        rw [hx] at hi
        cases hi
        simp only [List.filter_cons, decide_true, if_true, List.map_cons]
        rfl
      · rw [if_neg hei, List.filter_cons_of_neg (by simpa using hei)]
    cases ho : (F.addIn l[e.1] e.2).1 with
    | ok u =>
      simp only [Res.bind_ok]
      rw [ho] at hsum
      simp only [Res.bind_ok] at hsum
      obtain ⟨h1, h2⟩ := ih (l.set e.1 (F.addIn l[e.1] e.2).2) (fun e' h' => by rw [List.length_set]; exact h e' (by simp [h']))
      have hset : ∀ i x, l[i]? = some x → (l.set e.1 (F.addIn l[e.1] e.2).2)[i]? = some (if e.1 = i then (F.addIn l[e.1] e.2).2 else x) := by
        intro i x hi
        rw [List.getElem?_set]
        by_cases hei : e.1 = i
        · subst hei
          simp [he]
        · simp [hei, hi]
      constructor
      · intro l' hl
        obtain ⟨h3, h4⟩ := h1 l' hl
        refine ⟨by rw [h3, List.length_set], fun i x hi => ?_⟩
        obtain ⟨y, hy, hy'⟩ := h4 i _ (hset i x hi)
        refine ⟨y, ?_, hy'⟩
        rw [hsum i x hi]
        by_cases hei : e.1 = i
        · rw [if_pos hei] at hy ⊢
          exact hy
        · rw [if_neg hei] at hy ⊢
          exact hy
      · intro hall
        refine h2 fun i x hi => ?_
        have hil : i < l.length := by
          have := (List.getElem?_eq_some_iff.1 hi).1
          rwa [List.length_set] at this
        obtain ⟨y, hy⟩ := hall i l[i] (List.getElem?_eq_getElem hil)
        rw [hset i l[i] (List.getElem?_eq_getElem hil)] at hi
        cases hi
        rw [hsum i l[i] (List.getElem?_eq_getElem hil)] at hy
        refine ⟨y, ?_⟩
        by_cases hei : e.1 = i
        · rw [if_pos hei] at hy ⊢
          exact hy
        · rw [if_neg hei] at hy ⊢
          exact hy
    | _ =>
      refine ⟨nofun, fun hall => ?_⟩
      obtain ⟨y, hy⟩ := hall e.1 _ hx
      rw [hsum _ _ hx, if_pos rfl, ho] at hy
      cases hy

/-- C101.  `from_iterator` of dense vectors: it returns exactly if for every index the values given for it can be added up, in the order they are given, starting from
zero; and the entries are these sums.  `idx` is the index of a key, `dim` the dimension for the largest index. -/
theorem C101_from_iterator (B : Basis K) (items : List (K × S)) (idx : K → Nat) (hk : ∀ e ∈ items, B.keyToIndex e.1 = .ok (idx e.1)) (hne : items ≠ [])
    (dim : Nat) (hlt : ∀ e ∈ items, idx e.1 < dim)
    (hdim : ∀ e ∈ items, (∀ e' ∈ items, idx e'.1 ≤ idx e.1) → B.dimForIndex (idx e.1) = .ok dim) :
    (∀ v, fromIteratorF F B items = .ok v → v.mode = .owned ∧ v.size = dim ∧ ∀ i < dim, ∃ y,
      sumF F.addIn F.zero ((items.filter fun e => idx e.1 = i).map (·.2)) = .ok y ∧ v.data[i]? = some y) ∧
    ((∀ i < dim, ∃ y, sumF F.addIn F.zero ((items.filter fun e => idx e.1 = i).map (·.2)) = .ok y) → ∃ v, fromIteratorF F B items = .ok v) := by
  have hmap : items.mapM (fun e => do
      let i ← B.keyToIndex e.1
      return (i, e.2)) = (.ok (items.map fun e => (idx e.1, e.2)) : Res _) := by
    clear hne hlt hdim
    induction items with
    | nil => rfl
    | cons e es ih =>
      rw [List.mapM_cons, hk e (by simp), ih (fun e' h => hk e' (by simp [h]))]
      rfl
  set vec := items.map fun e => (idx e.1, e.2) with hvec
  set srt := vec.mergeSort (fun a b => decide (a.1 ≤ b.1)) with hsrt
  have hperm : srt.Perm vec := List.mergeSort_perm _ _
  have hsne : srt ≠ [] := by
    intro h
    rw [h] at hperm
    have := hperm.symm.eq_nil
    rw [hvec, List.map_eq_nil_iff] at this
    exact hne this
  have hpw : srt.Pairwise (fun a b => a.1 ≤ b.1) := by
    have := List.pairwise_mergeSort (le := fun a b : Nat × S => decide (a.1 ≤ b.1))
      (by intro a b c; simp; omega) (by intro a b; simp; omega) vec
    exact this.imp (by intro a b; simp)
  have hlast : srt.getLast? = some (srt.getLast hsne) := List.getLast?_eq_some_getLast hsne
  set last := srt.getLast hsne with hl
  have hlmem : last ∈ vec := hperm.mem_iff.1 (List.getLast_mem hsne)
  have hmax : ∀ e ∈ vec, e.1 ≤ last.1 := by
    intro e he
    have he' := hperm.mem_iff.2 he
    rw [← List.dropLast_concat_getLast hsne, List.mem_append] at he'
    rcases he' with he' | he'
    · rw [← List.dropLast_concat_getLast hsne, List.pairwise_append] at hpw
      exact hpw.2.2 e he' _ (by simp [hl])
    · simp at he'
      rw [he']
  obtain ⟨e0, he0, hle0⟩ := List.mem_map.1 hlmem
  have hd : B.dimForIndex last.1 = .ok dim := by
    rw [← hle0]
    refine hdim e0 he0 ?_
    intro e' he'
    have := hmax (idx e'.1, e'.2) (List.mem_map.2 ⟨e', he', rfl⟩)
    rw [← hle0] at this
    exact this
  have heq : fromIteratorF F B items = (srt.foldlM (fromIteratorStepF F) (List.replicate dim F.zero) >>= fun l => .ok (.ofVec l)) := by
    unfold fromIteratorF
    rw [hmap, Res.bind_ok]
    simp only [← hsrt, hlast, hd, Res.bind_ok]
    rfl
  obtain ⟨h1, h2⟩ := fromIteratorStepF_fold F srt (List.replicate dim F.zero) (fun e he => by
    rw [List.length_replicate]
    obtain ⟨e', he', rfl⟩ := List.mem_map.1 (hperm.mem_iff.1 he)
    exact hlt e' he')
  have hf : ∀ i, (srt.filter fun e => e.1 = i).map (·.2) = (items.filter fun e => idx e.1 = i).map (·.2) := fun i => by
    rw [hsrt, Dense.filter_mergeSort, hvec, List.filter_map, List.map_map]
    rfl
  simp only [hf, List.getElem?_replicate] at h1 h2
  rw [heq]
  constructor
  · intro v hv
    cases hfold : srt.foldlM (fromIteratorStepF F) (List.replicate dim F.zero) with
    | ok l =>
      rw [hfold] at hv
      cases hv
      obtain ⟨h3, h4⟩ := h1 l hfold
      exact ⟨rfl, by rw [← List.length_replicate (n := dim) (a := F.zero)]; exact h3, fun i hi => h4 i F.zero (by rw [if_pos hi])⟩
    | panic => rw [hfold] at hv; cases hv
    | ub => rw [hfold] at hv; cases hv
    | diverge => rw [hfold] at hv; cases hv
  · intro hall
    obtain ⟨l, hl⟩ := h2 fun i x hi => by
      split_ifs at hi with h
      cases hi
      exact hall i h
    exact ⟨.ofVec l, by rw [hl]; rfl⟩

/-- C101.  With coefficients that never panic these are the methods of the other claims. -/
theorem C101_dense_total (C : Coeff S R) (B : Basis K) (d o : Dense S) (s : S) (r : R) (k : K) (items : List (K × S)) :
    (Dense.ops C B).add d o = dAddNew (.ofCoeff C) d o ∧ (Dense.ops C B).sub d o = dSubNew (.ofCoeff C) d o ∧
    (Dense.ops C B).scalarLmultiply d s = dMulNew (.ofCoeff C) d s ∧ (Dense.ops C B).scalarRmultiply d s = dMulNew (.ofCoeff C) d s ∧
    (Dense.ops C B).scalarRdivide d r = dDivNew (.ofCoeff C) d r ∧ (Dense.ops C B).scalarLdivide d r = dDivNew (.ofCoeff C) d r ∧
    (Dense.ops C B).uminus d = dUminusNew (.ofCoeff C) d ∧
    (Dense.ops C B).addScalarLmultiply d o s = temp (dAddMul (.ofCoeff C) d o s) ∧
    (Dense.ops C B).addScalarRmultiply d o s = temp (dAddMul (.ofCoeff C) d o s) ∧
    (Dense.ops C B).subScalarLmultiply d o s = temp (dSubMul (.ofCoeff C) d o s) ∧
    (Dense.ops C B).subScalarRmultiply d o s = temp (dSubMul (.ofCoeff C) d o s) ∧
    (Dense.ops C B).addScalarRdivide d o r = temp (dAddDiv (.ofCoeff C) d o r) ∧
    (Dense.ops C B).addScalarLdivide d o r = temp (dAddDiv (.ofCoeff C) d o r) ∧
    (Dense.ops C B).subScalarRdivide d o r = temp (dSubDiv (.ofCoeff C) d o r) ∧
    (Dense.ops C B).subScalarLdivide d o r = temp (dSubDiv (.ofCoeff C) d o r) ∧
    KeyExt.addScalarMultiply C (Dense.ops C B) d k s = temp (keyAdd (.ofCoeff C) (denseKeys B) k s d) ∧
    KeyExt.subScalarMultiply C (Dense.ops C B) d k s = temp (keySub (.ofCoeff C) (denseKeys B) k s d) ∧
    KeyExt.addScalarDivide C (Dense.ops C B) d k r = temp (keyAddDiv (.ofCoeff C) (denseKeys B) k r d) ∧
    KeyExt.subScalarDivide C (Dense.ops C B) d k r = temp (keySubDiv (.ofCoeff C) (denseKeys B) k r d) ∧
    (Dense.ops C B).fromIterator items = fromIteratorF (.ofCoeff C) B items := by
  have ht : ∀ {q : Res Unit × Dense S} {v : Res (Dense S)}, v = .ok q.2 → q.1 = .ok () → v = temp q := fun h1 h2 => by unfold temp; rw [h1, h2]
  have hA : ∀ d o : Dense S, Dense.addInplace C d o = temp (dAdd (.ofCoeff C) d o) := fun d o => ht (C100_dense_total C d o s r).1 (C100_dense_total C d o s r).2.1
  have hS : ∀ d o : Dense S, Dense.subInplace C d o = temp (dSub (.ofCoeff C) d o) := fun d o =>
    ht (C100_dense_total C d o s r).2.2.1 (C100_dense_total C d o s r).2.2.2.1
  have hM : ∀ d : Dense S, Dense.scalarLmultiplyInplace C d s = temp (dMul (.ofCoeff C) d s) := fun d =>
    ht (C100_dense_total C d o s r).2.2.2.2.1 (C100_dense_total C d o s r).2.2.2.2.2.1
  have hD : ∀ d : Dense S, Dense.scalarRdivideInplace C d r = temp (dDiv (.ofCoeff C) d r) := fun d =>
    ht (C100_dense_total C d o s r).2.2.2.2.2.2.1 (C100_dense_total C d o s r).2.2.2.2.2.2.2.1
  have hU : ∀ d : Dense S, Dense.uminusInplace C d = temp (dUminus (.ofCoeff C) d) := fun d =>
    ht (C100_dense_total C d o s r).2.2.2.2.2.2.2.2.1 (C100_dense_total C d o s r).2.2.2.2.2.2.2.2.2
  have hw : ∀ (t : Res (Dense S)) (op : Dense S → Dense S → Res (Dense S)) (op' : Dense S → Dense S → Res Unit × Dense S),
      (∀ d o, op d o = temp (op' d o)) → (t >>= fun t => op d t) = temp (withArg t (fun t d => op' d t) d) := fun t op op' h => by
    cases t with
    | ok t => exact h d t
    | _ => rfl
  have hkey : ∀ (f : S → S) (u : Res S) (y : S), u = .ok y →
      ((Dense.ops C B).getMut d k f >>= fun x => if x.1 then .ok x.2 else (Dense.ops C B).insertSingle x.2 k y) =
      temp (Unw.bind ((denseKeys B).getMut k fun x => (.ok (), f x)) (fun b => if b then pure () else Unw.bind (Unw.lift u) ((denseKeys B).insertSingle k)) d) :=
      fun f u y hu => by
    subst hu
    show (Dense.getMut B d k f >>= fun x => if x.1 then .ok x.2 else Dense.insertSingle B x.2 k y) = _
    unfold Dense.getMut Dense.insertSingle Unw.bind
    cases hk : B.keyToIndex k with
    | ok i =>
      rw [Res.bind_ok]
      by_cases h : i < d.data.length
      · have h1 : (denseKeys B).getMut k (fun x => (.ok (), f x)) d = (.ok true, d.writeSlice (d.data.set i (f d.data[i]))) := by
          unfold denseKeys
          simp only [hk, List.getElem?_eq_getElem h]
        rw [if_pos h, List.modify_eq_set_getElem?, List.getElem?_eq_getElem h, h1]
        rfl
      · have h1 : (denseKeys B).getMut k (fun x => (.ok (), f x)) d = (.ok false, d.makeMut) := by
          unfold denseKeys
          simp only [hk, List.getElem?_eq_none (Nat.le_of_not_lt h)]
        have h2 : (denseKeys B).insertSingle k y d.makeMut = (.ok (), d.makeMut) := by
          unfold denseKeys
          simp only [hk]
          rfl
        rw [if_neg h, h1]
        exact (congrArg temp h2).symm
    | _ =>
      have h2 : (denseKeys B).getMut k (fun x => (.ok (), f x)) d = (B.keyToIndex k >>= fun _ => .ok true, d.makeMut) := by
        unfold denseKeys
        simp only [hk]
        rfl
      rw [h2, hk]
      rfl
  refine ⟨hA _ _, hS _ _, hM _, hM _, hD _, hD _, hU _, ?_, ?_, ?_, ?_, ?_, ?_, ?_, ?_, ?_, ?_, ?_, ?_, ?_⟩
  · exact (congrArg (· >>= _) (hM (.ofVec o.data))).trans (hw _ _ _ hA)
  · exact (congrArg (· >>= _) (hM (.ofVec o.data))).trans (hw _ _ _ hA)
  · exact (congrArg (· >>= _) (hM (.ofVec o.data))).trans (hw _ _ _ hS)
  · exact (congrArg (· >>= _) (hM (.ofVec o.data))).trans (hw _ _ _ hS)
  · exact (congrArg (· >>= _) (hD (.ofVec o.data))).trans (hw _ _ _ hA)
  · exact (congrArg (· >>= _) (hD (.ofVec o.data))).trans (hw _ _ _ hA)
  · exact (congrArg (· >>= _) (hD (.ofVec o.data))).trans (hw _ _ _ hS)
  · exact (congrArg (· >>= _) (hD (.ofVec o.data))).trans (hw _ _ _ hS)
  · exact hkey (fun x => C.add x s) (.ok s) s rfl
  · exact hkey (fun x => C.sub x s) (.ok (C.uminus s)) _ rfl
  · exact hkey (fun x => C.add x (C.div C.one r)) (.ok (C.div C.one r)) _ rfl
  · exact hkey (fun x => C.sub x (C.div C.mone r)) (.ok (C.div C.mone r)) _ rfl
  · have hst : ∀ (l : List S) (e : Nat × S), Dense.fromIteratorStep C (.ofVec l) e = (fromIteratorStepF (.ofCoeff C) l e >>= fun l => .ok (.ofVec l)) := by
      intro l e
      unfold Dense.fromIteratorStep modifyUnchecked fromIteratorStepF
      rw [Dense.ofVec_data]
      by_cases h : e.1 < l.length
      · rw [if_pos h, List.getElem?_eq_getElem h, List.modify_eq_set_getElem?, List.getElem?_eq_getElem h]
        rfl
      · rw [if_neg h, List.getElem?_eq_none (Nat.le_of_not_lt h)]
        rfl
    have hfold : ∀ (es : List (Nat × S)) (l : List S), es.foldlM (Dense.fromIteratorStep C) (.ofVec l) =
        (es.foldlM (fromIteratorStepF (.ofCoeff C)) l >>= fun l => .ok (.ofVec l)) := by
      intro es
      induction es with
      | nil => intro l; rfl
      | cons e es ih =>
        intro l
        rw [List.foldlM_cons, List.foldlM_cons, hst]
        cases fromIteratorStepF (.ofCoeff C) l e with
        | ok l' => exact ih l'
        | _ => rfl
    show Dense.fromIterator C B items = _
    unfold Dense.fromIterator fromIteratorF
    congr 1
    funext vec
    cases (vec.mergeSort (fun a b => decide (a.1 ≤ b.1))).getLast? with
    | none => rfl
    | some last =>
      show (B.dimForIndex last.1 >>= _) = (B.dimForIndex last.1 >>= _)
      congr 1
      funext dim
      exact hfold _ _

/-- C101.  The same for `VectorKeyExt` on sparse vectors. -/
theorem C101_sparse_total [DecidableEq K] (C : Coeff S R) (a : Sparse K S) (ha : Sparse.NoDup a.entries) (s : S) (r : R) (k : K) :
    KeyExt.addScalarMultiply C (Sparse.ops C) a k s = temp (keyAdd (.ofCoeff C) sparseKeys k s a) ∧
    KeyExt.subScalarMultiply C (Sparse.ops C) a k s = temp (keySub (.ofCoeff C) sparseKeys k s a) ∧
    KeyExt.addScalarDivide C (Sparse.ops C) a k r = temp (keyAddDiv (.ofCoeff C) sparseKeys k r a) ∧
    KeyExt.subScalarDivide C (Sparse.ops C) a k r = temp (keySubDiv (.ofCoeff C) sparseKeys k r a) := by
  have hkey : ∀ (f : S → S) (u : Res S) (y : S), u = .ok y →
      ((Sparse.ops C).getMut a k f >>= fun x => if x.1 then .ok x.2 else (Sparse.ops C).insertSingle x.2 k y) =
      temp (Unw.bind (sparseKeys.getMut k fun x => (.ok (), f x)) (fun b => if b then pure () else Unw.bind (Unw.lift u) (sparseKeys.insertSingle k)) a) :=
      fun f u y hu => by
    subst hu
    show (Sparse.getMut a k f >>= fun x => if x.1 then .ok x.2 else Sparse.insertSingle x.2 k y) = _
    unfold Sparse.getMut Sparse.insertSingle Unw.bind
    cases hx : Sparse.find a.entries k with
    | some x =>
      have h1 : sparseKeys.getMut k (fun x => (.ok (), f x)) a = (.ok true, ⟨Sparse.modifyAt a.entries k fun _ => f x⟩) := by
        unfold sparseKeys
        simp only [hx]
      rw [h1, modifyAt_const a.entries ha k x hx f]
      rfl
    | none =>
      have h1 : sparseKeys.getMut k (fun x => (.ok (), f x)) a = (.ok false, a) := by
        unfold sparseKeys
        simp only [hx]
      rw [h1]
      rfl
  exact ⟨hkey (fun x => C.add x s) (.ok s) s rfl, hkey (fun x => C.sub x s) (.ok (C.uminus s)) _ rfl,
    hkey (fun x => C.add x (C.div C.one r)) (.ok (C.div C.one r)) _ rfl, hkey (fun x => C.sub x (C.div C.mone r)) (.ok (C.div C.mone r)) _ rfl⟩

/-! ## Instances -/

/-- `d += o * 2` where the second product is out of range: nothing is added, and the buffer lent to `d` is as it was. -/
example : dAddMul checkedInt ⟨.borrowedMut, [1, 1, 1], [1, 1, 1]⟩ (.ofVec [3, 60, 4]) 2 = (.panic, ⟨.borrowedMut, [1, 1, 1], [1, 1, 1]⟩) :=
  (C101_fused_multiply checkedInt ⟨.borrowedMut, [1, 1, 1], [1, 1, 1]⟩ (.ofVec [3, 60, 4]) 2 _ _ (.inl ⟨rfl, rfl⟩)).1 1 (by decide)
    ⟨by decide, by decide, fun _ => by decide⟩

/-- With all products in range, but the second sum out of range, the first entry has its new value. -/
example : dAddMul checkedInt ⟨.borrowedMut, [1, 1, 1], [1, 1, 1]⟩ (.ofVec [3, 49, 4]) 2 = (.ok (), ⟨.borrowedMut, [7, 99, 9], [7, 99, 9]⟩) ∧
    dAddMul checkedInt ⟨.borrowedMut, [1, 2, 1], [1, 2, 1]⟩ (.ofVec [3, 49, 4]) 2 = (.panic, ⟨.borrowedMut, [7, 2, 1], [7, 2, 1]⟩) := by decide

example : (dAddMul checkedInt ⟨.borrowedMut, [1, 2, 1], [1, 2, 1]⟩ (.ofVec [3, 49, 4]) 2).2.lent = [7, 2, 1] := by
  rw [(((C101_fused_multiply checkedInt ⟨.borrowedMut, [1, 2, 1], [1, 2, 1]⟩ (.ofVec [3, 49, 4]) 2 _ _ (.inl ⟨rfl, rfl⟩)).2 (by decide)).2.1
    ⟨rfl, by decide⟩).2]
  decide

/-- Division by zero. -/
example : dSubDiv checkedInt (.ofVec [5]) (.ofVec [1, 2, 3]) 0 = (.panic, .ofVec [5]) :=
  (C101_fused_divide checkedInt (.ofVec [5]) (.ofVec [1, 2, 3]) 0 _ _ (.inr ⟨rfl, rfl⟩)).1 0 (by decide) ⟨by decide, by decide, fun _ => by decide⟩

example : dAddNew checkedInt (.ofVec [1, 90]) (.ofVec [2, 10, 5]) = .panic ∧ dAddNew checkedInt (.ofVec [1, 9]) (.ofVec [2, 10, 5]) = .ok (.ofVec [3, 19, 5]) := by
  decide

example : Built (fun i => checkedInt.mulIn (([3, 60] : List Int)[i]?.getD 0) 2) 2 (fun i => ([3, 60] : List Int)[i]?) .panic := by
  have := (C101_dense_new checkedInt (.ofVec [3, 60]) .new 2 1).2.2.1
  rw [show dMulNew checkedInt (.ofVec [3, 60]) 2 = .panic by decide] at this
  exact this

/-- The methods at one key. -/
example : (keyAdd checkedInt (denseKeys integerBasis) 1 10 (.ofVec [0, 95])).1 = .panic ∧
    (keyAdd checkedInt (denseKeys integerBasis) 1 10 (.ofVec [0, 95])).2.data[1]? = some 95 := by
  have h := C101_key_dense_present checkedInt integerBasis (.ofVec [0, 95]) 1 1 rfl 95 rfl _ 10 _ (.inl ⟨rfl, rfl⟩)
  exact ⟨h.1, h.2.1 1⟩

example : (keySub checkedInt (denseKeys integerBasis) 1 120 (.ofVec [7])).1 = .panic :=
  ((C101_key_dense_absent checkedInt integerBasis (.ofVec [7]) 1 1 rfl rfl).2 120 .panic nofun (by decide)).1

example : keyAddDiv checkedInt sparseKeys 3 0 (⟨[(1, 5)]⟩ : Sparse Nat Int) = (.panic, ⟨[(1, 5)]⟩) :=
  (C101_key_quotient checkedInt sparseKeys (⟨[(1, 5)]⟩ : Sparse Nat Int) 3 0 .panic nofun).1 (by decide)

example : Sparse.find (keySub checkedInt sparseKeys 1 5 (⟨[(1, 5)]⟩ : Sparse Nat Int)).2.entries 1 = some 0 := by
  rw [((C101_key_sparse checkedInt (⟨[(1, 5)]⟩ : Sparse Nat Int) (by unfold Sparse.NoDup; decide) 1).1 5 rfl _ 5 _ (.inr (.inl ⟨rfl, rfl⟩))).2.2 1]
  decide

/-- Two values for one key whose sum is out of range, and the same with a third value in between that keeps it in range. -/
example : (¬ ∃ v, fromIteratorF checkedInt integerBasis [(2, 90), (0, 1), (2, 10)] = .ok v) ∧
    ∃ v, fromIteratorF checkedInt integerBasis [(2, 90), (0, 1), (2, -5), (2, 10)] = .ok v := by
  have h := fun items : List (Nat × Int) => C101_from_iterator checkedInt integerBasis items id (fun _ _ => rfl)
  constructor
  · rintro ⟨v, hv⟩
    obtain ⟨y, hy, _⟩ := ((h [(2, 90), (0, 1), (2, 10)] (by simp) 255 (by decide) (fun _ _ _ => rfl)).1 v hv).2.2 2 (by decide)
    revert hy
    exact nofun
  · refine (h _ (by simp) 255 (by decide) (fun _ _ _ => rfl)).2 fun i _ => ?_
    by_cases h0 : i = 0
    · subst h0; exact ⟨1, by decide⟩
    · by_cases h2 : i = 2
      · subst h2; exact ⟨95, by decide⟩
      · exact ⟨0, by simp [Ne.symm h0, Ne.symm h2]; rfl⟩

end
end RA
