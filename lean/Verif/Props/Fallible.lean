import Verif.Model.Fallible
import Verif.Proofs.Unwind
import Verif.Proofs.Sparse
import Verif.Proofs.Dense

/-!
# Coefficient arithmetic that panics (C100)

What the operations in place do when the arithmetic of the coefficients may panic, and what is left of the vector then.
-/

namespace RA
namespace Spec

/-- Of the turns `0, …, n - 1` of a loop, with outcomes `r`, the first one not to return is `j`; `j = n` if all return. -/
def StopsAt (r : Nat → Res Unit) (n j : Nat) : Prop := j ≤ n ∧ (∀ i < j, r i = .ok ()) ∧ (j < n → r j ≠ .ok ())

/-- The outcome of a loop that stops at `j`. -/
def outcomeAt (r : Nat → Res Unit) (n j : Nat) : Res Unit := if j < n then r j else .ok ()

/-- A loop of `n` turns: turn `i` has the outcome `(turn i).1` and writes `(turn i).2` to place `i`, also when it does not return.  `old` are the places before,
`new` after the loop, `r` is how the loop ends. -/
def Loop {S : Type} (turn : Nat → Res Unit × S) (n : Nat) (old : Nat → Option S) (r : Res Unit) (new : Nat → Option S) : Prop :=
  ∃ j, StopsAt (fun i => (turn i).1) n j ∧ r = outcomeAt (fun i => (turn i).1) n j ∧ ∀ i, new i = if i ≤ j ∧ i < n then some (turn i).2 else old i

/-- Adding to the entry of one key of a sparse vector: an entry that becomes zero is removed.  `g` is the addition, `new` what is stored for a key without entry. -/
def mergeF {S : Type} (g : S → S → Res Unit × S) (isZero : S → Res Bool) (new : S → Res S) : Option S → S → Res Unit × Option S
  | some x, v =>
    match (g x v).1 with
    | .ok () =>
      match isZero (g x v).2 with
      | .ok b => (.ok (), if b then none else some (g x v).2)
      | .panic => (.panic, some (g x v).2)
      | .ub => (.ub, some (g x v).2)
      | .diverge => (.diverge, some (g x v).2)
    | r => (r, some (g x v).2)
  | none, v =>
    match new v with
    | .ok y => (.ok (), some y)
    | .panic => (.panic, none)
    | .ub => (.ub, none)
    | .diverge => (.diverge, none)

theorem StopsAt.unique {r : Nat → Res Unit} {n i j : Nat} (hi : StopsAt r n i) (hj : StopsAt r n j) : i = j := by
  rcases Nat.lt_trichotomy i j with h | h | h
  · exact absurd (hj.2.1 i h) (hi.2.2 (by have := hj.1; omega))
  · exact h
  · exact absurd (hi.2.1 j h) (hj.2.2 (by have := hi.1; omega))

theorem StopsAt.succ {r : Nat → Res Unit} {n j : Nat} (h0 : r 0 = .ok ()) (h : StopsAt (fun i => r (i + 1)) n j) : StopsAt r (n + 1) (j + 1) := by
  obtain ⟨h1, h2, h3⟩ := h
  refine ⟨by omega, fun i hi => ?_, fun h => h3 (by omega)⟩
  cases i with
  | zero => exact h0
  | succ i => exact h2 i (by omega)

theorem StopsAt.zero {r : Nat → Res Unit} {n : Nat} (h : r 0 ≠ .ok ()) : StopsAt r (n + 1) 0 := ⟨Nat.zero_le _, by simp, fun _ => h⟩

end Spec

namespace Fallible
open Spec
variable {K S R A : Type}

theorem zipLoop_ok (g : S → A → Res Unit × S) (xs : List S) (ys : List A) (turn : Nat → Res Unit × S)
    (h : ∀ (i : Nat) x y, xs[i]? = some x → ys[i]? = some y → turn i = g x y) :
    ∃ j, StopsAt (fun i => (turn i).1) (min xs.length ys.length) j ∧ (zipLoop g xs ys).1 = outcomeAt (fun i => (turn i).1) (min xs.length ys.length) j ∧
      ∀ i : Nat, (zipLoop g xs ys).2[i]? = if i ≤ j ∧ i < min xs.length ys.length then some (turn i).2 else xs[i]? := by
  induction xs generalizing ys turn with
  | nil => exact ⟨0, ⟨by simp, by simp, by simp⟩, by simp [zipLoop, outcomeAt], by simp [zipLoop]⟩
  | cons x xs ih =>
    cases ys with
    | nil => exact ⟨0, ⟨by simp, by simp, by simp⟩, by simp [zipLoop, outcomeAt], by simp [zipLoop]⟩
    | cons y ys =>
      have h0 := h 0 x y rfl rfl
      have hm : min (x :: xs).length (y :: ys).length = min xs.length ys.length + 1 := by simp
      rw [hm]
      unfold zipLoop
      rcases hg : g x y with ⟨⟨⟩ | _ | _ | _, x'⟩
      · obtain ⟨j, h1, h2, h3⟩ := ih ys (fun i => turn (i + 1)) (fun i x y hx hy => h (i + 1) x y hx hy)
        refine ⟨j + 1, StopsAt.succ (by rw [h0, hg]) h1, ?_, fun i => ?_⟩
        · simp only
          rw [h2]
          unfold outcomeAt
          simp
        · cases i with
          | zero => simp [h0, hg]
          | succ i => simp [h3]
      all_goals
        refine ⟨0, StopsAt.zero (by rw [h0, hg]; nofun), by simp [outcomeAt, h0, hg], fun i => ?_⟩
        cases i with
        | zero => simp [h0, hg]
        | succ i => simp

theorem zipLoop_length (g : S → A → Res Unit × S) (xs : List S) (ys : List A) : (zipLoop g xs ys).2.length = xs.length := by
  induction xs generalizing ys with
  | nil => simp [zipLoop]
  | cons x xs ih =>
    cases ys with
    | nil => simp [zipLoop]
    | cons y ys =>
      unfold zipLoop
      rcases g x y with ⟨⟨⟩ | _ | _ | _, x'⟩
      · simp [ih]
      all_goals simp

theorem eachLoop_ok (g : S → Res Unit × S) (xs : List S) (z : S) :
    ∃ j, StopsAt (fun i => (g (xs[i]?.getD z)).1) xs.length j ∧ (eachLoop g xs).1 = outcomeAt (fun i => (g (xs[i]?.getD z)).1) xs.length j ∧
      ∀ i : Nat, (eachLoop g xs).2[i]? = if i ≤ j ∧ i < xs.length then some (g (xs[i]?.getD z)).2 else xs[i]? := by
  have := zipLoop_ok (fun x _ => g x) xs xs (fun i => g (xs[i]?.getD z)) (fun i x y hx _ => by rw [hx]; rfl)
  rw [Nat.min_self] at this
  exact this

theorem zipLoop_total (f : S → A → S) (xs : List S) (ys : List A) :
    zipLoop (fun x y => (.ok (), f x y)) xs ys = (.ok (), List.zipWith f xs ys ++ xs.drop ys.length) := by
  induction xs generalizing ys with
  | nil => simp [zipLoop]
  | cons x xs ih =>
    cases ys with
    | nil => simp [zipLoop]
    | cons y ys => simp [zipLoop, ih]

theorem eachLoop_total (f : S → S) (xs : List S) : eachLoop (fun x => (.ok (), f x)) xs = (.ok (), xs.map f) := by
  unfold eachLoop
  rw [zipLoop_total (fun x _ => f x)]
  simp

theorem grow_data (F : FCoeff S R) (d : Dense S) (n : Nat) : (grow F d n).data = if n > d.size then vecResize d.data n F.zero else d.data := by
  unfold grow resizeF
  split_ifs
  · rcases d with ⟨_ | _ | _, data, lent⟩ <;> rfl
  · rfl

theorem grow_size (F : FCoeff S R) (d : Dense S) (n : Nat) : (grow F d n).data.length = max d.size n := by
  rw [grow_data]
  split_ifs with h
  · rw [vecResize_length]
    omega
  · unfold Dense.size at h ⊢
    omega

theorem grow_get (F : FCoeff S R) (d : Dense S) (n i : Nat) : (grow F d n).data[i]? = if i < max d.size n then some (d.data[i]?.getD F.zero) else none := by
  have hl := grow_size F d n
  by_cases hi : i < max d.size n
  · rw [if_pos hi, grow_data]
    split_ifs with h
    · rw [vecResize_getElem?]
      have : i < n := by omega
      cases hd : d.data[i]? <;> simp [this]
    · have : i < d.data.length := by unfold Dense.size at hi h; omega
      rw [List.getElem?_eq_getElem this]
      rfl
  · rw [if_neg hi]
    exact List.getElem?_eq_none (by omega)

theorem grow_write (F : FCoeff S R) (d : Dense S) (n : Nat) (l : List S) : ((grow F d n).writeSlice l).mode ≠ .borrowed ∧
    (d.mode = .borrowedMut → n ≤ d.size → ((grow F d n).writeSlice l).mode = .borrowedMut ∧ ((grow F d n).writeSlice l).lent = l) ∧
    (¬ (d.mode = .borrowedMut ∧ n ≤ d.size) → ((grow F d n).writeSlice l).mode = .owned ∧ ((grow F d n).writeSlice l).lent = d.lent) := by
  unfold grow resizeF
  by_cases h : n > d.size
  · rw [if_pos h]
    rcases d with ⟨_ | _ | _, data, lent⟩ <;> refine ⟨nofun, fun _ _ => by omega, fun _ => ⟨rfl, rfl⟩⟩
  · rw [if_neg h]
    rcases d with ⟨_ | _ | _, data, lent⟩
    · exact ⟨nofun, nofun, fun _ => ⟨rfl, rfl⟩⟩
    · exact ⟨nofun, nofun, fun _ => ⟨rfl, rfl⟩⟩
    · exact ⟨nofun, fun _ _ => ⟨rfl, rfl⟩, fun h' => absurd ⟨rfl, by omega⟩ h'⟩

theorem onSlice_grow (F : FCoeff S R) (g : S → S → Res Unit × S) (d o : Dense S) :
    Loop (fun i => g (d.data[i]?.getD F.zero) (o.data[i]?.getD F.zero)) o.size (fun i => if i < max d.size o.size then some (d.data[i]?.getD F.zero) else none)
      (onSlice (grow F d o.size) (zipLoop g (grow F d o.size).data o.data)).1
      (fun i => (onSlice (grow F d o.size) (zipLoop g (grow F d o.size).data o.data)).2.data[i]?) := by
  have hm : min (grow F d o.size).data.length o.data.length = o.size := by rw [grow_size]; unfold Dense.size; omega
  obtain ⟨j, h1, h2, h3⟩ := zipLoop_ok g (grow F d o.size).data o.data (fun i => g (d.data[i]?.getD F.zero) (o.data[i]?.getD F.zero)) (fun i x y hx hy => by
    rw [grow_get] at hx
    split_ifs at hx
    cases hx
    rw [hy]
    rfl)
  rw [hm] at h1 h2 h3
  refine ⟨j, h1, h2, fun i => ?_⟩
  unfold onSlice
  simp only [Dense.writeSlice_data, h3, grow_get]

theorem onSlice_each (g : S → Res Unit × S) (d : Dense S) (z : S) :
    Loop (fun i => g (d.data[i]?.getD z)) d.size (fun i => d.data[i]?) (onSlice d (eachLoop g d.data)).1
      (fun i => (onSlice d (eachLoop g d.data)).2.data[i]?) := by
  obtain ⟨j, h1, h2, h3⟩ := eachLoop_ok g d.data z
  refine ⟨j, h1, h2, fun i => ?_⟩
  unfold onSlice
  simp only [Dense.writeSlice_data, h3]
  rfl

theorem onSlice_makeMut (d : Dense S) (q : Res Unit × List S) : onSlice d.makeMut q = onSlice d q := by
  unfold onSlice
  rcases d with ⟨_ | _ | _, data, lent⟩ <;> rfl

theorem onSlice_grow_makeMut (F : FCoeff S R) (d : Dense S) (n : Nat) (q : Res Unit × List S) : onSlice (grow F d.makeMut n) q = onSlice (grow F d n) q := by
  have hs : d.makeMut.size = d.size := by unfold Dense.size; rw [Dense.makeMut_data]
  unfold onSlice grow resizeF
  rw [hs]
  by_cases h : n > d.size
  · rw [if_pos h, if_pos h]
    rcases d with ⟨_ | _ | _, data, lent⟩ <;> rfl
  · rw [if_neg h, if_neg h]
    rcases d with ⟨_ | _ | _, data, lent⟩ <;> rfl

theorem grow_makeMut_data (F : FCoeff S R) (d : Dense S) (n : Nat) : (grow F d.makeMut n).data = (grow F d n).data := by
  rw [grow_data, grow_data]
  unfold Dense.size
  rw [Dense.makeMut_data]

end Fallible

section
open Spec Fallible
variable {K S R : Type} (F : FCoeff S R)

/-- C100.  `add_inplace` and `sub_inplace` of dense vectors, with coefficients that may panic: the vector is grown first, then the entries are updated from the
lowest index up, until an update does not return.  The operation ends as that update did; what the update left in its entry stays there; the entries above it
keep their old values. -/
theorem C100_dense_add (d o : Dense S) :
    Loop (fun i => F.addIn (d.data[i]?.getD F.zero) (o.data[i]?.getD F.zero)) o.size
      (fun i => if i < max d.size o.size then some (d.data[i]?.getD F.zero) else none) (dAdd F d o).1 (fun i => (dAdd F d o).2.data[i]?) ∧
    Loop (fun i => F.subIn (d.data[i]?.getD F.zero) (o.data[i]?.getD F.zero)) o.size
      (fun i => if i < max d.size o.size then some (d.data[i]?.getD F.zero) else none) (dSub F d o).1 (fun i => (dSub F d o).2.data[i]?) := by
  constructor
  · unfold dAdd
    simp only
    rw [onSlice_grow_makeMut, grow_makeMut_data]
    exact onSlice_grow F F.addIn d o
  · exact onSlice_grow F F.subIn d o

/-- C100.  The operations of dense vectors on each entry.  A negation that panics leaves its entry as it was. -/
theorem C100_dense_scale (d : Dense S) (s : S) (r : R) :
    Loop (fun i => F.mulIn (d.data[i]?.getD F.zero) s) d.size (fun i => d.data[i]?) (dMul F d s).1 (fun i => (dMul F d s).2.data[i]?) ∧
    Loop (fun i => F.divIn (d.data[i]?.getD F.zero) r) d.size (fun i => d.data[i]?) (dDiv F d r).1 (fun i => (dDiv F d r).2.data[i]?) ∧
    Loop (fun i => (F.uminus (d.data[i]?.getD F.zero) >>= fun _ => .ok (), match F.uminus (d.data[i]?.getD F.zero) with
      | .ok y => y
      | _ => d.data[i]?.getD F.zero)) d.size (fun i => d.data[i]?) (dUminus F d).1 (fun i => (dUminus F d).2.data[i]?) := by
  refine ⟨?_, onSlice_each (fun x => F.divIn x r) d F.zero, ?_⟩
  · unfold dMul
    rw [onSlice_makeMut]
    exact onSlice_each (fun x => F.mulIn x s) d F.zero
  · have h : (fun i : Nat => (F.uminus (d.data[i]?.getD F.zero) >>= fun _ => (.ok () : Res Unit), match F.uminus (d.data[i]?.getD F.zero) with
        | .ok y => y
        | _ => d.data[i]?.getD F.zero)) = fun i : Nat => assign F.uminus (d.data[i]?.getD F.zero) := by
      funext i
      unfold assign
      cases F.uminus (d.data[i]?.getD F.zero) <;> rfl
    rw [h]
    exact onSlice_each _ d F.zero

/-- C100.  Where the entries are afterwards, also after a panic: a vector over an exclusively borrowed buffer writes to it, as long as it need not grow; every
other vector ends up with its own storage, and a lent buffer keeps its content. -/
theorem C100_dense_lender (d o : Dense S) (s : S) (r : R) :
    (∀ left, left = (dAdd F d o).2 ∨ left = (dSub F d o).2 →
      (d.mode = .borrowedMut ∧ o.size ≤ d.size → left.mode = .borrowedMut ∧ left.lent = left.data) ∧
      (¬ (d.mode = .borrowedMut ∧ o.size ≤ d.size) → left.mode = .owned ∧ left.lent = d.lent)) ∧
    (∀ left, left = (dMul F d s).2 ∨ left = (dDiv F d r).2 ∨ left = (dUminus F d).2 →
      (d.mode = .borrowedMut → left.mode = .borrowedMut ∧ left.lent = left.data) ∧
      (d.mode ≠ .borrowedMut → left.mode = .owned ∧ left.lent = d.lent)) := by
  have hw : ∀ l : List S, (d.mode = .borrowedMut → (d.writeSlice l).mode = .borrowedMut ∧ (d.writeSlice l).lent = (d.writeSlice l).data) ∧
      (d.mode ≠ .borrowedMut → (d.writeSlice l).mode = .owned ∧ (d.writeSlice l).lent = d.lent) := by
    intro l
    rcases d with ⟨_ | _ | _, data, lent⟩
    · exact ⟨nofun, fun _ => ⟨rfl, rfl⟩⟩
    · exact ⟨nofun, fun _ => ⟨rfl, rfl⟩⟩
    · exact ⟨fun _ => ⟨rfl, rfl⟩, fun h => absurd rfl h⟩
  constructor
  · rintro left (rfl | rfl)
    · unfold dAdd
      simp only
      rw [onSlice_grow_makeMut]
      unfold onSlice
      simp only [Dense.writeSlice_data]
      exact ⟨fun h => (grow_write F d o.size _).2.1 h.1 h.2, (grow_write F d o.size _).2.2⟩
    · unfold dSub onSlice
      simp only [Dense.writeSlice_data]
      exact ⟨fun h => (grow_write F d o.size _).2.1 h.1 h.2, (grow_write F d o.size _).2.2⟩
  · rintro left (rfl | rfl | rfl)
    · unfold dMul
      rw [onSlice_makeMut]
      exact hw _
    · exact hw _
    · exact hw _

/-- C100.  With coefficients that never panic these are the operations of the other claims. -/
theorem C100_dense_total (C : Coeff S R) (d o : Dense S) (s : S) (r : R) :
    Dense.addInplace C d o = .ok (dAdd (.ofCoeff C) d o).2 ∧ (dAdd (.ofCoeff C) d o).1 = .ok () ∧
    Dense.subInplace C d o = .ok (dSub (.ofCoeff C) d o).2 ∧ (dSub (.ofCoeff C) d o).1 = .ok () ∧
    Dense.scalarLmultiplyInplace C d s = .ok (dMul (.ofCoeff C) d s).2 ∧ (dMul (.ofCoeff C) d s).1 = .ok () ∧
    Dense.scalarRdivideInplace C d r = .ok (dDiv (.ofCoeff C) d r).2 ∧ (dDiv (.ofCoeff C) d r).1 = .ok () ∧
    Dense.uminusInplace C d = .ok (dUminus (.ofCoeff C) d).2 ∧ (dUminus (.ofCoeff C) d).1 = .ok () := by
  have hg : ∀ (d : Dense S) n, grow (.ofCoeff C) d n = if n > d.size then Dense.resize C d n else d := fun _ _ => rfl
  have hu : assign (FCoeff.ofCoeff C).uminus = fun x => (.ok (), C.uminus x) := rfl
  unfold dAdd dSub dMul dDiv dUminus
  rw [hu]
  simp only [onSlice_makeMut, hg]
  unfold onSlice FCoeff.ofCoeff
  simp only [zipLoop_total, eachLoop_total]
  exact ⟨rfl, trivial, rfl, trivial, rfl, trivial, rfl, trivial, rfl, trivial⟩

/-! ## Sparse vectors -/

variable [DecidableEq K]

omit [DecidableEq K] in
theorem sEach_ok (g : S → Res Unit × S) (a : Sparse K S) (z : S) :
    (sEach g a).2.entries.map (·.1) = a.entries.map (·.1) ∧
    Loop (fun i => g ((a.entries[i]?.map (·.2)).getD z)) a.entries.length (fun i => a.entries[i]?.map (·.2)) (sEach g a).1
      (fun i => (sEach g a).2.entries[i]?.map (·.2)) := by
  have hl : (eachLoop g (a.entries.map (·.2))).2.length = a.entries.length := by unfold eachLoop; rw [zipLoop_length]; simp
  obtain ⟨j, h1, h2, h3⟩ := eachLoop_ok g (a.entries.map (·.2)) z
  simp only [List.getElem?_map, List.length_map] at h1 h2 h3
  unfold sEach
  refine ⟨?_, j, h1, h2, fun i => ?_⟩
  · simp only
    rw [List.map_fst_zip]
    simp [hl]
  · have h4 : (((a.entries.map (·.1)).zip (eachLoop g (a.entries.map (·.2))).2)[i]?.map (·.2)) = (eachLoop g (a.entries.map (·.2))).2[i]? := by
      rw [← List.getElem?_map, List.map_snd_zip]
      simp [hl]
    simp only
    rw [h4, h3]

omit [DecidableEq K] in
/-- C100.  The operations of sparse vectors on each entry, in the order of the hash map.  The keys stay.  Multiplication compares the scalar with zero first; if
that comparison panics the vector is as it was. -/
theorem C100_sparse_scale (a : Sparse K S) (s : S) (r : R) :
    (F.eq s F.zero = .ok true → sMul F a s = (.ok (), ⟨[]⟩)) ∧
    (F.eq s F.zero = .ok false → (sMul F a s).2.entries.map (·.1) = a.entries.map (·.1) ∧
      Loop (fun i => F.mulIn ((a.entries[i]?.map (·.2)).getD F.zero) s) a.entries.length (fun i => a.entries[i]?.map (·.2)) (sMul F a s).1
        (fun i => (sMul F a s).2.entries[i]?.map (·.2))) ∧
    ((∀ b, F.eq s F.zero ≠ .ok b) → sMul F a s = (F.eq s F.zero >>= fun _ => .ok (), a)) ∧
    (sDiv F a r).2.entries.map (·.1) = a.entries.map (·.1) ∧
    Loop (fun i => F.divIn ((a.entries[i]?.map (·.2)).getD F.zero) r) a.entries.length (fun i => a.entries[i]?.map (·.2)) (sDiv F a r).1
      (fun i => (sDiv F a r).2.entries[i]?.map (·.2)) ∧
    (sUminus F a).2.entries.map (·.1) = a.entries.map (·.1) ∧
    Loop (fun i => (F.uminus ((a.entries[i]?.map (·.2)).getD F.zero) >>= fun _ => .ok (), match F.uminus ((a.entries[i]?.map (·.2)).getD F.zero) with
      | .ok y => y
      | _ => (a.entries[i]?.map (·.2)).getD F.zero)) a.entries.length (fun i => a.entries[i]?.map (·.2)) (sUminus F a).1
      (fun i => (sUminus F a).2.entries[i]?.map (·.2)) := by
  have hu : (fun i : Nat => (F.uminus ((a.entries[i]?.map (·.2)).getD F.zero) >>= fun _ => (.ok () : Res Unit),
      match F.uminus ((a.entries[i]?.map (·.2)).getD F.zero) with
      | .ok y => y
      | _ => (a.entries[i]?.map (·.2)).getD F.zero)) = fun i : Nat => assign F.uminus ((a.entries[i]?.map (·.2)).getD F.zero) := by
    funext i
    unfold assign
    cases F.uminus ((a.entries[i]?.map (·.2)).getD F.zero) <;> rfl
  rw [hu]
  refine ⟨fun h => ?_, fun h => ?_, fun h => ?_, (sEach_ok _ a F.zero).1, (sEach_ok (fun x => F.divIn x r) a F.zero).2, (sEach_ok _ a F.zero).1,
    (sEach_ok (assign F.uminus) a F.zero).2⟩
  · unfold sMul
    rw [h]
  · unfold sMul
    rw [h]
    exact sEach_ok _ a F.zero
  · unfold sMul
    cases hq : F.eq s F.zero with
    | ok b => exact absurd hq (h b)
    | _ => rfl

theorem mergeLoop (step : Unit → K × S → Unw (List (K × S)) Unit) (mg : Option S → S → Res Unit × Option S)
    (hs : ∀ e m, (step () e m).1 = (mg (Sparse.find m e.1) e.2).1 ∧
      (∀ k, Sparse.find (step () e m).2 k = if k = e.1 then (mg (Sparse.find m e.1) e.2).2 else Sparse.find m k) ∧
      (Sparse.NoDup m → Sparse.NoDup (step () e m).2))
    (o : List (K × S)) (ho : Sparse.NoDup o) (m : List (K × S)) (turn : Nat → Res Unit × Option S)
    (ht : ∀ (i : Nat) e, o[i]? = some e → turn i = mg (Sparse.find m e.1) e.2) :
    (Sparse.NoDup m → Sparse.NoDup (o.foldlM step () m).2) ∧
    ∃ j, StopsAt (fun i => (turn i).1) o.length j ∧ (o.foldlM step () m).1 = outcomeAt (fun i => (turn i).1) o.length j ∧
      (∀ (i : Nat) e, o[i]? = some e → Sparse.find (o.foldlM step () m).2 e.1 = if i ≤ j then (turn i).2 else Sparse.find m e.1) ∧
      ∀ k, k ∉ o.map (·.1) → Sparse.find (o.foldlM step () m).2 k = Sparse.find m k := by
  induction o generalizing m turn with
  | nil => exact ⟨fun h => h, 0, ⟨by simp, by simp, by simp⟩, rfl, by simp, fun k _ => rfl⟩
  | cons e o ih =>
    rw [Sparse.noDup_cons] at ho
    obtain ⟨s1, s2, s3⟩ := hs e m
    have t0 := ht 0 e rfl
    have hne : ∀ (i : Nat) e', o[i]? = some e' → e'.1 ≠ e.1 := by
      intro i e' he h
      exact ho.1 (by rw [← h]; exact List.mem_map_of_mem (List.mem_of_getElem? he))
    rw [List.foldlM_cons, Unw.bind_apply]
    rcases hq : step () e m with ⟨⟨⟩ | _ | _ | _, m'⟩
    · rw [hq] at s1 s2 s3
      simp only at s1 s2 s3 ⊢
      obtain ⟨i1, j, i2, i3, i4, i5⟩ := ih ho.2 m' (fun i => turn (i + 1)) (fun i e' he => by
        have := ht (i + 1) e' he
        rw [s2, if_neg (hne i e' he)]
        exact this)
      refine ⟨fun h => i1 (s3 h), j + 1, StopsAt.succ (by rw [t0, ← s1]) i2, ?_, fun i e' he => ?_, fun k hk => ?_⟩
      · rw [i3]
        unfold outcomeAt
        simp
      · cases i with
        | zero =>
          cases he
          rw [i5 _ ho.1, s2, if_pos rfl, if_pos (Nat.zero_le _), t0]
        | succ i =>
          have he' : o[i]? = some e' := he
          rw [i4 i e' he', s2, if_neg (hne i e' he')]
          simp
      · rw [List.map_cons, List.mem_cons, not_or] at hk
        rw [i5 k hk.2, s2, if_neg hk.1]
    all_goals
      rw [hq] at s1 s2 s3
      simp only at s1 s2 s3 ⊢
      refine ⟨s3, 0, StopsAt.zero (by rw [t0, ← s1]; nofun), by simp [outcomeAt, t0, ← s1], fun i e' he => ?_, fun k hk => ?_⟩
      · cases i with
        | zero =>
          cases he
          rw [s2, if_pos rfl, if_pos (Nat.zero_le _), t0]
        | succ i =>
          rw [s2, if_neg (hne i e' he), if_neg (by omega)]
      · rw [List.map_cons, List.mem_cons, not_or] at hk
        rw [s2, if_neg hk.1]

theorem sUpdate_ok (g : S → S → Res Unit × S) (new : S → Res S) (x v : S) (k : K) (m : List (K × S)) (hx : Sparse.find m k = some x) :
    (sUpdate F (g x v) k m).1 = (mergeF g (fun y => F.eq y F.zero) new (some x) v).1 ∧
    (∀ k', Sparse.find (sUpdate F (g x v) k m).2 k' = if k' = k then (mergeF g (fun y => F.eq y F.zero) new (some x) v).2 else Sparse.find m k') ∧
    (Sparse.NoDup m → Sparse.NoDup (sUpdate F (g x v) k m).2) := by
  have hm : ∀ y k', Sparse.find (Sparse.modifyAt m k fun _ => y) k' = if k' = k then some y else Sparse.find m k' := by
    intro y k'
    rw [Sparse.find_modifyAt]
    split_ifs with h
    · rw [hx]
      rfl
    · rfl
  have hd : ∀ y, Sparse.NoDup m → Sparse.NoDup (Sparse.modifyAt m k fun _ => y) := fun y h => Sparse.noDup_modifyAt h _ _
  unfold sUpdate
  simp only [mergeF]
  rcases g x v with ⟨⟨⟩ | _ | _ | _, y⟩
  · simp only
    rcases F.eq y F.zero with ⟨_ | _⟩ | _ | _ | _
    · exact ⟨rfl, hm y, hd y⟩
    · refine ⟨rfl, fun k' => ?_, fun h => Sparse.noDup_hmRemove (Sparse.noDup_modifyAt h _ _) _⟩
      simp only
      rw [Sparse.find_hmRemove, hm]
      split_ifs <;> rfl
    all_goals exact ⟨rfl, hm y, hd y⟩
  all_goals exact ⟨rfl, hm y, hd y⟩

theorem sAddStep_ok (e : K × S) (m : List (K × S)) :
    (sAddStep F () e m).1 = (mergeF F.addIn (fun y => F.eq y F.zero) .ok (Sparse.find m e.1) e.2).1 ∧
    (∀ k, Sparse.find (sAddStep F () e m).2 k =
      if k = e.1 then (mergeF F.addIn (fun y => F.eq y F.zero) .ok (Sparse.find m e.1) e.2).2 else Sparse.find m k) ∧
    (Sparse.NoDup m → Sparse.NoDup (sAddStep F () e m).2) := by
  unfold sAddStep
  cases hx : Sparse.find m e.1 with
  | some x => exact sUpdate_ok F F.addIn .ok x e.2 e.1 m hx
  | none => exact ⟨rfl, fun k => Sparse.find_hmInsert _ _ _ _, fun h => Sparse.noDup_hmInsert h _ _⟩

theorem sSubStep_ok (e : K × S) (m : List (K × S)) :
    (sSubStep F () e m).1 = (mergeF F.subIn (fun y => F.eq y F.zero) F.uminus (Sparse.find m e.1) e.2).1 ∧
    (∀ k, Sparse.find (sSubStep F () e m).2 k =
      if k = e.1 then (mergeF F.subIn (fun y => F.eq y F.zero) F.uminus (Sparse.find m e.1) e.2).2 else Sparse.find m k) ∧
    (Sparse.NoDup m → Sparse.NoDup (sSubStep F () e m).2) := by
  unfold sSubStep
  cases hx : Sparse.find m e.1 with
  | some x => exact sUpdate_ok F F.subIn F.uminus x e.2 e.1 m hx
  | none =>
    simp only [mergeF]
    have hn : ∀ k, Sparse.find m k = if k = e.1 then none else Sparse.find m k := by
      intro k
      split_ifs with h
      · rw [h, hx]
      · rfl
    cases F.uminus e.2 with
    | ok y => exact ⟨rfl, fun k => Sparse.find_hmInsert _ _ _ _, fun h => Sparse.noDup_hmInsert h _ _⟩
    | _ => exact ⟨rfl, hn, fun h => h⟩

/-- C100.  `add_inplace` and `sub_inplace` of sparse vectors: the entries of the argument are taken up one by one, in the order of its hash map, until a step does
not return.  Up to there the coefficients are those of the result; at the key where it stopped is what the operation on the coefficient left (a zero, if the
comparison with zero panicked); all other coefficients are as they were; no key is stored twice. -/
theorem C100_sparse_add (a o : Sparse K S) (ha : Sparse.NoDup a.entries) (ho : Sparse.NoDup o.entries) (out : Res Unit × Sparse K S)
    (turn : K × S → Res Unit × Option S)
    (h : (out = sAdd F a o ∧ turn = fun e => mergeF F.addIn (fun y => F.eq y F.zero) .ok (Sparse.find a.entries e.1) e.2) ∨
      (out = sSub F a o ∧ turn = fun e => mergeF F.subIn (fun y => F.eq y F.zero) F.uminus (Sparse.find a.entries e.1) e.2)) :
    Sparse.NoDup out.2.entries ∧ ∃ before rest, o.entries = before ++ rest ∧ (∀ e ∈ before, (turn e).1 = .ok ()) ∧
      (∀ e ∈ before, Sparse.find out.2.entries e.1 = (turn e).2) ∧
      (∀ k, k ∉ o.entries.map (·.1) → Sparse.find out.2.entries k = Sparse.find a.entries k) ∧
      match rest with
      | [] => out.1 = .ok ()
      | e :: later => (turn e).1 ≠ .ok () ∧ out.1 = (turn e).1 ∧ Sparse.find out.2.entries e.1 = (turn e).2 ∧
          ∀ e' ∈ later, Sparse.find out.2.entries e'.1 = Sparse.find a.entries e'.1 := by
  have main : ∀ (step : Unit → K × S → Unw (List (K × S)) Unit) (mg : Option S → S → Res Unit × Option S),
      (∀ e m, (step () e m).1 = (mg (Sparse.find m e.1) e.2).1 ∧
        (∀ k, Sparse.find (step () e m).2 k = if k = e.1 then (mg (Sparse.find m e.1) e.2).2 else Sparse.find m k) ∧
        (Sparse.NoDup m → Sparse.NoDup (step () e m).2)) →
      (turn = fun e => mg (Sparse.find a.entries e.1) e.2) → out.1 = (o.entries.foldlM step () a.entries).1 →
      out.2.entries = (o.entries.foldlM step () a.entries).2 →
      Sparse.NoDup out.2.entries ∧ ∃ before rest, o.entries = before ++ rest ∧ (∀ e ∈ before, (turn e).1 = .ok ()) ∧
      (∀ e ∈ before, Sparse.find out.2.entries e.1 = (turn e).2) ∧
      (∀ k, k ∉ o.entries.map (·.1) → Sparse.find out.2.entries k = Sparse.find a.entries k) ∧
      match rest with
      | [] => out.1 = .ok ()
      | e :: later => (turn e).1 ≠ .ok () ∧ out.1 = (turn e).1 ∧ Sparse.find out.2.entries e.1 = (turn e).2 ∧
          ∀ e' ∈ later, Sparse.find out.2.entries e'.1 = Sparse.find a.entries e'.1 := by
    intro step mg hs ht h1 h2
    obtain ⟨n1, j, n2, n3, n4, n5⟩ := mergeLoop step mg hs o.entries ho a.entries
      (fun i => match o.entries[i]? with
        | some e => turn e
        | none => (.ok (), none)) (fun i e he => by rw [he, ht])
    rw [← h2] at n1 n4 n5
    rw [← h1] at n3
    refine ⟨n1 ha, o.entries.take j, o.entries.drop j, (List.take_append_drop _ _).symm, fun e he => ?_, fun e he => ?_, n5, ?_⟩
    · obtain ⟨i, hi, he'⟩ := List.mem_take_iff_getElem.1 he
      have := n2.2.1 i (by omega)
      simp only at this
      rw [List.getElem?_eq_getElem (by omega), he'] at this
      exact this
    · obtain ⟨i, hi, he'⟩ := List.mem_take_iff_getElem.1 he
      have he2 : o.entries[i]? = some e := by rw [List.getElem?_eq_getElem (by omega), he']
      rw [n4 i e he2, if_pos (by omega), he2]
    · by_cases hj : j < o.entries.length
      · rw [List.drop_eq_getElem_cons hj]
        have he2 : o.entries[j]? = some o.entries[j] := List.getElem?_eq_getElem hj
        have q1 := n2.2.2 hj
        unfold outcomeAt at n3
        rw [if_pos hj] at n3
        simp only [he2] at q1 n3
        refine ⟨q1, n3, ?_, fun e' he' => ?_⟩
        · rw [n4 j _ he2, if_pos (Nat.le_refl _), he2]
        · obtain ⟨i, hi, he3⟩ := List.mem_drop_iff_getElem.1 he'
          rw [n4 (i + (j + 1)) e' (by rw [List.getElem?_eq_getElem (by omega), ← he3]; congr 2; omega), if_neg (by omega)]
      · rw [List.drop_eq_nil_of_le (by omega)]
        unfold outcomeAt at n3
        rw [if_neg hj] at n3
        exact n3
  rcases h with ⟨h1, h2⟩ | ⟨h1, h2⟩
  · exact main (sAddStep F) _ (sAddStep_ok F) h2 (by rw [h1]; rfl) (by rw [h1]; rfl)
  · exact main (sSubStep F) _ (sSubStep_ok F) h2 (by rw [h1]; rfl) (by rw [h1]; rfl)

theorem modifyAt_const (m : List (K × S)) (hm : Sparse.NoDup m) (k : K) (x : S) (hx : Sparse.find m k = some x) (f : S → S) :
    (Sparse.modifyAt m k fun _ => f x) = Sparse.modifyAt m k f := by
  unfold Sparse.modifyAt
  refine List.map_congr_left fun e he => ?_
  split_ifs with h
  · have := Sparse.find_of_mem hm (k := e.1) (v := e.2) he
    rw [h, hx] at this
    cases this
    rfl
  · rfl

omit [DecidableEq K] in
theorem totalLoop (step : Unit → K × S → Unw (List (K × S)) Unit) (f : List (K × S) → K × S → List (K × S))
    (h : ∀ m e, Sparse.NoDup m → step () e m = (.ok (), f m e)) (hf : ∀ m e, Sparse.NoDup m → Sparse.NoDup (f m e)) (o m : List (K × S))
    (hm : Sparse.NoDup m) : o.foldlM step () m = (.ok (), o.foldl f m) := by
  induction o generalizing m with
  | nil => rfl
  | cons e o ih =>
    rw [List.foldlM_cons, Unw.bind_apply, h m e hm]
    exact ih _ (hf m e hm)

/-- C100.  With coefficients that never panic these are the operations of the other claims. -/
theorem C100_sparse_total (C : Coeff S R) (a o : Sparse K S) (ha : Sparse.NoDup a.entries) (s : S) (r : R) :
    Sparse.addInplace C a o = .ok (sAdd (.ofCoeff C) a o).2 ∧ (sAdd (.ofCoeff C) a o).1 = .ok () ∧
    Sparse.subInplace C a o = .ok (sSub (.ofCoeff C) a o).2 ∧ (sSub (.ofCoeff C) a o).1 = .ok () ∧
    Sparse.scalarLmultiplyInplace C a s = .ok (sMul (.ofCoeff C) a s).2 ∧ (sMul (.ofCoeff C) a s).1 = .ok () ∧
    Sparse.scalarRdivideInplace C a r = .ok (sDiv (.ofCoeff C) a r).2 ∧ (sDiv (.ofCoeff C) a r).1 = .ok () ∧
    Sparse.uminusInplace C a = .ok (sUminus (.ofCoeff C) a).2 ∧ (sUminus (.ofCoeff C) a).1 = .ok () := by
  have hup : ∀ (m : List (K × S)) (e : K × S) (x : S) (g : S → S → S), Sparse.NoDup m → Sparse.find m e.1 = some x →
      sUpdate (.ofCoeff C) (.ok (), g x e.2) e.1 m = (.ok (), if C.eq (g x e.2) C.zero then Sparse.hmRemove (Sparse.modifyAt m e.1 fun y => g y e.2) e.1
        else Sparse.modifyAt m e.1 fun y => g y e.2) := by
    intro m e x g hm hx
    unfold sUpdate
    simp only
    rw [modifyAt_const m hm e.1 x hx (fun y => g y e.2)]
    unfold FCoeff.ofCoeff
    simp only
    cases C.eq (g x e.2) C.zero <;> rfl
  have hadd : ∀ (m : List (K × S)) (e : K × S), Sparse.NoDup m → sAddStep (.ofCoeff C) () e m = (.ok (), Sparse.addStep C m e) := by
    intro m e hm
    unfold sAddStep Sparse.addStep
    cases hx : Sparse.find m e.1 with
    | some x => exact hup m e x C.add hm hx
    | none => rfl
  have hsub : ∀ (m : List (K × S)) (e : K × S), Sparse.NoDup m → sSubStep (.ofCoeff C) () e m = (.ok (), Sparse.subStep C m e) := by
    intro m e hm
    unfold sSubStep Sparse.subStep
    cases hx : Sparse.find m e.1 with
    | some x => exact hup m e x C.sub hm hx
    | none => rfl
  have h1 : o.entries.foldlM (sAddStep (.ofCoeff C)) () a.entries = _ :=
    totalLoop _ (Sparse.addStep C) hadd (fun m e hm => Sparse.noDup_addStep C hm e) o.entries a.entries ha
  have h2 : o.entries.foldlM (sSubStep (.ofCoeff C)) () a.entries = _ :=
    totalLoop _ (Sparse.subStep C) hsub (fun m e hm => Sparse.noDup_subStep C hm e) o.entries a.entries ha
  have h3 : ∀ f : S → S, sEach (fun x => (.ok (), f x)) a = (.ok (), ⟨a.entries.map fun e => (e.1, f e.2)⟩) := by
    intro f
    unfold sEach
    rw [eachLoop_total]
    simp only
    rw [List.map_map, List.zip_map']
    rfl
  unfold sAdd sSub
  rw [h1, h2]
  refine ⟨rfl, rfl, rfl, rfl, ?_⟩
  have hu : sUminus (.ofCoeff C) a = (.ok (), ⟨a.entries.map fun e => (e.1, C.uminus e.2)⟩) := h3 C.uminus
  have hd : sDiv (.ofCoeff C) a r = (.ok (), ⟨a.entries.map fun e => (e.1, C.div e.2 r)⟩) := h3 (fun x => C.div x r)
  have hmul : sMul (.ofCoeff C) a s = (.ok (), if C.eq s C.zero then ⟨[]⟩ else ⟨a.entries.map fun e => (e.1, C.mul e.2 s)⟩) := by
    unfold sMul
    have := h3 (fun x => C.mul x s)
    unfold FCoeff.ofCoeff
    simp only
    cases C.eq s C.zero
    · exact this
    · rfl
  rw [hu, hd, hmul]
  refine ⟨?_, rfl, rfl, rfl, rfl, rfl⟩
  unfold Sparse.scalarLmultiplyInplace Sparse.clear
  split_ifs <;> rfl

end
end RA
