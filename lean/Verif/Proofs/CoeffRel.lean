import Verif.Model.Algebra
import Verif.Model.DenseMore
import Verif.Model.Sparse
import Mathlib.Data.List.Forall2

/-!
# Comparing two coefficient types

`ResRel r x y`: two computations end the same way, and if they return, they return related values.  `CoeffRel Q P C D`: the operations of two coefficient types
preserve the relation `Q` between their coefficients (`P` between the scalars they can be divided by).  Every operation on dense and sparse vectors is shown
to preserve these relations: the code looks at coefficients through the operations of the coefficient type only.
-/

namespace RA
open TensorKey TensorBasis

/-- The two computations end the same way, with related values. -/
def ResRel {α β : Type} (r : α → β → Prop) : Res α → Res β → Prop
  | .ok a, .ok b => r a b
  | .panic, .panic => True
  | .ub, .ub => True
  | .diverge, .diverge => True
  | _, _ => False

namespace ResRel
variable {α β γ δ : Type} {r : α → β → Prop} {s : γ → δ → Prop}

theorem bind {x : Res α} {y : Res β} {f : α → Res γ} {g : β → Res δ} (h : ResRel r x y) (hf : ∀ a b, r a b → ResRel s (f a) (g b)) :
    ResRel s (x >>= f) (y >>= g) := by
  cases x <;> cases y <;> first | exact hf _ _ h | exact h | exact h.elim

theorem bind_eq {x : Res α} {f : α → Res γ} {g : α → Res δ} (hf : ∀ a, ResRel s (f a) (g a)) : ResRel s (x >>= f) (x >>= g) := by
  cases x
  · exact hf _
  · exact trivial
  · exact trivial
  · exact trivial

theorem map {x : Res α} {y : Res β} {f : α → γ} {g : β → δ} (h : ResRel r x y) (hf : ∀ a b, r a b → s (f a) (g b)) : ResRel s (f <$> x) (g <$> y) := by
  cases x <;> cases y <;> first | exact hf _ _ h | exact h

theorem refl {r : α → α → Prop} (x : Res α) (h : ∀ a, r a a) : ResRel r x x := by
  cases x <;> first | exact h _ | exact trivial

theorem foldlM {l : List γ} {m : List δ} {f : α → γ → Res α} {g : β → δ → Res β} (hl : List.Forall₂ s l m)
    (hf : ∀ a b c d, r a b → s c d → ResRel r (f a c) (g b d)) : ∀ {a : α} {b : β}, r a b → ResRel r (l.foldlM f a) (m.foldlM g b) := by
  induction hl with
  | nil => exact fun h => h
  | cons hc _ ih =>
    intro a b h
    rw [List.foldlM_cons, List.foldlM_cons]
    exact .bind (hf _ _ _ _ h hc) fun _ _ h => ih h

theorem foldlM_same {l : List γ} {f : α → γ → Res α} {g : β → γ → Res β} (hf : ∀ a b c, r a b → ResRel r (f a c) (g b c)) :
    ∀ {a : α} {b : β}, r a b → ResRel r (l.foldlM f a) (l.foldlM g b) := by
  induction l with
  | nil => exact fun h => h
  | cons c l ih =>
    intro a b h
    rw [List.foldlM_cons, List.foldlM_cons]
    exact .bind (hf _ _ _ h) fun _ _ h => ih h

theorem mapM {l : List γ} {m : List δ} {f : γ → Res α} {g : δ → Res β} (hl : List.Forall₂ s l m) (hf : ∀ c d, s c d → ResRel r (f c) (g d)) :
    ResRel (List.Forall₂ r) (l.mapM f) (m.mapM g) := by
  induction hl with
  | nil => exact List.Forall₂.nil
  | cons hc _ ih =>
    rw [List.mapM_cons, List.mapM_cons]
    exact .bind (hf _ _ hc) fun _ _ h => .bind ih fun _ _ h' => List.Forall₂.cons h h'

end ResRel

section
variable {S S' R R' : Type} (Q : S → S' → Prop) (P : R → R' → Prop)

/-- The operations of two coefficient types preserve the relation. -/
structure CoeffRel (C : Coeff S R) (C' : Coeff S' R') : Prop where
  zero : Q C.zero C'.zero
  one : Q C.one C'.one
  mone : Q C.mone C'.mone
  uminus : ∀ x x', Q x x' → Q (C.uminus x) (C'.uminus x')
  add : ∀ x x' y y', Q x x' → Q y y' → Q (C.add x y) (C'.add x' y')
  sub : ∀ x x' y y', Q x x' → Q y y' → Q (C.sub x y) (C'.sub x' y')
  mul : ∀ x x' y y', Q x x' → Q y y' → Q (C.mul x y) (C'.mul x' y')
  div : ∀ x x' y y', Q x x' → P y y' → Q (C.div x y) (C'.div x' y')

/-- Comparisons give the same answer. -/
def EqRel (C : Coeff S R) (C' : Coeff S' R') : Prop := ∀ x x' y y', Q x x' → Q y y' → C.eq x y = C'.eq x' y'

/-- Vectors of the same kind and size with related coefficients. -/
structure DRel (a : Dense S) (b : Dense S') : Prop where
  mode : a.mode = b.mode
  data : List.Forall₂ Q a.data b.data
  lent : List.Forall₂ Q a.lent b.lent

/-- Pairs with the same key and related coefficients. -/
def PairRel {K : Type} (e : K × S) (e' : K × S') : Prop := e.1 = e'.1 ∧ Q e.2 e'.2

/-- Sparse vectors with the same keys and related coefficients. -/
def SRel {K : Type} (a : Sparse K S) (b : Sparse K S') : Prop := List.Forall₂ (PairRel Q) a.entries b.entries

/-- Functions that preserve the relation. -/
def FRel (f : S → S) (f' : S' → S') : Prop := ∀ x x', Q x x' → Q (f x) (f' x')

end

section lists
variable {S S' : Type} {Q : S → S' → Prop}

theorem forall₂_append {a b : List S} {a' b' : List S'} (h : List.Forall₂ Q a a') (h' : List.Forall₂ Q b b') : List.Forall₂ Q (a ++ b) (a' ++ b') := by
  induction h with
  | nil => exact h'
  | cons hx _ ih => exact .cons hx ih

theorem forall₂_take {a : List S} {a' : List S'} (h : List.Forall₂ Q a a') : ∀ n, List.Forall₂ Q (a.take n) (a'.take n) := by
  induction h with
  | nil => intro n; rw [List.take_nil, List.take_nil]; exact .nil
  | cons hx _ ih =>
    intro n
    cases n with
    | zero => exact .nil
    | succ n => exact .cons hx (ih n)

theorem forall₂_drop {a : List S} {a' : List S'} (h : List.Forall₂ Q a a') : ∀ n, List.Forall₂ Q (a.drop n) (a'.drop n) := by
  induction h with
  | nil => intro n; rw [List.drop_nil, List.drop_nil]; exact .nil
  | cons hx h ih =>
    intro n
    cases n with
    | zero => exact .cons hx h
    | succ n => exact ih n

theorem forall₂_replicate {x : S} {x' : S'} (h : Q x x') (n : Nat) : List.Forall₂ Q (List.replicate n x) (List.replicate n x') := by
  induction n with
  | zero => exact .nil
  | succ n ih => exact .cons h ih

theorem forall₂_length {a : List S} {a' : List S'} (h : List.Forall₂ Q a a') : a.length = a'.length := by
  induction h with
  | nil => rfl
  | cons _ _ ih => rw [List.length_cons, List.length_cons, ih]

theorem forall₂_map {T T' : Type} {Q' : T → T' → Prop} {f : S → T} {f' : S' → T'} {a : List S} {a' : List S'} (h : List.Forall₂ Q a a')
    (hf : ∀ x x', Q x x' → Q' (f x) (f' x')) : List.Forall₂ Q' (a.map f) (a'.map f') := by
  induction h with
  | nil => exact .nil
  | cons hx _ ih => exact .cons (hf _ _ hx) ih

theorem forall₂_modify {f : S → S} {f' : S' → S'} {a : List S} {a' : List S'} (h : List.Forall₂ Q a a') (hf : FRel Q f f') :
    ∀ i, List.Forall₂ Q (a.modify i f) (a'.modify i f') := by
  induction h with
  | nil => intro i; cases i <;> exact .nil
  | cons hx h ih =>
    intro i
    cases i with
    | zero => exact .cons (hf _ _ hx) h
    | succ i => exact .cons hx (ih i)

theorem forall₂_zipWith {f : S → S → S} {f' : S' → S' → S'} (hf : ∀ x x' y y', Q x x' → Q y y' → Q (f x y) (f' x' y')) {a : List S} {a' : List S'}
    (h : List.Forall₂ Q a a') : ∀ {b : List S} {b' : List S'}, List.Forall₂ Q b b' → List.Forall₂ Q (List.zipWith f a b) (List.zipWith f' a' b') := by
  induction h with
  | nil => intro b b' _; exact .nil
  | cons hx _ ih =>
    intro b b' hb
    cases hb with
    | nil => exact .nil
    | cons hy hb => exact .cons (hf _ _ _ _ hx hy) (ih hb)

theorem forall₂_foldl {T T' : Type} {Q' : T → T' → Prop} {f : T → S → T} {f' : T' → S' → T'} {a : List S} {a' : List S'} (h : List.Forall₂ Q a a')
    (hf : ∀ x x' y y', Q' x x' → Q y y' → Q' (f x y) (f' x' y')) : ∀ {t : T} {t' : T'}, Q' t t' → Q' (a.foldl f t) (a'.foldl f' t') := by
  induction h with
  | nil => exact fun h => h
  | cons hx _ ih => exact fun h => ih (hf _ _ _ _ h hx)

theorem forall₂_getElem? {a : List S} {a' : List S'} (h : List.Forall₂ Q a a') (i : Nat) :
    (a[i]? = none ∧ a'[i]? = none) ∨ ∃ x x', a[i]? = some x ∧ a'[i]? = some x' ∧ Q x x' := by
  induction h generalizing i with
  | nil => exact .inl ⟨rfl, rfl⟩
  | cons hx _ ih =>
    cases i with
    | zero => exact .inr ⟨_, _, rfl, rfl, hx⟩
    | succ i => exact ih i

theorem forall₂_exists_zip {a : List S} {a' : List S'} (h : List.Forall₂ Q a a') :
    ∃ z : List (S × S'), a = z.map (·.1) ∧ a' = z.map (·.2) ∧ ∀ e ∈ z, Q e.1 e.2 := by
  induction h with
  | nil => exact ⟨[], rfl, rfl, by simp⟩
  | @cons x x' _ _ hx _ ih =>
    obtain ⟨z, h1, h2, h3⟩ := ih
    refine ⟨(x, x') :: z, by rw [h1]; rfl, by rw [h2]; rfl, ?_⟩
    intro e he
    rcases List.mem_cons.1 he with rfl | he
    · exact hx
    · exact h3 e he

theorem forall₂_of_zip (z : List (S × S')) (h : ∀ e ∈ z, Q e.1 e.2) : List.Forall₂ Q (z.map (·.1)) (z.map (·.2)) := by
  induction z with
  | nil => exact .nil
  | cons e z ih => exact .cons (h e (List.mem_cons_self ..)) (ih fun e he => h e (List.mem_cons_of_mem _ he))

/-- Sorting by the key keeps related lists related. -/
theorem forall₂_mergeSort {a : List (Nat × S)} {a' : List (Nat × S')} (h : List.Forall₂ (PairRel Q) a a') :
    List.Forall₂ (PairRel Q) (a.mergeSort fun x y => decide (x.1 ≤ y.1)) (a'.mergeSort fun x y => decide (x.1 ≤ y.1)) := by
  obtain ⟨z, rfl, rfl, hz⟩ := forall₂_exists_zip h
  have h1 := List.map_mergeSort (r := fun x y : (Nat × S) × (Nat × S') => decide (x.1.1 ≤ y.1.1)) (s := fun x y : Nat × S => decide (x.1 ≤ y.1))
    (f := (·.1)) (l := z) (fun _ _ _ _ => rfl)
  have h2 := List.map_mergeSort (r := fun x y : (Nat × S) × (Nat × S') => decide (x.1.1 ≤ y.1.1)) (s := fun x y : Nat × S' => decide (x.1 ≤ y.1))
    (f := (·.2)) (l := z) (fun x hx y hy => by rw [(hz x hx).1, (hz y hy).1])
  rw [← h1, ← h2]
  exact forall₂_of_zip _ fun e he => hz e (List.mem_mergeSort.1 he)

theorem forall₂_getLast? {a : List S} {a' : List S'} (h : List.Forall₂ Q a a') :
    (a.getLast? = none ∧ a'.getLast? = none) ∨ ∃ x x', a.getLast? = some x ∧ a'.getLast? = some x' ∧ Q x x' := by
  rw [List.getLast?_eq_getElem?, List.getLast?_eq_getElem?, forall₂_length h]
  exact forall₂_getElem? h _

theorem modifyUnchecked_rel {f : S → S} {f' : S' → S'} {a : List S} {a' : List S'} (h : List.Forall₂ Q a a') (hf : FRel Q f f') (i : Nat) :
    ResRel (List.Forall₂ Q) (modifyUnchecked a i f) (modifyUnchecked a' i f') := by
  unfold modifyUnchecked
  rw [← forall₂_length h]
  split
  · exact forall₂_modify h hf i
  · trivial

end lists

/-! ## Dense vectors -/

namespace Dense
variable {K S S' R R' : Type} {Q : S → S' → Prop} {P : R → R' → Prop} {C : Coeff S R} {C' : Coeff S' R'} (B : Basis K)

theorem size_rel {a : Dense S} {a' : Dense S'} (h : DRel Q a a') : a.size = a'.size := forall₂_length h.data

theorem ofVec_rel {l : List S} {l' : List S'} (h : List.Forall₂ Q l l') : DRel Q (ofVec l) (ofVec l') := ⟨rfl, h, .nil⟩

theorem new_rel : DRel Q (new : Dense S) (new : Dense S') := ofVec_rel .nil

theorem makeMut_rel {a : Dense S} {a' : Dense S'} (h : DRel Q a a') : DRel Q a.makeMut a'.makeMut := by
  unfold makeMut
  rw [← h.mode]
  split
  · exact ⟨rfl, h.data, h.lent⟩
  · exact h

theorem writeSlice_rel {a : Dense S} {a' : Dense S'} (h : DRel Q a a') {l : List S} {l' : List S'} (hl : List.Forall₂ Q l l') :
    DRel Q (a.writeSlice l) (a'.writeSlice l') := by
  have hm := makeMut_rel h
  unfold writeSlice
  rw [← hm.mode]
  split
  · exact ⟨h.mode, hl, hl⟩
  · exact ⟨hm.mode, hl, hm.lent⟩

theorem vecResize_rel {l : List S} {l' : List S'} (h : List.Forall₂ Q l l') {z : S} {z' : S'} (hz : Q z z') (n : Nat) :
    List.Forall₂ Q (vecResize l n z) (vecResize l' n z') := by
  unfold vecResize
  rw [← forall₂_length h]
  exact forall₂_append (forall₂_take h n) (forall₂_replicate hz _)

variable (hC : CoeffRel Q P C C')
include hC

theorem fromDimension_rel (n : Nat) : DRel Q (fromDimension C n) (fromDimension C' n) := ofVec_rel (forall₂_replicate hC.zero n)

theorem resize_rel {a : Dense S} {a' : Dense S'} (h : DRel Q a a') (n : Nat) : DRel Q (resize C a n) (resize C' a' n) := by
  unfold resize
  rw [← h.mode]
  split
  · exact ⟨rfl, vecResize_rel h.data hC.zero n, h.lent⟩
  · exact ⟨rfl, vecResize_rel h.data hC.zero n, h.lent⟩
  · exact ⟨rfl, vecResize_rel h.data hC.zero n, h.lent⟩

theorem fromKeyScalar_rel (k : K) {s : S} {s' : S'} (hs : Q s s') : ResRel (DRel Q) (fromKeyScalar C B k s) (fromKeyScalar C' B k s') := by
  unfold fromKeyScalar
  exact .bind_eq fun n => .bind_eq fun i => .bind (modifyUnchecked_rel (fromDimension_rel hC n).data (fun _ _ _ => hs) i) fun _ _ h =>
    writeSlice_rel (fromDimension_rel hC n) h

theorem fromKey_rel (k : K) : ResRel (DRel Q) (fromKey C B k) (fromKey C' B k) := fromKeyScalar_rel B hC k hC.one

theorem fromIterator_rel {items : List (K × S)} {items' : List (K × S')} (h : List.Forall₂ (PairRel Q) items items') :
    ResRel (DRel Q) (fromIterator C B items) (fromIterator C' B items') := by
  unfold fromIterator
  refine ResRel.bind (r := List.Forall₂ (PairRel Q)) (ResRel.mapM h fun e e' he => ?_) fun l l' hl => ?_
  · rw [he.1]
    exact .bind_eq fun i => ⟨rfl, he.2⟩
  · have hs := forall₂_mergeSort hl
    rcases forall₂_getLast? hs with ⟨h1, h2⟩ | ⟨x, x', h1, h2, hx⟩
    · rw [h1, h2]
      exact new_rel
    · rw [h1, h2]
      show ResRel (DRel Q) (B.dimForIndex x.1 >>= _) (B.dimForIndex x'.1 >>= _)
      rw [hx.1]
      refine .bind_eq fun n => .foldlM hs (fun a b c d hab hcd => ?_) (fromDimension_rel hC n)
      unfold fromIteratorStep
      rw [hcd.1]
      exact .bind (modifyUnchecked_rel hab.data (fun y y' hy => hC.add _ _ _ _ hy hcd.2) _) fun _ _ h => writeSlice_rel hab h

omit hC in
theorem swap_rel {a b : Dense S} {a' b' : Dense S'} (h : DRel Q a a') (h' : DRel Q b b') :
    ResRel (fun x y => DRel Q x.1 y.1 ∧ DRel Q x.2 y.2) (swap a b) (swap a' b') := ⟨h', h⟩

omit hC in
theorem toOwned_rel {a : Dense S} {a' : Dense S'} (h : DRel Q a a') : ResRel (DRel Q) (toOwned a) (toOwned a') := ofVec_rel h.data

theorem clear_rel {a : Dense S} {a' : Dense S'} (h : DRel Q a a') : ResRel (DRel Q) (clear C a) (clear C' a') := by
  unfold clear
  rw [← h.mode]
  split
  · exact ⟨rfl, .nil, h.lent⟩
  · exact writeSlice_rel h (forall₂_map h.data fun _ _ _ => hC.zero)
  · exact ⟨rfl, .nil, h.lent⟩

omit hC in
theorem get_rel {a : Dense S} {a' : Dense S'} (h : DRel Q a a') (k : K) : ResRel (Option.Rel Q) (get B a k) (get B a' k) := by
  refine .bind_eq fun i => ?_
  show Option.Rel Q _ _
  rcases forall₂_getElem? h.data i with ⟨h1, h2⟩ | ⟨x, x', h1, h2, hx⟩
  · rw [h1, h2]
    exact .none
  · rw [h1, h2]
    exact .some hx

omit hC in
theorem getMut_rel {a : Dense S} {a' : Dense S'} (h : DRel Q a a') (k : K) {f : S → S} {f' : S' → S'} (hf : FRel Q f f') :
    ResRel (fun x y => x.1 = y.1 ∧ DRel Q x.2 y.2) (getMut B a k f) (getMut B a' k f') := by
  unfold getMut
  refine .bind_eq fun i => ?_
  rw [← forall₂_length h.data]
  split
  · exact ⟨rfl, writeSlice_rel h (forall₂_modify h.data hf i)⟩
  · exact ⟨rfl, makeMut_rel h⟩

omit hC in
theorem insertSingle_rel {a : Dense S} {a' : Dense S'} (h : DRel Q a a') (k : K) (s : S) (s' : S') :
    ResRel (DRel Q) (insertSingle B a k s) (insertSingle B a' k s') := .bind_eq fun _ => h

theorem erase_rel {a : Dense S} {a' : Dense S'} (h : DRel Q a a') (k : K) : ResRel (DRel Q) (erase C B a k) (erase C' B a' k) :=
  .bind (getMut_rel B h k fun _ _ _ => hC.zero) fun _ _ h => h.2

theorem uminusInplace_rel {a : Dense S} {a' : Dense S'} (h : DRel Q a a') : ResRel (DRel Q) (uminusInplace C a) (uminusInplace C' a') :=
  writeSlice_rel h (forall₂_map h.data hC.uminus)

omit hC in
theorem zipInto_rel {f : S → S → S} {f' : S' → S' → S'} (hf : ∀ x x' y y', Q x x' → Q y y' → Q (f x y) (f' x' y')) {a b : List S} {a' b' : List S'}
    (h : List.Forall₂ Q a a') (h' : List.Forall₂ Q b b') : List.Forall₂ Q (zipInto f a b) (zipInto f' a' b') := by
  unfold zipInto
  rw [← forall₂_length h']
  exact forall₂_append (forall₂_zipWith hf h h') (forall₂_drop h _)

theorem grow_rel {a o : Dense S} {a' o' : Dense S'} (h : DRel Q a a') (ho : DRel Q o o') :
    DRel Q (if o.size > a.size then resize C a o.size else a) (if o'.size > a'.size then resize C' a' o'.size else a') := by
  rw [← size_rel h, ← size_rel ho]
  split
  · exact resize_rel hC h _
  · exact h

theorem addInplace_rel {a o : Dense S} {a' o' : Dense S'} (h : DRel Q a a') (ho : DRel Q o o') :
    ResRel (DRel Q) (addInplace C a o) (addInplace C' a' o') := by
  have hg := grow_rel hC (makeMut_rel h) ho
  exact writeSlice_rel hg (zipInto_rel hC.add hg.data ho.data)

theorem subInplace_rel {a o : Dense S} {a' o' : Dense S'} (h : DRel Q a a') (ho : DRel Q o o') :
    ResRel (DRel Q) (subInplace C a o) (subInplace C' a' o') := by
  have hg := grow_rel hC h ho
  exact writeSlice_rel hg (zipInto_rel hC.sub hg.data ho.data)

theorem scalarLmultiplyInplace_rel {a : Dense S} {a' : Dense S'} (h : DRel Q a a') {s : S} {s' : S'} (hs : Q s s') :
    ResRel (DRel Q) (scalarLmultiplyInplace C a s) (scalarLmultiplyInplace C' a' s') :=
  writeSlice_rel h (forall₂_map h.data fun _ _ hx => hC.mul _ _ _ _ hx hs)

theorem scalarRdivideInplace_rel {a : Dense S} {a' : Dense S'} (h : DRel Q a a') {r : R} {r' : R'} (hr : P r r') :
    ResRel (DRel Q) (scalarRdivideInplace C a r) (scalarRdivideInplace C' a' r') :=
  writeSlice_rel h (forall₂_map h.data fun _ _ hx => hC.div _ _ _ _ hx hr)

omit hC in
theorem degree_rel {a : Dense S} {a' : Dense S'} (h : DRel Q a a') : degree B a = degree B a' := by
  unfold degree
  rw [size_rel h]

theorem fromDegree_rel (d : Nat) : ResRel (DRel Q) (fromDegree C B d) (fromDegree C' B d) := .bind_eq fun n => fromDimension_rel hC n

omit hC in
theorem eq_rel (hE : EqRel Q C C') {a b : Dense S} {a' b' : Dense S'} (h : DRel Q a a') (h' : DRel Q b b') : eq C a b = eq C' a' b' := by
  unfold eq
  rw [forall₂_length h.data, forall₂_length h'.data]
  congr 1
  have : List.zipWith C.eq a.data b.data = List.zipWith C'.eq a'.data b'.data := by
    have hd := h.data
    have hd' := h'.data
    clear h h'
    revert hd hd'
    generalize a.data = l, b.data = m, a'.data = l', b'.data = m'
    intro hl
    induction hl generalizing m m' with
    | nil => intro _; rfl
    | cons hx _ ih =>
      intro hm
      cases hm with
      | nil => rfl
      | cons hy hm => rw [List.zipWith_cons_cons, List.zipWith_cons_cons, hE _ _ _ _ hx hy, ih _ _ hm]
  rw [this]

end Dense

/-! ## Products of dense tensors -/

namespace DenseAlg
variable {S S' R R' : Type} {Q : S → S' → Prop} {P : R → R' → Prop} {C : Coeff S R} {C' : Coeff S' R'} (p : Profile) (N : Nat)

theorem sliceUnchecked_rel {l : List S} {l' : List S'} (h : List.Forall₂ Q l l') (r : Nat × Nat) :
    ResRel (List.Forall₂ Q) (sliceUnchecked l r) (sliceUnchecked l' r) := by
  unfold sliceUnchecked
  rw [← forall₂_length h]
  split
  · exact forall₂_drop (forall₂_take h _) _
  · trivial

theorem replaceRange_rel {l o : List S} {l' o' : List S'} (h : List.Forall₂ Q l l') (ho : List.Forall₂ Q o o') (r : Nat × Nat) :
    List.Forall₂ Q (replaceRange l r o) (replaceRange l' r o') := forall₂_append (forall₂_append (forall₂_take h _) ho) (forall₂_drop h _)

variable (hC : CoeffRel Q P C C') {func : S → S} {func' : S' → S'} (hf : FRel Q func func')
include hC hf

theorem mulIntoBuffer_rel {o l r : List S} {o' l' r' : List S'} (ho : List.Forall₂ Q o o') (hl : List.Forall₂ Q l l') (hr : List.Forall₂ Q r r') :
    ResRel (List.Forall₂ Q) (mulIntoBuffer C o l r func) (mulIntoBuffer C' o' l' r' func') := by
  unfold mulIntoBuffer
  refine .bind (r := fun (x : List S × Nat) (y : List S' × Nat) => List.Forall₂ Q x.1 y.1 ∧ x.2 = y.2) (.foldlM hl (fun a b c d hab hcd => ?_) ⟨ho, rfl⟩)
    fun _ _ h => h.1
  refine .foldlM hr (fun a b e g hab heg => ?_) hab
  unfold bufStep
  rw [hab.2]
  exact .bind (modifyUnchecked_rel hab.1 (fun x x' hx => hC.add _ _ _ _ hx (hf _ _ (hC.mul _ _ _ _ hcd heg))) _) fun _ _ h => ⟨h, rfl⟩

theorem mulInplaceBuffer_rel {o r : List S} {o' r' : List S'} (ho : List.Forall₂ Q o o') (hr : List.Forall₂ Q r r') :
    List.Forall₂ Q (mulInplaceBuffer C o r func) (mulInplaceBuffer C' o' r' func') :=
  forall₂_map ho fun _ _ hx => forall₂_foldl hr (fun _ _ _ _ h h' => hf _ _ (hC.mul _ _ _ _ h h')) hx

theorem mulAddStep_rel {l r : Dense S} {l' r' : Dense S'} (hl : DRel Q l l') (hr : DRel Q r r') (n : Nat) {a : Dense S} {a' : Dense S'} (ha : DRel Q a a')
    (d : Nat) : ResRel (DRel Q) (mulAddStep C p N l r func n a d) (mulAddStep C' p N l' r' func' n a' d) := by
  have hm := Dense.makeMut_rel ha
  unfold mulAddStep
  exact .bind_eq fun _ => .bind_eq fun ro => .bind (sliceUnchecked_rel hm.data ro) fun _ _ h1 => .bind_eq fun rl =>
    .bind (sliceUnchecked_rel hl.data rl) fun _ _ h2 => .bind_eq fun rr => .bind (sliceUnchecked_rel hr.data rr) fun _ _ h3 =>
    .bind (mulIntoBuffer_rel hC hf h1 h2 h3) fun _ _ h4 => Dense.writeSlice_rel hm (replaceRange_rel hm.data h4 ro)

omit hf in
theorem growTo_rel {a : Dense S} {a' : Dense S'} (ha : DRel Q a a') (m : Nat) : ResRel (DRel Q) (growTo C p N a m) (growTo C' p N a' m) := by
  unfold growTo
  rw [Dense.degree_rel _ ha]
  refine .bind_eq fun d => ?_
  split
  · exact .bind_eq fun _ => .bind_eq fun _ => Dense.resize_rel hC ha _
  · exact ha

theorem mulAddInto_rel {a l r : Dense S} {a' l' r' : Dense S'} (ha : DRel Q a a') (hl : DRel Q l l') (hr : DRel Q r r') (d : Option Nat) :
    ResRel (DRel Q) (mulAddInto C p N a l r func d) (mulAddInto C' p N a' l' r' func' d) := by
  unfold mulAddInto
  rw [Dense.degree_rel _ hl, Dense.degree_rel _ hr]
  refine .bind_eq fun _ => .bind_eq fun _ => .bind_eq fun m => .bind (growTo_rel p N hC ha m) fun _ _ h => .foldlM_same (fun _ _ _ h => ?_) h
  unfold mulAddDegree
  dsimp only
  split
  · exact .bind_eq fun _ => .foldlM_same (fun _ _ c h => mulAddStep_rel p N hC hf hl hr _ h c) h
  · rw [Res.bind_ok, Res.bind_ok]
    exact .foldlM_same (fun _ _ c h => mulAddStep_rel p N hC hf hl hr _ h c) h

theorem splitMul_rel {a r : Dense S} {a' r' : Dense S'} (ha : DRel Q a a') (hr : DRel Q r r') (mid : Nat) (ro rl rr : Nat × Nat) :
    ResRel (DRel Q) (splitMul C a r func mid ro rl rr) (splitMul C' a' r' func' mid ro rl rr) := by
  have hm := Dense.makeMut_rel ha
  unfold splitMul
  show ResRel _ (if mid ≤ a.makeMut.data.length then _ else _) (if mid ≤ a'.makeMut.data.length then _ else _)
  rw [← forall₂_length hm.data]
  split
  · exact .bind (sliceUnchecked_rel (forall₂_drop hm.data mid) ro) fun _ _ h1 => .bind (sliceUnchecked_rel (forall₂_take hm.data mid) rl) fun _ _ h2 =>
      .bind (sliceUnchecked_rel hr.data rr) fun _ _ h3 => .bind (mulIntoBuffer_rel hC hf h1 h2 h3) fun _ _ h4 =>
      Dense.writeSlice_rel hm (forall₂_append (forall₂_take hm.data mid) (replaceRange_rel (forall₂_drop hm.data mid) h4 ro))
  · trivial

theorem mulIntoAssign_rel {a r : Dense S} {a' r' : Dense S'} (ha : DRel Q a a') (hr : DRel Q r r') (off n m : Nat) :
    ResRel (DRel Q) (mulIntoAssign C p N r func off n m a) (mulIntoAssign C' p N r' func' off n m a') := by
  have hm := Dense.makeMut_rel ha
  unfold mulIntoAssign
  refine .bind_eq fun _ => .bind_eq fun rr => .bind_eq fun ro => ?_
  split
  · exact .bind_eq fun _ => .bind_eq fun _ => splitMul_rel hC hf ha hr _ _ _ _
  · exact .bind (sliceUnchecked_rel hm.data ro) fun _ _ h1 => .bind (sliceUnchecked_rel hr.data rr) fun _ _ h2 =>
      Dense.writeSlice_rel hm (replaceRange_rel hm.data (mulInplaceBuffer_rel hC hf h1 h2) ro)

theorem mulIntoDegree_rel {a r : Dense S} {a' r' : Dense S'} (ha : DRel Q a a') (hr : DRel Q r r') (off : Nat) (as : Bool) (ld rd n : Nat) :
    ResRel (DRel Q) (mulIntoDegree C p N r func off as ld rd a n) (mulIntoDegree C' p N r' func' off as ld rd a' n) := by
  unfold mulIntoDegree
  refine .bind_eq fun lo => .bind_eq fun t => ?_
  have hloop : ∀ {x : Dense S} {x' : Dense S'} (m : Nat) (l : List Nat), DRel Q x x' →
      ResRel (DRel Q) (l.foldlM (mulIntoStep C p N r func n m) x) (l.foldlM (mulIntoStep C' p N r' func' n m) x') := by
    intro x x' m l hx
    refine .foldlM_same (fun _ _ _ h => ?_) hx
    unfold mulIntoStep
    exact .bind_eq fun _ => .bind_eq fun _ => .bind_eq fun _ => .bind_eq fun _ => .bind_eq fun _ => .bind_eq fun _ => splitMul_rel hC hf h hr _ _ _ _
  dsimp only
  split
  · exact .bind (mulIntoAssign_rel p N hC hf ha hr _ _ _) fun _ _ h => .bind_eq fun _ => hloop _ _ h
  · rw [Res.bind_ok, Res.bind_ok]
    exact .bind_eq fun _ => hloop _ _ ha

omit hf in
theorem offsetAssign_rel (hE : EqRel Q C C') {r : Dense S} {r' : Dense S'} (hr : DRel Q r r') : offsetAssign C r = offsetAssign C' r' := by
  unfold offsetAssign
  rcases forall₂_getElem? hr.data 0 with ⟨h1, h2⟩ | ⟨x, x', h1, h2, hx⟩
  · rw [h1, h2]
  · rw [h1, h2]
    show (if C.eq x C.zero then _ else if C.eq x C.one then _ else _) = (if C'.eq x' C'.zero then _ else if C'.eq x' C'.one then _ else _)
    rw [hE _ _ _ _ hx hC.zero, hE _ _ _ _ hx hC.one]

theorem mulInto_rel (hE : EqRel Q C C') {a r : Dense S} {a' r' : Dense S'} (ha : DRel Q a a') (hr : DRel Q r r') (d : Option Nat) :
    ResRel (DRel Q) (mulInto C p N a r func d) (mulInto C' p N a' r' func' d) := by
  unfold mulInto
  rw [Dense.degree_rel _ ha, Dense.degree_rel _ hr, offsetAssign_rel hC hE hr]
  refine .bind_eq fun _ => .bind_eq fun _ => .bind_eq fun m => .bind (growTo_rel p N hC ha m) fun _ _ h => ?_
  dsimp only
  exact .foldlM_same (fun _ _ c h => mulIntoDegree_rel p N hC hf h hr _ _ _ _ c) h

end DenseAlg

/-! ## Sparse vectors -/

namespace Sparse
variable {K S S' R R' : Type} [DecidableEq K] {Q : S → S' → Prop} {P : R → R' → Prop} {C : Coeff S R} {C' : Coeff S' R'}

theorem find_rel {m : List (K × S)} {m' : List (K × S')} (h : List.Forall₂ (PairRel Q) m m') (k : K) :
    (find m k = none ∧ find m' k = none) ∨ ∃ x x', find m k = some x ∧ find m' k = some x' ∧ Q x x' := by
  induction h with
  | nil => exact .inl ⟨rfl, rfl⟩
  | @cons e e' _ _ he _ ih =>
    unfold find at *
    rw [List.find?_cons, List.find?_cons, ← he.1]
    by_cases hk : e.1 = k
    · simp only [hk, decide_true]
      exact .inr ⟨_, _, rfl, rfl, he.2⟩
    · simp only [hk, decide_false]
      exact ih

theorem find_isSome_rel {m : List (K × S)} {m' : List (K × S')} (h : List.Forall₂ (PairRel Q) m m') (k : K) : (find m k).isSome = (find m' k).isSome := by
  rcases find_rel h k with ⟨h1, h2⟩ | ⟨x, x', h1, h2, _⟩ <;> rw [h1, h2] <;> rfl

theorem modifyAt_rel {m : List (K × S)} {m' : List (K × S')} (h : List.Forall₂ (PairRel Q) m m') (k : K) {f : S → S} {f' : S' → S'} (hf : FRel Q f f') :
    List.Forall₂ (PairRel Q) (modifyAt m k f) (modifyAt m' k f') := by
  refine forall₂_map h fun e e' he => ?_
  rw [← he.1]
  split
  · exact ⟨rfl, hf _ _ he.2⟩
  · exact he

theorem hmInsert_rel {m : List (K × S)} {m' : List (K × S')} (h : List.Forall₂ (PairRel Q) m m') (k : K) {v : S} {v' : S'} (hv : Q v v') :
    List.Forall₂ (PairRel Q) (hmInsert m k v) (hmInsert m' k v') := by
  unfold hmInsert
  rw [find_isSome_rel h]
  split
  · exact modifyAt_rel h k fun _ _ _ => hv
  · exact forall₂_append h (.cons ⟨rfl, hv⟩ .nil)

theorem hmRemove_rel {m : List (K × S)} {m' : List (K × S')} (h : List.Forall₂ (PairRel Q) m m') (k : K) :
    List.Forall₂ (PairRel Q) (hmRemove m k) (hmRemove m' k) := by
  unfold hmRemove
  induction h with
  | nil => exact .nil
  | @cons e e' _ _ he _ ih =>
    rw [List.filter_cons, List.filter_cons, ← he.1]
    split
    · exact .cons he ih
    · exact ih

theorem fromIterator_rel {l : List (K × S)} {l' : List (K × S')} (h : List.Forall₂ (PairRel Q) l l') : ResRel (SRel Q) (fromIterator l) (fromIterator l') := by
  refine forall₂_foldl (Q' := List.Forall₂ (PairRel Q)) h (fun m m' e e' hm he => ?_) .nil
  rw [← he.1]
  exact hmInsert_rel hm _ he.2

theorem getMut_rel {a : Sparse K S} {a' : Sparse K S'} (h : SRel Q a a') (k : K) {f : S → S} {f' : S' → S'} (hf : FRel Q f f') :
    ResRel (fun x y => x.1 = y.1 ∧ SRel Q x.2 y.2) (getMut a k f) (getMut a' k f') := by
  unfold getMut
  rw [find_isSome_rel h]
  split
  · exact ⟨rfl, modifyAt_rel h k hf⟩
  · exact ⟨rfl, h⟩

theorem get_rel {a : Sparse K S} {a' : Sparse K S'} (h : SRel Q a a') (k : K) : ResRel (Option.Rel Q) (get a k) (get a' k) := by
  show Option.Rel Q _ _
  rcases find_rel h k with ⟨h1, h2⟩ | ⟨x, x', h1, h2, hx⟩
  · rw [h1, h2]
    exact .none
  · rw [h1, h2]
    exact .some hx

variable (hC : CoeffRel Q P C C')
include hC

theorem fromKey_rel (k : K) : ResRel (SRel Q) (fromKey C k) (fromKey C' k) := hmInsert_rel .nil k hC.one

omit [DecidableEq K] in
theorem uminusInplace_rel {a : Sparse K S} {a' : Sparse K S'} (h : SRel Q a a') : ResRel (SRel Q) (uminusInplace C a) (uminusInplace C' a') :=
  forall₂_map h fun _ _ he => ⟨he.1, hC.uminus _ _ he.2⟩

omit [DecidableEq K] in
theorem scalarRdivideInplace_rel {a : Sparse K S} {a' : Sparse K S'} (h : SRel Q a a') {r : R} {r' : R'} (hr : P r r') :
    ResRel (SRel Q) (scalarRdivideInplace C a r) (scalarRdivideInplace C' a' r') :=
  forall₂_map h fun _ _ he => ⟨he.1, hC.div _ _ _ _ he.2 hr⟩

variable (hE : EqRel Q C C')
include hE

theorem addInplace_rel {a o : Sparse K S} {a' o' : Sparse K S'} (h : SRel Q a a') (ho : SRel Q o o') :
    ResRel (SRel Q) (addInplace C a o) (addInplace C' a' o') := by
  refine forall₂_foldl (Q' := List.Forall₂ (PairRel Q)) ho (fun m m' e e' hm he => ?_) h
  unfold addStep
  rw [← he.1]
  have hmod := modifyAt_rel hm e.1 (f := fun x => C.add x e.2) (f' := fun x => C'.add x e'.2) fun _ _ hx => hC.add _ _ _ _ hx he.2
  rcases find_rel hm e.1 with ⟨h1, h2⟩ | ⟨x, x', h1, h2, hx⟩
  · rw [h1, h2]
    exact hmInsert_rel hm _ he.2
  · rw [h1, h2]
    show List.Forall₂ _ (if C.eq (C.add x e.2) C.zero = true then _ else _) (if C'.eq (C'.add x' e'.2) C'.zero = true then _ else _)
    rw [hE _ _ _ _ (hC.add _ _ _ _ hx he.2) hC.zero]
    split
    · exact hmRemove_rel hmod _
    · exact hmod

theorem subInplace_rel {a o : Sparse K S} {a' o' : Sparse K S'} (h : SRel Q a a') (ho : SRel Q o o') :
    ResRel (SRel Q) (subInplace C a o) (subInplace C' a' o') := by
  refine forall₂_foldl (Q' := List.Forall₂ (PairRel Q)) ho (fun m m' e e' hm he => ?_) h
  unfold subStep
  rw [← he.1]
  have hmod := modifyAt_rel hm e.1 (f := fun x => C.sub x e.2) (f' := fun x => C'.sub x e'.2) fun _ _ hx => hC.sub _ _ _ _ hx he.2
  rcases find_rel hm e.1 with ⟨h1, h2⟩ | ⟨x, x', h1, h2, hx⟩
  · rw [h1, h2]
    exact hmInsert_rel hm _ (hC.uminus _ _ he.2)
  · rw [h1, h2]
    show List.Forall₂ _ (if C.eq (C.sub x e.2) C.zero = true then _ else _) (if C'.eq (C'.sub x' e'.2) C'.zero = true then _ else _)
    rw [hE _ _ _ _ (hC.sub _ _ _ _ hx he.2) hC.zero]
    split
    · exact hmRemove_rel hmod _
    · exact hmod

omit [DecidableEq K] in
theorem scalarLmultiplyInplace_rel {a : Sparse K S} {a' : Sparse K S'} (h : SRel Q a a') {s : S} {s' : S'} (hs : Q s s') :
    ResRel (SRel Q) (scalarLmultiplyInplace C a s) (scalarLmultiplyInplace C' a' s') := by
  unfold scalarLmultiplyInplace
  rw [hE _ _ _ _ hs hC.zero]
  split
  · exact List.Forall₂.nil
  · exact forall₂_map (Q' := PairRel Q) h fun _ _ he => ⟨he.1, hC.mul _ _ _ _ he.2 hs⟩

omit hC in
theorem eq_rel {a b : Sparse K S} {a' b' : Sparse K S'} (h : SRel Q a a') (h' : SRel Q b b') : eq C a b = eq C' a' b' := by
  unfold eq
  rw [forall₂_length h, forall₂_length h']
  split
  · rfl
  · unfold SRel at h
    revert h
    generalize a.entries = l, a'.entries = l'
    intro h
    induction h with
    | nil => rfl
    | @cons e e' _ _ he _ ih =>
      rw [List.all_cons, List.all_cons, ih, ← he.1]
      rcases find_rel h' e.1 with ⟨h1, h2⟩ | ⟨x, x', h1, h2, hx⟩
      · rw [h1, h2]
      · rw [h1, h2]
        show (C.eq x e.2 && _) = (C'.eq x' e'.2 && _)
        rw [hE _ _ _ _ hx he.2]

end Sparse
end RA
