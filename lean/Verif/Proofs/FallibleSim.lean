import Verif.Model.FallibleAlgebra
import Verif.Proofs.CoeffRel

/-!
# Comparing coefficients that may panic with others

`ResRef z r x y`: if the first computation returns, so does the second, with a related value.  If it does not panic either, and `z` holds, both end in the same way.
`FRef z Q P F F'`: this holds for the operations of `F` and `F'`.  Every operation on dense and sparse vectors preserves these relations.
-/

namespace RA

/-- The first computation panics, or both return with related values, or (if `z` holds) both end in the same way. -/
def ResRef (z : Prop) {α β : Type} (r : α → β → Prop) (x : Res α) (y : Res β) : Prop :=
  match x with
  | .ok a => ∃ b, y = .ok b ∧ r a b
  | .panic => True
  | .ub => z → y = .ub
  | .diverge => z → y = .diverge

namespace ResRef
variable {z : Prop} {α β γ δ : Type} {r : α → β → Prop} {s : γ → δ → Prop}

theorem ret {x : Res α} {y : Res β} (h : ResRef z r x y) {a : α} (ha : x = .ok a) : ∃ b, y = .ok b ∧ r a b := by
  subst ha
  exact h

theorem ok {a : α} {b : β} (h : r a b) : ResRef z r (.ok a) (.ok b) := ⟨b, rfl, h⟩

theorem mono {x : Res α} {y : Res β} {q : α → β → Prop} (h : ResRef z r x y) (hq : ∀ a b, x = .ok a → y = .ok b → r a b → q a b) : ResRef z q x y := by
  cases x with
  | ok a =>
    obtain ⟨b, rfl, hb⟩ := h
    exact ⟨b, rfl, hq a b rfl rfl hb⟩
  | panic => trivial
  | ub => exact h
  | diverge => exact h

theorem of_rel {x : Res α} {y : Res β} (h : ResRel r x y) : ResRef z r x y := by
  cases x <;> cases y <;> first | exact h.elim | exact ⟨_, rfl, h⟩ | trivial | exact fun _ => rfl

theorem bind {x : Res α} {y : Res β} {f : α → Res γ} {g : β → Res δ} (h : ResRef z r x y) (hf : ∀ a b, r a b → ResRef z s (f a) (g b)) :
    ResRef z s (x >>= f) (y >>= g) := by
  cases x with
  | ok a =>
    obtain ⟨b, rfl, hb⟩ := h
    exact hf a b hb
  | panic => trivial
  | ub => exact fun hz => by rw [h hz]; rfl
  | diverge => exact fun hz => by rw [h hz]; rfl

theorem bind_eq {x : Res α} {f : α → Res γ} {g : α → Res δ} (hf : ∀ a, ResRef z s (f a) (g a)) : ResRef z s (x >>= f) (x >>= g) := by
  cases x with
  | ok a => exact hf a
  | panic => trivial
  | ub => exact fun _ => rfl
  | diverge => exact fun _ => rfl

theorem foldlM {l : List γ} {m : List δ} {f : α → γ → Res α} {g : β → δ → Res β} (hl : List.Forall₂ s l m)
    (hf : ∀ a b c d, r a b → s c d → ResRef z r (f a c) (g b d)) : ∀ {a : α} {b : β}, r a b → ResRef z r (l.foldlM f a) (m.foldlM g b) := by
  induction hl with
  | nil => exact fun h => .ok h
  | cons hc _ ih =>
    intro a b h
    rw [List.foldlM_cons, List.foldlM_cons]
    exact .bind (hf _ _ _ _ h hc) fun _ _ h => ih h

theorem foldlM_same {l : List γ} {f : α → γ → Res α} {g : β → γ → Res β} (hf : ∀ a b c, r a b → ResRef z r (f a c) (g b c)) :
    ∀ {a : α} {b : β}, r a b → ResRef z r (l.foldlM f a) (l.foldlM g b) := by
  induction l with
  | nil => exact fun h => .ok h
  | cons c l ih =>
    intro a b h
    rw [List.foldlM_cons, List.foldlM_cons]
    exact .bind (hf _ _ _ h) fun _ _ h => ih h

end ResRef

/-- The same for operations that leave a value in place. -/
def OutRef (z : Prop) {V V' : Type} (q : V → V' → Prop) (x : Res Unit × V) (y : Res Unit × V') : Prop := ResRef z (fun _ _ => q x.2 y.2) x.1 y.1

/-- The same for computations on a state. -/
def USim (z : Prop) {σ σ' α β : Type} (st : σ → σ' → Prop) (r : α → β → Prop) (x : Unw σ α) (y : Unw σ' β) : Prop :=
  ∀ s s', st s s' → ResRef z (fun a b => r a b ∧ st (x s).2 (y s').2) (x s).1 (y s').1

namespace USim
variable {z : Prop} {σ σ' α β γ δ : Type} {st : σ → σ' → Prop} {r : α → β → Prop} {q : γ → δ → Prop}

theorem bind {x : Unw σ α} {y : Unw σ' β} {f : α → Unw σ γ} {g : β → Unw σ' δ} (h : USim z st r x y) (hf : ∀ a b, r a b → USim z st q (f a) (g b)) :
    USim z st q (x >>= f) (y >>= g) := by
  intro s s' hs
  have h1 : (x >>= f) s = Unw.bind x f s := rfl
  have h2 : (y >>= g) s' = Unw.bind y g s' := rfl
  rw [h1, h2]
  unfold Unw.bind
  have h3 := h s s' hs
  revert h3
  rcases x s with ⟨x1, x2⟩
  rcases y s' with ⟨y1, y2⟩
  intro h3
  cases x1 with
  | ok a =>
    obtain ⟨b, h4, h5, h6⟩ := h3
    simp only at h4
    subst h4
    exact hf a b h5 x2 y2 h6
  | panic => trivial
  | ub => exact fun hz => by have h4 : y1 = _ := h3 hz; subst h4; rfl
  | diverge => exact fun hz => by have h4 : y1 = _ := h3 hz; subst h4; rfl

theorem lift {x : Res α} {y : Res β} (h : ResRef z r x y) : USim z st r (Unw.lift x) (Unw.lift y) := fun _ _ hs => h.mono fun _ _ _ _ h => ⟨h, hs⟩

theorem lift_eq (x : Res α) : USim z st Eq (Unw.lift x) (Unw.lift x) := .lift (by
  cases x
  · exact .ok rfl
  · trivial
  all_goals exact fun _ => rfl)

theorem bind_lift {x : Res α} {f : α → Unw σ γ} {g : α → Unw σ' δ} (hf : ∀ a, USim z st q (f a) (g a)) :
    USim z st q (Unw.lift x >>= f) (Unw.lift x >>= g) := .bind (.lift_eq x) fun a b h => by subst h; exact hf a

theorem pure {a : α} {b : β} (h : r a b) : USim z st r (Pure.pure a) (Pure.pure b) := fun _ _ hs => ⟨b, rfl, h, hs⟩

theorem get : USim z st st (Unw.get : Unw σ σ) (Unw.get : Unw σ' σ') := fun _ s' hs => ⟨s', rfl, hs, hs⟩

theorem set {s : σ} {s' : σ'} (h : st s s') : USim z st (fun _ _ => True) (Unw.set s) (Unw.set s') := fun _ _ _ => ⟨(), rfl, trivial, h⟩

theorem unit {x : Unw σ Unit} {y : Unw σ' Unit} (h : ∀ s s', st s s' → OutRef z st (x s) (y s')) : USim z st (fun _ _ => True) x y :=
  fun s s' hs => (h s s' hs).mono fun _ _ _ _ h => ⟨trivial, h⟩

theorem out {r : Unit → Unit → Prop} {x : Unw σ Unit} {y : Unw σ' Unit} (h : USim z st r x y) {s : σ} {s' : σ'} (hs : st s s') : OutRef z st (x s) (y s') :=
  (h s s' hs).mono fun _ _ _ _ h => h.2

theorem foldlM {l : List γ} {m : List δ} {f : α → γ → Unw σ α} {g : β → δ → Unw σ' β} (hl : List.Forall₂ q l m)
    (hf : ∀ a b c d, r a b → q c d → USim z st r (f a c) (g b d)) : ∀ {a : α} {b : β}, r a b → USim z st r (l.foldlM f a) (m.foldlM g b) := by
  induction hl with
  | nil => exact fun h => .pure h
  | cons hc _ ih =>
    intro a b h
    rw [List.foldlM_cons, List.foldlM_cons]
    exact .bind (hf _ _ _ _ h hc) fun _ _ h => ih h

theorem foldlM_same {l : List γ} {f : α → γ → Unw σ α} {g : β → γ → Unw σ' β} (hf : ∀ a b c, r a b → USim z st r (f a c) (g b c)) :
    ∀ {a : α} {b : β}, r a b → USim z st r (l.foldlM f a) (l.foldlM g b) := by
  induction l with
  | nil => exact fun h => .pure h
  | cons c l ih =>
    intro a b h
    rw [List.foldlM_cons, List.foldlM_cons]
    exact .bind (hf _ _ _ h) fun _ _ h => ih h

end USim

/-- What the operations of `F` return is related to what the operations of `F'` return. -/
structure FRef (z : Prop) {S S' R R' : Type} (Q : S → S' → Prop) (P : R → R' → Prop) (F : FCoeff S R) (F' : FCoeff S' R') : Prop where
  zero : Q F.zero F'.zero
  one : Q F.one F'.one
  mone : Q F.mone F'.mone
  eq : ∀ x x' y y', Q x x' → Q y y' → ResRef z Eq (F.eq x y) (F'.eq x' y')
  uminus : ∀ x x', Q x x' → ResRef z Q (F.uminus x) (F'.uminus x')
  mul : ∀ x x' y y', Q x x' → Q y y' → ResRef z Q (F.mul x y) (F'.mul x' y')
  div : ∀ x x' y y', Q x x' → P y y' → ResRef z Q (F.div x y) (F'.div x' y')
  addIn : ∀ x x' y y', Q x x' → Q y y' → OutRef z Q (F.addIn x y) (F'.addIn x' y')
  subIn : ∀ x x' y y', Q x x' → Q y y' → OutRef z Q (F.subIn x y) (F'.subIn x' y')
  mulIn : ∀ x x' y y', Q x x' → Q y y' → OutRef z Q (F.mulIn x y) (F'.mulIn x' y')
  divIn : ∀ x x' y y', Q x x' → P y y' → OutRef z Q (F.divIn x y) (F'.divIn x' y')

namespace Fallible
variable {z : Prop} {K S S' R R' : Type} {Q : S → S' → Prop} {P : R → R' → Prop} {F : FCoeff S R} {F' : FCoeff S' R'}

/-! ## Vectors -/

theorem OutRef.temp {V V' : Type} {q : V → V' → Prop} {x : Res Unit × V} {y : Res Unit × V'} (h : OutRef z q x y) :
    ResRef z q (Fallible.temp x) (Fallible.temp y) := by
  unfold Fallible.temp
  rcases x with ⟨_ | _ | _ | _, v⟩
  · obtain ⟨_, h1, h2⟩ := h
    rw [h1]
    exact ⟨_, rfl, h2⟩
  · trivial
  all_goals exact fun hz => by rw [h hz]

theorem OutRef.withArg {A A' V V' : Type} {r : A → A' → Prop} {q : V → V' → Prop} {x : Res A} {y : Res A'} (h : ResRef z r x y) {f : A → Unw V Unit}
    {g : A' → Unw V' Unit} {v : V} {v' : V'} (hf : ∀ a a', r a a' → OutRef z q (f a v) (g a' v')) :
    OutRef z q (Fallible.withArg x f v) (Fallible.withArg y g v') := by
  unfold Fallible.withArg
  cases x with
  | ok a =>
    obtain ⟨b, rfl, h2⟩ := h
    exact hf a b h2
  | panic => trivial
  | ub | diverge => exact fun hz => by rw [h hz]

theorem assign_ref {f : S → Res S} {f' : S' → Res S'} (hf : ∀ x x', Q x x' → ResRef z Q (f x) (f' x')) {x : S} {x' : S'} (hx : Q x x') :
    OutRef z Q (assign f x) (assign f' x') := by
  unfold assign
  have := hf x x' hx
  cases hy : f x with
  | ok y =>
    obtain ⟨y', h1, h2⟩ := this.ret hy
    rw [h1]
    exact ⟨(), rfl, h2⟩
  | panic => trivial
  | ub | diverge =>
    rw [hy] at this
    exact fun hz => by rw [this hz]

theorem zipLoop_ref {A A' : Type} {p : A → A' → Prop} {g : S → A → Res Unit × S} {g' : S' → A' → Res Unit × S'}
    (hg : ∀ x x' y y', Q x x' → p y y' → OutRef z Q (g x y) (g' x' y')) {xs : List S} {xs' : List S'} (hx : List.Forall₂ Q xs xs') :
    ∀ {ys : List A} {ys' : List A'}, List.Forall₂ p ys ys' → OutRef z (List.Forall₂ Q) (zipLoop g xs ys) (zipLoop g' xs' ys') := by
  induction hx with
  | nil =>
    intro ys ys' _
    cases ys <;> cases ys' <;> exact ⟨(), rfl, .nil⟩
  | @cons x x' xs xs' h0 h1 ih =>
    intro ys ys' hy
    cases hy with
    | nil => exact ⟨(), rfl, .cons h0 h1⟩
    | @cons y y' ys ys' h2 h3 =>
      have h4 := hg x x' y y' h0 h2
      unfold zipLoop
      revert h4
      rcases g x y with ⟨_ | _ | _ | _, u⟩ <;> rcases g' x' y' with ⟨u1, u'⟩ <;> intro h4
      · obtain ⟨_, h5, h6⟩ := h4
        simp only at h5
        subst h5
        exact (ih h3).mono fun _ _ _ _ h8 => .cons h6 h8
      · trivial
      all_goals exact fun hz => by have h5 : u1 = _ := h4 hz; subst h5; rfl

theorem eachLoop_ref {g : S → Res Unit × S} {g' : S' → Res Unit × S'} (hg : ∀ x x', Q x x' → OutRef z Q (g x) (g' x')) {xs : List S} {xs' : List S'}
    (hx : List.Forall₂ Q xs xs') : OutRef z (List.Forall₂ Q) (eachLoop g xs) (eachLoop g' xs') :=
  zipLoop_ref (p := Q) (fun x x' _ _ h _ => hg x x' h) hx hx

theorem onSlice_ref {d : Dense S} {d' : Dense S'} (hd : DRel Q d d') {q : Res Unit × List S} {q' : Res Unit × List S'} (h : OutRef z (List.Forall₂ Q) q q') :
    OutRef z (DRel Q) (onSlice d q) (onSlice d' q') := ResRef.mono h fun _ _ _ _ h => Dense.writeSlice_rel hd h

theorem resizeF_ref (hF : FRef z Q P F F') {d : Dense S} {d' : Dense S'} (hd : DRel Q d d') (n : Nat) : DRel Q (resizeF F d n) (resizeF F' d' n) := by
  obtain ⟨h1, h2, h3⟩ := hd
  unfold resizeF
  rw [← h1]
  cases d.mode
  · exact ⟨rfl, Dense.vecResize_rel h2 hF.zero n, h3⟩
  · exact ⟨rfl, Dense.vecResize_rel h2 hF.zero n, h3⟩
  · exact ⟨rfl, Dense.vecResize_rel h2 hF.zero n, h3⟩

theorem grow_ref (hF : FRef z Q P F F') {d : Dense S} {d' : Dense S'} (hd : DRel Q d d') (n : Nat) : DRel Q (grow F d n) (grow F' d' n) := by
  unfold grow
  rw [Dense.size_rel hd]
  split
  · exact resizeF_ref hF hd n
  · exact hd

section dense
variable (hF : FRef z Q P F F')
include hF

theorem dUminus_ref {d : Dense S} {d' : Dense S'} (hd : DRel Q d d') : OutRef z (DRel Q) (dUminus F d) (dUminus F' d') :=
  onSlice_ref hd (eachLoop_ref (fun _ _ h => assign_ref hF.uminus h) hd.data)

theorem dAdd_ref {d o : Dense S} {d' o' : Dense S'} (hd : DRel Q d d') (ho : DRel Q o o') : OutRef z (DRel Q) (dAdd F d o) (dAdd F' d' o') := by
  have h := grow_ref hF (Dense.makeMut_rel hd) o.size
  unfold dAdd
  rw [← Dense.size_rel ho]
  exact onSlice_ref h (zipLoop_ref hF.addIn h.data ho.data)

theorem dSub_ref {d o : Dense S} {d' o' : Dense S'} (hd : DRel Q d d') (ho : DRel Q o o') : OutRef z (DRel Q) (dSub F d o) (dSub F' d' o') := by
  have h := grow_ref hF hd o.size
  unfold dSub
  rw [← Dense.size_rel ho]
  exact onSlice_ref h (zipLoop_ref hF.subIn h.data ho.data)

theorem dMul_ref {d : Dense S} {d' : Dense S'} (hd : DRel Q d d') {s : S} {s' : S'} (hs : Q s s') : OutRef z (DRel Q) (dMul F d s) (dMul F' d' s') :=
  onSlice_ref (Dense.makeMut_rel hd) (eachLoop_ref (fun _ _ h => hF.mulIn _ _ _ _ h hs) hd.data)

theorem dDiv_ref {d : Dense S} {d' : Dense S'} (hd : DRel Q d d') {r : R} {r' : R'} (hr : P r r') : OutRef z (DRel Q) (dDiv F d r) (dDiv F' d' r') :=
  onSlice_ref hd (eachLoop_ref (fun _ _ h => hF.divIn _ _ _ _ h hr) hd.data)

theorem dAddMul_ref {d o : Dense S} {d' o' : Dense S'} (hd : DRel Q d d') (ho : DRel Q o o') {s : S} {s' : S'} (hs : Q s s') :
    OutRef z (DRel Q) (dAddMul F d o s) (dAddMul F' d' o' s') :=
  OutRef.withArg (OutRef.temp (dMul_ref hF (Dense.ofVec_rel ho.data) hs)) fun _ _ h => dAdd_ref hF hd h

theorem dSubMul_ref {d o : Dense S} {d' o' : Dense S'} (hd : DRel Q d d') (ho : DRel Q o o') {s : S} {s' : S'} (hs : Q s s') :
    OutRef z (DRel Q) (dSubMul F d o s) (dSubMul F' d' o' s') :=
  OutRef.withArg (OutRef.temp (dMul_ref hF (Dense.ofVec_rel ho.data) hs)) fun _ _ h => dSub_ref hF hd h

theorem dAddDiv_ref {d o : Dense S} {d' o' : Dense S'} (hd : DRel Q d d') (ho : DRel Q o o') {r : R} {r' : R'} (hr : P r r') :
    OutRef z (DRel Q) (dAddDiv F d o r) (dAddDiv F' d' o' r') :=
  OutRef.withArg (OutRef.temp (dDiv_ref hF (Dense.ofVec_rel ho.data) hr)) fun _ _ h => dAdd_ref hF hd h

theorem dSubDiv_ref {d o : Dense S} {d' o' : Dense S'} (hd : DRel Q d d') (ho : DRel Q o o') {r : R} {r' : R'} (hr : P r r') :
    OutRef z (DRel Q) (dSubDiv F d o r) (dSubDiv F' d' o' r') :=
  OutRef.withArg (OutRef.temp (dDiv_ref hF (Dense.ofVec_rel ho.data) hr)) fun _ _ h => dSub_ref hF hd h

theorem dFromKeyScalar_ref (B : Basis K) (k : K) {s : S} {s' : S'} (hs : Q s s') : ResRef z (DRel Q) (dFromKeyScalar F B k s) (dFromKeyScalar F' B k s') :=
  .bind_eq fun n => .bind_eq fun i =>
    .bind (.of_rel (modifyUnchecked_rel (forall₂_replicate hF.zero n) (fun _ _ _ => hs) i)) fun _ _ h => .ok (Dense.ofVec_rel h)

theorem dFromKey_ref (B : Basis K) (k : K) : ResRef z (DRel Q) (dFromKey F B k) (dFromKey F' B k) := dFromKeyScalar_ref hF B k hF.one

theorem dClear_ref {d : Dense S} {d' : Dense S'} (hd : DRel Q d d') : DRel Q (dClear F d) (dClear F' d') := by
  unfold dClear
  rw [← hd.mode]
  cases d.mode
  · exact ⟨rfl, .nil, hd.lent⟩
  · exact ⟨rfl, .nil, hd.lent⟩
  · exact Dense.writeSlice_rel hd (forall₂_map hd.data fun _ _ _ => hF.zero)

theorem dErase_ref (B : Basis K) {d : Dense S} {d' : Dense S'} (hd : DRel Q d d') (k : K) : ResRef z (DRel Q) (dErase F B d k) (dErase F' B d' k) :=
  .bind (.of_rel (Dense.getMut_rel B hd k fun _ _ _ => hF.zero)) fun _ _ h => .ok h.2

end dense

/-! ## `VectorKeyExt` and `from_iterator` -/

/-- Corresponding methods of two vector types. -/
structure KRef (z : Prop) {V V' : Type} (Q : S → S' → Prop) (v : V → V' → Prop) (T : KeyOps V K S) (T' : KeyOps V' K S') : Prop where
  getMut : ∀ k f f', (∀ x x', Q x x' → OutRef z Q (f x) (f' x')) → USim z v Eq (T.getMut k f) (T'.getMut k f')
  insertSingle : ∀ k s s', Q s s' → USim z v (fun _ _ => True) (T.insertSingle k s) (T'.insertSingle k s')

theorem forall₂_set {l : List S} {l' : List S'} (h : List.Forall₂ Q l l') (i : Nat) {x : S} {x' : S'} (hx : Q x x') :
    List.Forall₂ Q (l.set i x) (l'.set i x') := by
  induction h generalizing i with
  | nil => exact .nil
  | cons h0 h1 ih =>
    cases i with
    | zero => exact .cons hx h1
    | succ i => exact .cons h0 (ih i)

theorem denseKeys_ref (B : Basis K) : KRef z Q (DRel Q) (denseKeys (S := S) B) (denseKeys (S := S') B) where
  getMut := by
    intro k f f' hf s s' hs
    unfold denseKeys
    simp only
    cases B.keyToIndex k with
    | ok i =>
      simp only
      rcases forall₂_getElem? hs.data i with ⟨h1, h2⟩ | ⟨x, y, h1, h2, hxy⟩
      · simp only [h1, h2]
        exact ⟨_, rfl, rfl, Dense.makeMut_rel hs⟩
      · simp only [h1, h2]
        have h3 := hf x y hxy
        revert h3
        rcases f x with ⟨_ | _ | _ | _, u⟩ <;> rcases f' y with ⟨u1, u'⟩ <;> intro h3
        · obtain ⟨_, h5, h6⟩ := h3
          simp only at h5
          subst h5
          exact ⟨_, rfl, rfl, Dense.writeSlice_rel hs (forall₂_set hs.data i h6)⟩
        · trivial
        all_goals exact fun hz => by have h5 : u1 = _ := h3 hz; subst h5; rfl
    | panic => trivial
    | ub | diverge => exact fun _ => rfl
  insertSingle := fun k s s' _ => .bind_lift fun _ => .pure trivial

theorem sparseKeys_ref [DecidableEq K] : KRef z Q (SRel Q) (sparseKeys (K := K) (S := S)) (sparseKeys (S := S')) where
  getMut := by
    intro k f f' hf s s' hs
    unfold sparseKeys
    simp only
    rcases Sparse.find_rel hs k with ⟨h1, h2⟩ | ⟨x, y, h1, h2, hxy⟩
    · simp only [h1, h2]
      exact ⟨_, rfl, rfl, hs⟩
    · simp only [h1, h2]
      have h3 := hf x y hxy
      revert h3
      rcases f x with ⟨_ | _ | _ | _, u⟩ <;> rcases f' y with ⟨u1, u'⟩ <;> intro h3
      · obtain ⟨_, h5, h6⟩ := h3
        simp only at h5
        subst h5
        exact ⟨_, rfl, rfl, Sparse.modifyAt_rel hs k fun _ _ _ => h6⟩
      · trivial
      all_goals exact fun hz => by have h5 : u1 = _ := h3 hz; subst h5; rfl
  insertSingle := fun k s s' h => .unit fun _ _ hs => ⟨(), rfl, Sparse.hmInsert_rel hs k h⟩

section keys
variable {V V' : Type} {v : V → V' → Prop} {T : KeyOps V K S} {T' : KeyOps V' K S'} (hF : FRef z Q P F F') (hT : KRef z Q v T T')
include hF hT

theorem keyAdd_ref (k : K) {s : S} {s' : S'} (hs : Q s s') : USim z v (fun _ _ => True) (keyAdd F T k s) (keyAdd F' T' k s') := by
  refine .bind (hT.getMut k _ _ fun _ _ h => hF.addIn _ _ _ _ h hs) ?_
  rintro (_ | _) _ rfl
  · exact hT.insertSingle k s s' hs
  · exact .pure trivial

theorem keySub_ref (k : K) {s : S} {s' : S'} (hs : Q s s') : USim z v (fun _ _ => True) (keySub F T k s) (keySub F' T' k s') := by
  refine .bind (hT.getMut k _ _ fun _ _ h => hF.subIn _ _ _ _ h hs) ?_
  rintro (_ | _) _ rfl
  · exact .bind (.lift (hF.uminus _ _ hs)) fun _ _ h => hT.insertSingle k _ _ h
  · exact .pure trivial

theorem keyAddDiv_ref (k : K) {r : R} {r' : R'} (hr : P r r') : USim z v (fun _ _ => True) (keyAddDiv F T k r) (keyAddDiv F' T' k r') := by
  refine .bind (.lift (hF.div _ _ _ _ hF.one hr)) fun x x' hx => .bind (hT.getMut k _ _ fun _ _ h => hF.addIn _ _ _ _ h hx) ?_
  rintro (_ | _) _ rfl
  · exact hT.insertSingle k _ _ hx
  · exact .pure trivial

theorem keySubDiv_ref (k : K) {r : R} {r' : R'} (hr : P r r') : USim z v (fun _ _ => True) (keySubDiv F T k r) (keySubDiv F' T' k r') := by
  refine .bind (.lift (hF.div _ _ _ _ hF.mone hr)) fun x x' hx => .bind (hT.getMut k _ _ fun _ _ h => hF.subIn _ _ _ _ h hx) ?_
  rintro (_ | _) _ rfl
  · exact hT.insertSingle k _ _ hx
  · exact .pure trivial

end keys

theorem fromIteratorStepF_ref (hF : FRef z Q P F F') {l : List S} {l' : List S'} (hl : List.Forall₂ Q l l') {e : Nat × S} {e' : Nat × S'}
    (he : PairRel Q e e') : ResRef z (List.Forall₂ Q) (fromIteratorStepF F l e) (fromIteratorStepF F' l' e') := by
  unfold fromIteratorStepF
  rw [← he.1]
  rcases forall₂_getElem? hl e.1 with ⟨h1, h2⟩ | ⟨x, y, h1, h2, hxy⟩
  · rw [h1, h2]
    exact fun _ => rfl
  · rw [h1, h2]
    have h3 := hF.addIn x y e.2 e'.2 hxy he.2
    simp only
    revert h3
    rcases F.addIn x e.2 with ⟨_ | _ | _ | _, u⟩ <;> rcases F'.addIn y e'.2 with ⟨u1, u'⟩ <;> intro h3
    · obtain ⟨_, h5, h6⟩ := h3
      simp only at h5
      subst h5
      exact .ok (forall₂_set hl _ h6)
    · trivial
    all_goals exact fun hz => by have h5 : u1 = _ := h3 hz; subst h5; rfl

theorem fromIteratorF_ref (hF : FRef z Q P F F') (B : Basis K) {items : List (K × S)} {items' : List (K × S')} (h : List.Forall₂ (PairRel Q) items items') :
    ResRef z (DRel Q) (fromIteratorF F B items) (fromIteratorF F' B items') := by
  unfold fromIteratorF
  refine ResRef.bind (r := List.Forall₂ (PairRel Q)) (.of_rel (ResRel.mapM h fun e e' he => ?_)) fun l l' hl => ?_
  · rw [he.1]
    exact .bind_eq fun i => ⟨rfl, he.2⟩
  · have hs := forall₂_mergeSort hl
    rcases forall₂_getLast? hs with ⟨h1, h2⟩ | ⟨x, x', h1, h2, hx⟩
    · rw [h1, h2]
      exact .ok Dense.new_rel
    · rw [h1, h2]
      show ResRef z (DRel Q) (B.dimForIndex x.1 >>= _) (B.dimForIndex x'.1 >>= _)
      rw [hx.1]
      exact .bind_eq fun n => .bind (.foldlM hs (fun a b c d hab hcd => fromIteratorStepF_ref hF hab hcd) (forall₂_replicate hF.zero n))
        fun _ _ h => .ok (Dense.ofVec_rel h)

/-! ## Sparse vectors -/

theorem forall₂_zip (ks : List K) {l : List S} {l' : List S'} (h : List.Forall₂ Q l l') : List.Forall₂ (PairRel Q) (ks.zip l) (ks.zip l') := by
  induction h generalizing ks with
  | nil => simp
  | cons h0 _ ih =>
    cases ks with
    | nil => exact .nil
    | cons k ks => exact .cons ⟨rfl, h0⟩ (ih ks)

theorem sEach_ref {g : S → Res Unit × S} {g' : S' → Res Unit × S'} (hg : ∀ x x', Q x x' → OutRef z Q (g x) (g' x')) {a : Sparse K S} {a' : Sparse K S'}
    (ha : SRel Q a a') : OutRef z (SRel Q) (sEach g a) (sEach g' a') := by
  have h1 : a.entries.map (·.1) = a'.entries.map (·.1) := by
    have := forall₂_map (Q' := Eq) ha (f := (·.1)) (f' := (·.1)) fun _ _ h => h.1
    exact List.forall₂_eq_eq_eq ▸ this
  have h2 : List.Forall₂ Q (a.entries.map (·.2)) (a'.entries.map (·.2)) := forall₂_map ha fun _ _ h => h.2
  refine ResRef.mono (eachLoop_ref hg h2) fun _ _ _ _ h4 => ?_
  unfold sEach SRel
  simp only
  rw [h1]
  exact forall₂_zip _ h4

section sparse
variable [DecidableEq K] (hF : FRef z Q P F F')
include hF

omit [DecidableEq K] in
theorem sUminus_ref {a : Sparse K S} {a' : Sparse K S'} (ha : SRel Q a a') : OutRef z (SRel Q) (sUminus F a) (sUminus F' a') :=
  sEach_ref (fun _ _ h => assign_ref hF.uminus h) ha

omit [DecidableEq K] in
theorem sDiv_ref {a : Sparse K S} {a' : Sparse K S'} (ha : SRel Q a a') {r : R} {r' : R'} (hr : P r r') : OutRef z (SRel Q) (sDiv F a r) (sDiv F' a' r') :=
  sEach_ref (fun _ _ h => hF.divIn _ _ _ _ h hr) ha

omit [DecidableEq K] in
theorem sMul_ref {a : Sparse K S} {a' : Sparse K S'} (ha : SRel Q a a') {s : S} {s' : S'} (hs : Q s s') : OutRef z (SRel Q) (sMul F a s) (sMul F' a' s') := by
  unfold sMul
  have := hF.eq _ _ _ _ hs hF.zero
  cases h : F.eq s F.zero with
  | ok b =>
    obtain ⟨_, h1, rfl⟩ := this.ret h
    rw [h1]
    cases b
    · exact sEach_ref (fun _ _ h => hF.mulIn _ _ _ _ h hs) ha
    · exact ⟨(), rfl, .nil⟩
  | panic => trivial
  | ub | diverge =>
    rw [h] at this
    exact fun hz => by rw [this hz]

theorem sUpdate_ref {g : Res Unit × S} {g' : Res Unit × S'} (hg : OutRef z Q g g') (k : K) {m : List (K × S)} {m' : List (K × S')}
    (hm : List.Forall₂ (PairRel Q) m m') : OutRef z (List.Forall₂ (PairRel Q)) (sUpdate F g k m) (sUpdate F' g' k m') := by
  unfold sUpdate
  rcases g with ⟨_ | _ | _ | _, x⟩
  · obtain ⟨_, h1, h2⟩ := hg
    rcases g' with ⟨_, x'⟩
    simp only at h1 h2
    subst h1
    simp only
    have hm' := Sparse.modifyAt_rel (f := fun _ => x) (f' := fun _ => x') hm k fun _ _ _ => h2
    have := hF.eq _ _ _ _ h2 hF.zero
    cases h : F.eq x F.zero with
    | ok b =>
      obtain ⟨_, h3, rfl⟩ := this.ret h
      rw [h3]
      cases b
      · exact ⟨(), rfl, hm'⟩
      · exact ⟨(), rfl, Sparse.hmRemove_rel hm' k⟩
    | panic => trivial
    | ub | diverge =>
      rw [h] at this
      exact fun hz => by rw [this hz]
  · trivial
  all_goals
    rcases g' with ⟨u1, x'⟩
    exact fun hz => by have h5 : u1 = _ := hg hz; subst h5; rfl

theorem sAdd_ref {a o : Sparse K S} {a' o' : Sparse K S'} (ha : SRel Q a a') (ho : SRel Q o o') : OutRef z (SRel Q) (sAdd F a o) (sAdd F' a' o') := by
  refine USim.out (st := List.Forall₂ (PairRel Q)) (r := fun _ _ => True) (x := List.foldlM (sAddStep F) () o.entries)
    (.foldlM ho (fun _ _ e e' _ he => .unit fun m m' hm => ?_) trivial) ha
  unfold sAddStep
  rw [← he.1]
  rcases Sparse.find_rel hm e.1 with ⟨h1, h2⟩ | ⟨x, y, h1, h2, hxy⟩
  · rw [h1, h2]
    exact ⟨(), rfl, Sparse.hmInsert_rel hm _ he.2⟩
  · rw [h1, h2]
    exact sUpdate_ref hF (hF.addIn _ _ _ _ hxy he.2) _ hm

theorem sSub_ref {a o : Sparse K S} {a' o' : Sparse K S'} (ha : SRel Q a a') (ho : SRel Q o o') : OutRef z (SRel Q) (sSub F a o) (sSub F' a' o') := by
  refine USim.out (st := List.Forall₂ (PairRel Q)) (r := fun _ _ => True) (x := List.foldlM (sSubStep F) () o.entries)
    (.foldlM ho (fun _ _ e e' _ he => .unit fun m m' hm => ?_) trivial) ha
  unfold sSubStep
  rw [← he.1]
  rcases Sparse.find_rel hm e.1 with ⟨h1, h2⟩ | ⟨x, y, h1, h2, hxy⟩
  · rw [h1, h2]
    have := hF.uminus _ _ he.2
    simp only
    cases h : F.uminus e.2 with
    | ok u =>
      obtain ⟨u', h3, h4⟩ := this.ret h
      rw [h3]
      exact ⟨(), rfl, Sparse.hmInsert_rel hm _ h4⟩
    | panic => trivial
    | ub | diverge =>
      rw [h] at this
      exact fun hz => by rw [this hz]
  · rw [h1, h2]
    exact sUpdate_ref hF (hF.subIn _ _ _ _ hxy he.2) _ hm

end sparse

/-! ## Products -/

section product
open DenseAlg
variable {T T' : Type} {τ : T → T' → Prop}

/-- Closures that preserve the relation. -/
def CRef (z : Prop) (Q : S → S' → Prop) (τ : T → T' → Prop) (func : ClosureU S T) (func' : ClosureU S' T') : Prop :=
  ∀ t t' x x', τ t t' → Q x x' → ResRef z (fun y y' => Q y y' ∧ τ (func t x).2 (func' t' x').2) (func t x).1 (func' t' x').1

/-- Related vectors and states of closures. -/
def StRel (Q : S → S' → Prop) (τ : T → T' → Prop) (s : Dense S × T) (s' : Dense S' × T') : Prop := DRel Q s.1 s'.1 ∧ τ s.2 s'.2

/-- Turns of the innermost loop that preserve the relation. -/
def URef (z : Prop) (Q : S → S' → Prop) (τ : T → T' → Prop) (upd : Update S T) (upd' : Update S' T') : Prop :=
  ∀ t t' o o' a a' b b', τ t t' → Q o o' → Q a a' → Q b b' → OutRef z (fun x y => Q x.1 y.1 ∧ τ x.2 y.2) (upd t o a b) (upd' t' o' a' b')

theorem addProduct_ref (hF : FRef z Q P F F') {func : ClosureU S T} {func' : ClosureU S' T'} (hf : CRef z Q τ func func') :
    URef z Q τ (addProduct F func) (addProduct F' func') := by
  intro t t' o o' a a' b b' ht ho ha hb
  unfold addProduct
  have h1 := hF.mul _ _ _ _ ha hb
  cases h2 : F.mul a b with
  | ok x =>
    obtain ⟨x', h3, h4⟩ := h1.ret h2
    rw [h3]
    simp only
    have h5 := hf t t' x x' ht h4
    revert h5
    rcases func t x with ⟨y | _ | _ | _, u⟩ <;> rcases func' t' x' with ⟨w, u'⟩ <;> intro h5
    · obtain ⟨y', h7, h8, h9⟩ := h5
      simp only at h7
      subst h7
      exact ResRef.mono (hF.addIn _ _ _ _ ho h8) fun _ _ _ _ h => ⟨h, h9⟩
    · trivial
    all_goals exact fun hz => by have h6 : w = _ := h5 hz; subst h6; rfl
  | panic => trivial
  | ub | diverge =>
    rw [h2] at h1
    exact fun hz => by rw [h1 hz]

theorem bufStepF_ref {upd : Update S T} {upd' : Update S' T'} (hu : URef z Q τ upd upd') (lo len : Nat) {a b : S} {a' b' : S'} (ha : Q a a') (hb : Q b b')
    (ptr : Nat) : USim z (StRel Q τ) Eq (bufStepF upd lo len a ptr b) (bufStepF upd' lo len a' ptr b') := by
  intro s s' hs
  unfold bufStepF
  by_cases hp : ptr < len
  · rw [if_pos hp, if_pos hp]
    rcases forall₂_getElem? hs.1.data (lo + ptr) with ⟨h1, h2⟩ | ⟨x, y, h1, h2, hxy⟩
    · rw [h1, h2]
      exact fun _ => rfl
    · rw [h1, h2]
      simp only
      have h3 := hu _ _ _ _ _ _ _ _ hs.2 hxy ha hb
      revert h3
      rcases upd s.2 x a b with ⟨_ | _ | _ | _, v, u⟩ <;> rcases upd' s'.2 y a' b' with ⟨w, v', u'⟩ <;> intro h3
      · obtain ⟨_, h5, h6, h7⟩ := h3
        simp only at h5
        subst h5
        exact ⟨_, rfl, rfl, Dense.writeSlice_rel hs.1 (forall₂_set hs.1.data _ h6), h7⟩
      · trivial
      all_goals exact fun hz => by have h5 : w = _ := h3 hz; subst h5; rfl
  · rw [if_neg hp, if_neg hp]
    exact fun _ => rfl

theorem mulIntoBufferF_ref {upd : Update S T} {upd' : Update S' T'} (hu : URef z Q τ upd upd') (lo len : Nat) {l r : List S} {l' r' : List S'}
    (hl : List.Forall₂ Q l l') (hr : List.Forall₂ Q r r') :
    USim z (StRel Q τ) (fun _ _ => True) (mulIntoBufferF upd lo len l r) (mulIntoBufferF upd' lo len l' r') := by
  refine .bind (r := Eq) (.foldlM hl (fun p p' a a' h ha => ?_) rfl) fun _ _ _ => .pure trivial
  subst h
  refine .foldlM hr (fun q q' b b' h hb => ?_) rfl
  subst h
  exact bufStepF_ref hu lo len ha hb q

theorem asMutU_ref : USim z (StRel Q τ) (List.Forall₂ Q) (asMutU : Unw (Dense S × T) (List S)) (asMutU : Unw (Dense S' × T') (List S')) :=
  .bind .get fun _ _ h => .bind (.set ⟨Dense.writeSlice_rel (Dense.makeMut_rel h.1) h.1.data, h.2⟩) fun _ _ _ => .pure h.1.data

theorem slice_ref {l : List S} {l' : List S'} (h : List.Forall₂ Q l l') (r : Nat × Nat) :
    USim z (StRel Q τ) (List.Forall₂ Q) (Unw.lift (sliceUnchecked l r) : Unw (Dense S × T) _) (Unw.lift (sliceUnchecked l' r) : Unw (Dense S' × T') _) :=
  .lift (.of_rel (sliceUnchecked_rel h r))

variable (p : Profile) (N : Nat)

theorem mulAddStepF_ref {upd : Update S T} {upd' : Update S' T'} (hu : URef z Q τ upd upd') {l r : Dense S} {l' r' : Dense S'} (hl : DRel Q l l')
    (hr : DRel Q r r') (o k : Nat) :
    USim z (StRel Q τ) (fun _ _ => True) (mulAddStepF p N upd l r o () k) (mulAddStepF p N upd' l' r' o () k) :=
  .bind_lift fun _ => .bind asMutU_ref fun _ _ hd => .bind_lift fun _ => .bind (slice_ref hd _) fun _ _ _ => .bind_lift fun _ =>
    .bind (slice_ref hl.data _) fun _ _ h1 => .bind_lift fun _ => .bind (slice_ref hr.data _) fun _ _ h2 => mulIntoBufferF_ref hu _ _ h1 h2

theorem mulAddDegreeF_ref {upd : Update S T} {upd' : Update S' T'} (hu : URef z Q τ upd upd') {l r : Dense S} {l' r' : Dense S'} (hl : DRel Q l l')
    (hr : DRel Q r r') (ld rd o : Nat) :
    USim z (StRel Q τ) (fun _ _ => True) (mulAddDegreeF p N upd l r ld rd () o) (mulAddDegreeF p N upd' l' r' ld rd () o) :=
  .bind_lift fun _ => .foldlM_same (fun _ _ k _ => mulAddStepF_ref p N hu hl hr o k) trivial

theorem growToF_ref (hF : FRef z Q P F F') (m : Nat) :
    USim z (StRel Q τ) (fun _ _ => True) (growToF F p N m : Unw (Dense S × T) Unit) (growToF F' p N m : Unw (Dense S' × T') Unit) := by
  refine .bind .get fun s s' hs => ?_
  rw [Dense.degree_rel _ hs.1]
  refine .bind_lift fun sd => ?_
  split
  · exact .bind_lift fun _ => .bind_lift fun _ => .set ⟨resizeF_ref hF hs.1 _, hs.2⟩
  · exact .pure trivial

theorem mulAddIntoF_ref (hF : FRef z Q P F F') {func : ClosureU S T} {func' : ClosureU S' T'} (hf : CRef z Q τ func func') {l r : Dense S} {l' r' : Dense S'}
    (hl : DRel Q l l') (hr : DRel Q r r') (d : Option Nat) :
    USim z (StRel Q τ) (fun _ _ => True) (mulAddIntoF F p N func l r d) (mulAddIntoF F' p N func' l' r' d) := by
  unfold mulAddIntoF
  rw [Dense.degree_rel _ hl, Dense.degree_rel _ hr]
  exact .bind_lift fun _ => .bind_lift fun _ => .bind_lift fun _ => .bind (growToF_ref p N hF _) fun _ _ _ =>
    .foldlM_same (fun _ _ o _ => mulAddDegreeF_ref p N (addProduct_ref hF hf) hl hr _ _ o) trivial

theorem setProduct_ref (hF : FRef z Q P F F') {func : ClosureU S T} {func' : ClosureU S' T'} (hf : CRef z Q τ func func') {t : T} {t' : T'} (ht : τ t t')
    {o r : S} {o' r' : S'} (ho : Q o o') (hr : Q r r') : OutRef z (fun x y => Q x.1 y.1 ∧ τ x.2 y.2) (setProduct F func t o r) (setProduct F' func' t' o' r') := by
  unfold setProduct
  have h1 := hF.mul _ _ _ _ ho hr
  cases h2 : F.mul o r with
  | ok x =>
    obtain ⟨x', h3, h4⟩ := h1.ret h2
    rw [h3]
    simp only
    have h5 := hf t t' x x' ht h4
    revert h5
    rcases func t x with ⟨y | _ | _ | _, u⟩ <;> rcases func' t' x' with ⟨w, u'⟩ <;> intro h5
    · obtain ⟨y', h7, h8, h9⟩ := h5
      simp only at h7
      subst h7
      exact ⟨(), rfl, h8, h9⟩
    · trivial
    all_goals exact fun hz => by have h6 : w = _ := h5 hz; subst h6; rfl
  | panic => trivial
  | ub | diverge =>
    rw [h2] at h1
    exact fun hz => by rw [h1 hz]

theorem inplaceStepF_ref (hF : FRef z Q P F F') {func : ClosureU S T} {func' : ClosureU S' T'} (hf : CRef z Q τ func func') (i : Nat) {r : S} {r' : S'}
    (hr : Q r r') : USim z (StRel Q τ) (fun _ _ => True) (inplaceStepF F func i () r) (inplaceStepF F' func' i () r') := by
  refine .unit fun s s' hs => ?_
  unfold inplaceStepF
  rcases forall₂_getElem? hs.1.data i with ⟨h1, h2⟩ | ⟨x, y, h1, h2, hxy⟩
  · rw [h1, h2]
    exact fun _ => rfl
  · rw [h1, h2]
    exact ResRef.mono (setProduct_ref hF hf hs.2 hxy hr) fun _ _ _ _ h => ⟨Dense.writeSlice_rel hs.1 (forall₂_set hs.1.data _ h.1), h.2⟩

theorem mulInplaceBufferF_ref (hF : FRef z Q P F F') {func : ClosureU S T} {func' : ClosureU S' T'} (hf : CRef z Q τ func func') (lo len : Nat) {r : List S}
    {r' : List S'} (hr : List.Forall₂ Q r r') :
    USim z (StRel Q τ) (fun _ _ => True) (mulInplaceBufferF F func lo len r) (mulInplaceBufferF F' func' lo len r') :=
  .foldlM_same (fun _ _ i _ => .foldlM hr (fun _ _ _ _ _ hb => inplaceStepF_ref hF hf i hb) trivial) trivial

theorem splitMulF_ref (hF : FRef z Q P F F') {func : ClosureU S T} {func' : ClosureU S' T'} (hf : CRef z Q τ func func') {r : Dense S} {r' : Dense S'}
    (hr : DRel Q r r') (mid : Nat) (ro rl rr : Nat × Nat) :
    USim z (StRel Q τ) (fun _ _ => True) (splitMulF F func r mid ro rl rr) (splitMulF F' func' r' mid ro rl rr) := by
  refine .bind asMutU_ref fun d d' hd => ?_
  rw [forall₂_length hd]
  split
  · exact .bind (slice_ref (forall₂_drop hd mid) _) fun _ _ _ => .bind (slice_ref (forall₂_take hd mid) _) fun _ _ h1 =>
      .bind (slice_ref hr.data _) fun _ _ h2 => mulIntoBufferF_ref (addProduct_ref hF hf) _ _ h1 h2
  · exact .lift (show ResRef z _ (.panic : Res Unit) (.panic : Res Unit) from trivial)

theorem mulIntoStepF_ref (hF : FRef z Q P F F') {func : ClosureU S T} {func' : ClosureU S' T'} (hf : CRef z Q τ func func') {r : Dense S} {r' : Dense S'}
    (hr : DRel Q r r') (o m k : Nat) : USim z (StRel Q τ) (fun _ _ => True) (mulIntoStepF F p N func r o m () k) (mulIntoStepF F' p N func' r' o m () k) :=
  .bind_lift fun _ => .bind_lift fun _ => .bind_lift fun _ => .bind_lift fun _ => .bind_lift fun _ => .bind_lift fun _ => splitMulF_ref hF hf hr _ _ _ _

theorem mulIntoAssignF_ref (hF : FRef z Q P F F') {func : ClosureU S T} {func' : ClosureU S' T'} (hf : CRef z Q τ func func') {r : Dense S} {r' : Dense S'}
    (hr : DRel Q r r') (off o m : Nat) :
    USim z (StRel Q τ) (fun _ _ => True) (mulIntoAssignF F p N func r off o m) (mulIntoAssignF F' p N func' r' off o m) := by
  refine .bind_lift fun _ => .bind_lift fun _ => .bind_lift fun _ => ?_
  split
  · exact .bind_lift fun _ => .bind_lift fun _ => splitMulF_ref hF hf hr _ _ _ _
  · exact .bind asMutU_ref fun _ _ hd => .bind (slice_ref hd _) fun _ _ _ => .bind (slice_ref hr.data _) fun _ _ h2 => mulInplaceBufferF_ref hF hf _ _ h2

theorem mulIntoDegreeF_ref (hF : FRef z Q P F F') {func : ClosureU S T} {func' : ClosureU S' T'} (hf : CRef z Q τ func func') {r : Dense S} {r' : Dense S'}
    (hr : DRel Q r r') (off : Nat) (as : Bool) (ld rd o : Nat) :
    USim z (StRel Q τ) (fun _ _ => True) (mulIntoDegreeF F p N func r off as ld rd () o) (mulIntoDegreeF F' p N func' r' off as ld rd () o) := by
  refine .bind_lift fun _ => .bind_lift fun t => ?_
  cases as
  · exact .bind (.lift (.ok (r := fun _ _ => True) trivial)) fun _ _ _ => .bind_lift fun _ => .foldlM_same (fun _ _ k _ => mulIntoStepF_ref p N hF hf hr _ _ k) trivial
  · exact .bind (mulIntoAssignF_ref p N hF hf hr _ _ _) fun _ _ _ => .bind_lift fun _ => .foldlM_same (fun _ _ k _ => mulIntoStepF_ref p N hF hf hr _ _ k) trivial

theorem offsetAssignF_ref (hF : FRef z Q P F F') {r : Dense S} {r' : Dense S'} (hr : DRel Q r r') : ResRef z Eq (offsetAssignF F r) (offsetAssignF F' r') := by
  unfold offsetAssignF
  rcases forall₂_getElem? hr.data 0 with ⟨h1, h2⟩ | ⟨x, y, h1, h2, hxy⟩
  · rw [h1, h2]
    exact .ok rfl
  · rw [h1, h2]
    refine .bind (hF.eq _ _ _ _ hxy hF.zero) ?_
    rintro (_ | _) _ rfl
    · refine .bind (hF.eq _ _ _ _ hxy hF.one) ?_
      rintro (_ | _) _ rfl <;> exact .ok rfl
    · exact .ok rfl

theorem mulIntoF_ref (hF : FRef z Q P F F') {func : ClosureU S T} {func' : ClosureU S' T'} (hf : CRef z Q τ func func') {r : Dense S} {r' : Dense S'}
    (hr : DRel Q r r') (d : Option Nat) : USim z (StRel Q τ) (fun _ _ => True) (mulIntoF F p N func r d) (mulIntoF F' p N func' r' d) := by
  refine .bind .get fun s s' hs => ?_
  rw [Dense.degree_rel _ hr, Dense.degree_rel _ hs.1]
  refine .bind_lift fun _ => .bind_lift fun _ => .bind_lift fun _ => .bind (growToF_ref p N hF _) fun _ _ _ => .bind (.lift (offsetAssignF_ref hF hr)) ?_
  rintro oa _ rfl
  exact .foldlM_same (fun _ _ o _ => mulIntoDegreeF_ref p N hF hf hr _ _ _ _ o) trivial

end product

/-! ## `Algebra` and `FreeTensor` -/

section algebra
variable (p : Profile) (N : Nat) (hF : FRef z Q P F F')
include hF

theorem tMulAdd_ref {f : S → Res S} {f' : S' → Res S'} (hf : ∀ x x', Q x x' → ResRef z Q (f x) (f' x')) {v l r : Dense S} {v' l' r' : Dense S'}
    (hv : DRel Q v v') (hl : DRel Q l l') (hr : DRel Q r r') (d : Option Nat) :
    OutRef z (DRel Q) (tMulAdd F p N f v l r d) (tMulAdd F' p N f' v' l' r' d) :=
  (USim.out (mulAddIntoF_ref p N hF (τ := fun _ _ => True) (func := fun (t : Unit) x => (f x, t)) (func' := fun (t : Unit) x => (f' x, t))
    (fun _ _ x x' _ hx => (hf x x' hx).mono fun _ _ _ _ h => ⟨h, trivial⟩) hl hr d) (s := (v, ())) (s' := (v', ())) ⟨hv, trivial⟩).mono fun _ _ _ _ h => h.1

theorem tMulInto_ref {f : S → Res S} {f' : S' → Res S'} (hf : ∀ x x', Q x x' → ResRef z Q (f x) (f' x')) {v r : Dense S} {v' r' : Dense S'}
    (hv : DRel Q v v') (hr : DRel Q r r') (d : Option Nat) : OutRef z (DRel Q) (tMulInto F p N f v r d) (tMulInto F' p N f' v' r' d) :=
  (USim.out (mulIntoF_ref p N hF (τ := fun _ _ => True) (func := fun (t : Unit) x => (f x, t)) (func' := fun (t : Unit) x => (f' x, t))
    (fun _ _ x x' _ hx => (hf x x' hx).mono fun _ _ _ _ h => ⟨h, trivial⟩) hr d) (s := (v, ())) (s' := (v', ())) ⟨hv, trivial⟩).mono fun _ _ _ _ h => h.1

theorem tMultiply_ref {v r : Dense S} {v' r' : Dense S'} (hv : DRel Q v v') (hr : DRel Q r r') (d : Option Nat) :
    ResRef z (DRel Q) (tMultiply F p N v r d) (tMultiply F' p N v' r' d) := OutRef.temp (tMulAdd_ref p N hF (fun _ _ h => .ok h) Dense.new_rel hv hr d)

theorem tCommutator_ref {v r : Dense S} {v' r' : Dense S'} (hv : DRel Q v v') (hr : DRel Q r r') (d : Option Nat) :
    ResRef z (DRel Q) (tCommutator F p N v r d) (tCommutator F' p N v' r' d) :=
  .bind (OutRef.temp (tMulAdd_ref p N hF (fun _ _ h => .ok h) Dense.new_rel hv hr d)) fun _ _ h => OutRef.temp (tMulAdd_ref p N hF hF.uminus h hr hv d)

theorem tMulScalRprod_ref {v r : Dense S} {v' r' : Dense S'} (hv : DRel Q v v') (hr : DRel Q r r') {s : S} {s' : S'} (hs : Q s s') (d : Option Nat) :
    OutRef z (DRel Q) (tMulScalRprod F p N v r s d) (tMulScalRprod F' p N v' r' s' d) := tMulInto_ref p N hF (fun _ _ h => hF.mul _ _ _ _ h hs) hv hr d

theorem tMulScalLprod_ref {v r : Dense S} {v' r' : Dense S'} (hv : DRel Q v v') (hr : DRel Q r r') {s : S} {s' : S'} (hs : Q s s') (d : Option Nat) :
    OutRef z (DRel Q) (tMulScalLprod F p N v r s d) (tMulScalLprod F' p N v' r' s' d) := tMulInto_ref p N hF (fun _ _ h => hF.mul _ _ _ _ hs h) hv hr d

theorem tMulRatLdiv_ref {v w : Dense S} {v' w' : Dense S'} (hv : DRel Q v v') (hw : DRel Q w w') {r : R} {r' : R'} (hr : P r r') (d : Option Nat) :
    OutRef z (DRel Q) (tMulRatLdiv F p N v w r d) (tMulRatLdiv F' p N v' w' r' d) := tMulInto_ref p N hF (fun _ _ h => hF.div _ _ _ _ h hr) hv hw d

theorem tExpStep_ref {deg : Nat → Res S} {deg' : Nat → Res S'} (hd : ∀ i, ResRef z Q (deg i) (deg' i)) (m : Nat) {x t v : Dense S} {x' t' v' : Dense S'}
    (hx : DRel Q x x') (ht : DRel Q t t') (hv : DRel Q v v') (i : Nat) :
    ResRef z (DRel Q) (tExpStep F p N deg m x t v i) (tExpStep F' p N deg' m x' t' v' i) := by
  refine .bind (hd i) fun s s' hs => .bind (r := DRel Q) (OutRef.temp ?_) fun r r' h1 => OutRef.temp (dAdd_ref hF h1 ht)
  exact tMulScalRprod_ref p N hF hv hx hs _

theorem tExp_ref {deg : Nat → Res S} {deg' : Nat → Res S'} (hd : ∀ i, ResRef z Q (deg i) (deg' i)) (m : Nat) {x : Dense S} {x' : Dense S'} (hx : DRel Q x x') :
    ResRef z (DRel Q) (tExp F p N deg m x) (tExp F' p N deg' m x') :=
  .bind (dFromKey_ref hF _ _) fun _ _ ht => .bind (dFromKey_ref hF _ _) fun _ _ h0 => .foldlM_same (fun _ _ i hr => tExpStep_ref p N hF hd m hx ht hr i) h0

theorem tFmexpStep_ref {deg : Nat → Res S} {deg' : Nat → Res S'} (hd : ∀ i, ResRef z Q (deg i) (deg' i)) (m : Nat) {x t v : Dense S} {x' t' v' : Dense S'}
    (hx : DRel Q x x') (ht : DRel Q t t') (hv : DRel Q v v') (i : Nat) :
    ResRef z (DRel Q) (tFmexpStep F p N deg m x t v i) (tFmexpStep F' p N deg' m x' t' v' i) := by
  refine .bind (hd i) fun s s' hs => .bind_eq fun _ => .bind_eq fun _ => .bind (r := DRel Q) (OutRef.temp ?_) fun r r' h1 => OutRef.temp (dAdd_ref hF h1 ht)
  exact tMulScalRprod_ref p N hF hv hx hs _

theorem tFmexp_ref {deg : Nat → Res S} {deg' : Nat → Res S'} (hd : ∀ i, ResRef z Q (deg i) (deg' i)) (m : Nat) {v x : Dense S} {v' x' : Dense S'}
    (hv : DRel Q v v') (hx : DRel Q x x') : ResRef z (DRel Q) (tFmexp F p N deg m v x) (tFmexp F' p N deg' m v' x') :=
  .bind (.of_rel (Dense.toOwned_rel hv)) fun _ _ ho => .bind (.of_rel (Dense.toOwned_rel hx)) fun _ _ hx =>
    .bind (.of_rel (Dense.getMut_rel _ hx _ fun _ _ _ => hF.zero)) fun _ _ hx => .foldlM_same (fun _ _ i hr => tFmexpStep_ref p N hF hd m hx.2 ho hr i) hv

theorem tLogStep_ref {rat : Nat → Res R} {rat' : Nat → Res R'} (hd : ∀ i, ResRef z P (rat i) (rat' i)) (m : Nat) {x t v : Dense S} {x' t' v' : Dense S'}
    (hx : DRel Q x x') (ht : DRel Q t t') (hv : DRel Q v v') (i : Nat) :
    ResRef z (DRel Q) (tLogStep F p N rat m x t v i) (tLogStep F' p N rat' m x' t' v' i) := by
  refine .bind (hd i) fun r r' hs => ?_
  by_cases h : i % 2 = 0
  · simp only [if_pos h]
    exact .bind (OutRef.temp (dSubDiv_ref hF hv ht hs)) fun _ _ h1 => .bind (tMultiply_ref p N hF h1 hx _) fun _ _ _ => .ok h1
  · simp only [if_neg h]
    exact .bind (OutRef.temp (dAddDiv_ref hF hv ht hs)) fun _ _ h1 => .bind (tMultiply_ref p N hF h1 hx _) fun _ _ _ => .ok h1

theorem tLog_ref {rat : Nat → Res R} {rat' : Nat → Res R'} (hd : ∀ i, ResRef z P (rat i) (rat' i)) (m : Nat) {v : Dense S} {v' : Dense S'} (hv : DRel Q v v') :
    ResRef z (DRel Q) (tLog F p N rat m v) (tLog F' p N rat' m v') :=
  .bind (dFromKey_ref hF _ _) fun _ _ ht => .bind (.of_rel (Dense.toOwned_rel hv)) fun _ _ hx =>
    .bind (.of_rel (Dense.getMut_rel _ hx _ fun _ _ _ => hF.zero)) fun _ _ hx => .foldlM_same (fun _ _ i hr => tLogStep_ref p N hF hd m hx.2 ht hr i)
      Dense.new_rel

end algebra
end Fallible
end RA
