import Verif.SpecUnwind
import Verif.Proofs.Closure

/-!
# Products with a closure that panics: helper lemmas (C95)
-/

namespace RA

namespace Unw
variable {σ α β γ : Type}

@[simp] theorem pure_apply (a : α) (s : σ) : (pure a : Unw σ α) s = (.ok a, s) := rfl

theorem bind_apply (x : Unw σ α) (f : α → Unw σ β) (s : σ) : (x >>= f) s = match x s with
    | (.ok a, s) => f a s
    | (.panic, s) => (.panic, s)
    | (.ub, s) => (.ub, s)
    | (.diverge, s) => (.diverge, s) := rfl

@[simp] theorem lift_ok_bind (a : α) (f : α → Unw σ β) : (lift (.ok a) >>= f) = f a := rfl

@[simp] theorem get_bind (f : σ → Unw σ β) (s : σ) : (get >>= f) s = f s s := rfl

@[simp] theorem set_bind (s' : σ) (f : Unit → Unw σ β) (s : σ) : (set s' >>= f) s = f () s' := rfl

instance : LawfulMonad (Unw σ) := LawfulMonad.mk' _
  (by
    intro α x
    funext s
    show (x >>= fun a => pure a) s = x s
    rw [bind_apply]
    rcases x s with ⟨_ | _ | _ | _, s⟩ <;> rfl)
  (by intros; rfl)
  (by
    intro α β γ x f g
    funext s
    simp only [bind_apply]
    rcases x s with ⟨_ | _ | _ | _, s⟩ <;> rfl)

/-- The outcome alone: the state is kept only if the computation returns. -/
def forget (x : Res α × σ) : Res (α × σ) :=
  match x with
  | (.ok a, s) => .ok (a, s)
  | (.panic, _) => .panic
  | (.ub, _) => .ub
  | (.diverge, _) => .diverge

theorem forget_bind (x : Unw σ α) (f : α → Unw σ β) (s : σ) : forget ((x >>= f) s) = forget (x s) >>= fun q => forget (f q.1 q.2) := by
  rw [bind_apply]
  rcases x s with ⟨_ | _ | _ | _, s⟩ <;> rfl

@[simp] theorem forget_pure (a : α) (s : σ) : forget ((pure a : Unw σ α) s) = .ok (a, s) := rfl

theorem forget_lift (r : Res α) (s : σ) : forget (lift r s) = r >>= fun a => .ok (a, s) := by cases r <;> rfl

/-- Two loops, one of which keeps its state through panics: if the steps agree, so do the loops. -/
theorem fold_sim {A : Type} (f : β → A → Unw σ β) (g : γ → A → Res γ) (φ : γ → β × σ) (I : γ → Prop) (l : List A)
    (h : ∀ c, I c → ∀ a ∈ l, (forget (f (φ c).1 a (φ c).2) = g c a >>= fun c' => .ok (φ c')) ∧ ∀ c', g c a = .ok c' → I c') (c : γ) (hc : I c) :
    (forget (l.foldlM f (φ c).1 (φ c).2) = l.foldlM g c >>= fun c' => .ok (φ c')) ∧ ∀ c', l.foldlM g c = .ok c' → I c' := by
  induction l generalizing c with
  | nil => exact ⟨rfl, fun c' h => by cases h; exact hc⟩
  | cons a l ih =>
    rw [List.foldlM_cons, List.foldlM_cons, forget_bind]
    obtain ⟨h1, h2⟩ := h c hc a (by simp)
    rw [h1]
    cases hg : g c a with
    | ok c' =>
      simp only [Res.bind_ok]
      exact ih (fun c hc a ha => h c hc a (by simp [ha])) c' (h2 c' hg)
    | _ => exact ⟨rfl, fun c' h => by cases h⟩

theorem fold_sim' {A : Type} (f : Unit → A → Unw σ Unit) (g : σ → A → Res σ) (l : List A)
    (h : ∀ c, ∀ a, forget (f () a c) = g c a >>= fun c' => .ok ((), c')) (c : σ) :
    forget (l.foldlM f () c) = l.foldlM g c >>= fun c' => .ok ((), c') :=
  (fold_sim f g (fun c => ((), c)) (fun _ => True) l (fun c _ a _ => ⟨h c a, fun _ _ => trivial⟩) c trivial).1

end Unw

namespace DenseAlg
open Unw Spec
variable {S R T : Type} (C : Coeff S R) (p : Profile) (N : Nat)

/-- The closure of `Model/Closure.lean`. -/
def ClosureU.toClosure (func : ClosureU S T) : Closure S T := fun t x => forget (func t x)

@[simp] theorem asMut_data (d : Dense S) : (asMut d).data = d.data := Dense.writeSlice_data _ _

theorem asMut_write (d : Dense S) (l : List S) : (asMut d).writeSlice l = d.makeMut.writeSlice l := by
  rcases d with ⟨_ | _ | _, data, lent⟩ <;> rfl

theorem write_again (d : Dense S) (l l' : List S) : (d.makeMut.writeSlice l).writeSlice l' = d.makeMut.writeSlice l' := by
  rcases d with ⟨_ | _ | _, data, lent⟩ <;> rfl

theorem asMutU_bind {β : Type} (f : List S → Unw (Dense S × T) β) (st : Dense S × T) : (asMutU >>= f) st = f st.1.data (asMut st.1, st.2) := rfl

theorem bufStepU_forget (func : ClosureU S T) (d : Dense S) (ro : Nat × Nat) (h1 : ro.1 ≤ d.data.length) (a b : S) (o : List S) (ptr : Nat) (t : T) :
    forget (bufStepU C func ro.1 o.length a ptr b (d.makeMut.writeSlice (replaceRange d.data ro o), t)) =
      bufStepS C func.toClosure a ((o, ptr), t) b >>= fun q => .ok (q.1.2, (d.makeMut.writeSlice (replaceRange d.data ro q.1.1), q.2)) := by
  unfold bufStepU bufStepS ClosureU.toClosure
  simp only
  by_cases h : ptr < o.length
  · rw [if_pos h, if_pos h]
    rcases func t (C.mul a b) with ⟨y | _ | _ | _, t'⟩
    · simp only [forget, Res.bind_ok]
      rw [modifyUnchecked_ok _ h, write_again, Dense.writeSlice_data, replaceRange_modify _ _ _ _ _ h1 h]
      rfl
    all_goals rfl
  · rw [if_neg h, if_neg h]
    rfl

theorem bufStepS_length (func : Closure S T) (a b : S) (st st' : (List S × Nat) × T) (h : bufStepS C func a st b = .ok st') : st'.1.1.length = st.1.1.length := by
  unfold bufStepS at h
  split_ifs at h with h1
  cases hf : func st.2 (C.mul a b) with
  | ok ys =>
    rw [hf] at h
    simp only [Res.bind_ok] at h
    rw [modifyUnchecked_ok _ h1] at h
    cases h
    simp
  | panic => rw [hf] at h; cases h
  | ub => rw [hf] at h; cases h
  | diverge => rw [hf] at h; cases h

theorem mulIntoBufferU_forget (func : ClosureU S T) (d : Dense S) (ro : Nat × Nat) (h1 : ro.1 ≤ d.data.length) (o l r : List S) (t : T) :
    forget (mulIntoBufferU C func ro.1 o.length l r (d.makeMut.writeSlice (replaceRange d.data ro o), t)) =
      mulIntoBufferS C func.toClosure o l r t >>= fun q => .ok ((), (d.makeMut.writeSlice (replaceRange d.data ro q.1), q.2)) := by
  unfold mulIntoBufferU mulIntoBufferS
  rw [forget_bind]
  have inner := fun a => fold_sim (bufStepU C func ro.1 o.length a) (bufStepS C func.toClosure a)
    (fun q : (List S × Nat) × T => (q.1.2, (d.makeMut.writeSlice (replaceRange d.data ro q.1.1), q.2))) (fun q => q.1.1.length = o.length) r
    (fun q hq b _ => ⟨by rw [← hq]; exact bufStepU_forget C func d ro h1 a b q.1.1 q.1.2 q.2, fun q' h => (bufStepS_length C _ a b q q' h).trans hq⟩)
  have outer := (fold_sim (fun ptr a => r.foldlM (bufStepU C func ro.1 o.length a) ptr) (fun st a => r.foldlM (bufStepS C func.toClosure a) st)
    (fun q : (List S × Nat) × T => (q.1.2, (d.makeMut.writeSlice (replaceRange d.data ro q.1.1), q.2))) (fun q => q.1.1.length = o.length) l
    (fun q hq a _ => inner a q hq) ((o, 0), t) rfl).1
  rw [outer, bind_assoc, bind_assoc]
  rfl

theorem sliceU_cases (l : List S) (r : Nat × Nat) :
    (r.1 ≤ r.2 ∧ r.2 ≤ l.length ∧ sliceUnchecked l r = .ok ((l.take r.2).drop r.1) ∧ ((l.take r.2).drop r.1).length = r.2 - r.1 ∧
      replaceRange l r ((l.take r.2).drop r.1) = l) ∨ sliceUnchecked l r = .ub := by
  unfold sliceUnchecked
  split_ifs with h
  · refine .inl ⟨h.1, h.2, rfl, by simp; omega, ?_⟩
    unfold replaceRange
    have h3 : (l.take r.2).take r.1 = l.take r.1 := by rw [List.take_take, Nat.min_eq_left h.1]
    rw [← h3, List.take_append_drop, List.take_append_drop]
  · exact .inr rfl

theorem mulAddStepU_forget (func : ClosureU S T) (lhs rhs : Dense S) (o : Nat) (st : Dense S × T) (k : Nat) :
    forget (mulAddStepU C p N func lhs rhs o () k st) = mulAddStepS C p N func.toClosure lhs rhs o st k >>= fun c => .ok ((), c) := by
  unfold mulAddStepU mulAddStepS
  simp only [forget_bind, forget_lift, bind_assoc, Res.bind_ok, asMutU_bind]
  refine bind_congr fun rhsD => ?_
  refine bind_congr fun ro => ?_
  rw [Dense.makeMut_data]
  rcases sliceU_cases st.1.data ro with ⟨h1, h2, h3, h4, h5⟩ | h
  · rw [h3]
    simp only [Res.bind_ok]
    refine bind_congr fun rl => ?_
    refine bind_congr fun l => ?_
    refine bind_congr fun rr => ?_
    refine bind_congr fun r => ?_
    have := mulIntoBufferU_forget C func st.1 ro (by omega) ((st.1.data.take ro.2).drop ro.1) l r st.2
    rw [h4, h5] at this
    exact this
  · rw [h]
    rfl

theorem mulAddDegreeU_forget (func : ClosureU S T) (lhs rhs : Dense S) (da db : Nat) (st : Dense S × T) (o : Nat) :
    forget (mulAddDegreeU C p N func lhs rhs da db () o st) = mulAddDegreeS C p N func.toClosure lhs rhs da db st o >>= fun c => .ok ((), c) := by
  unfold mulAddDegreeU mulAddDegreeS
  rw [forget_bind, forget_lift]
  have h := fun m => fold_sim' (mulAddStepU C p N func lhs rhs o) (mulAddStepS C p N func.toClosure lhs rhs o)
    (List.range' m (min o da + 1 - m)).reverse (mulAddStepU_forget C p N func lhs rhs o) st
  split_ifs
  · rw [bind_assoc, bind_assoc]
    exact bind_congr fun m => h m
  · exact h 0

theorem growToU_forget (m : Nat) (st : Dense S × T) : forget (growToU C p N m st) = growTo C p N st.1 m >>= fun s => .ok ((), (s, st.2)) := by
  unfold growToU
  rw [get_bind, forget_bind, forget_lift, bind_assoc]
  rfl

theorem mulAddIntoU_forget (func : ClosureU S T) (lhs rhs : Dense S) (D : Option Nat) (st : Dense S × T) :
    forget (mulAddIntoU C p N func lhs rhs D st) = mulAddIntoS C p N func.toClosure st.1 lhs rhs D st.2 >>= fun c => .ok ((), c) := by
  unfold mulAddIntoU mulAddIntoS
  simp only [forget_bind, forget_lift, bind_assoc, Res.bind_ok, growToU_forget]
  refine bind_congr fun da => ?_
  refine bind_congr fun db => ?_
  refine bind_congr fun m => ?_
  refine bind_congr fun s => ?_
  exact fold_sim' _ _ _ (mulAddDegreeU_forget C p N func lhs rhs da db) _

theorem splitMulU_forget (func : ClosureU S T) (rhs : Dense S) (mid : Nat) (ro rl rr : Nat × Nat) (st : Dense S × T) :
    forget (splitMulU C func rhs mid ro rl rr st) = splitMulS C func.toClosure rhs st mid ro rl rr >>= fun c => .ok ((), c) := by
  unfold splitMulU splitMulS
  rw [asMutU_bind]
  simp only [Dense.makeMut_data]
  by_cases hm : mid ≤ st.1.data.length
  · rw [if_pos hm, if_pos hm]
    simp only [forget_bind, forget_lift, bind_assoc, Res.bind_ok]
    rcases sliceU_cases (st.1.data.drop mid) ro with ⟨h1, h2, h3, h4, h5⟩ | h
    · rw [h3]
      simp only [Res.bind_ok]
      refine bind_congr fun l => ?_
      refine bind_congr fun r => ?_
      rw [List.length_drop] at h2
      have hrep : ∀ o : List S, st.1.data.take mid ++ replaceRange (st.1.data.drop mid) ro o = replaceRange st.1.data (mid + ro.1, mid + ro.2) o := by
        intro o
        unfold replaceRange
        simp only
        rw [List.take_add, List.drop_drop, List.append_assoc, List.append_assoc, List.append_assoc]
      have := mulIntoBufferU_forget C func st.1 (mid + ro.1, mid + ro.2) (by simp only; omega) (((st.1.data.drop mid).take ro.2).drop ro.1) l r st.2
      rw [h4, ← hrep, h5, List.take_append_drop] at this
      refine this.trans ?_
      simp only [hrep]
      rfl
    · rw [h]
      rfl
  · rw [if_neg hm, if_neg hm]
    rfl

theorem mulIntoStepU_forget (func : ClosureU S T) (rhs : Dense S) (o m : Nat) (st : Dense S × T) (k : Nat) :
    forget (mulIntoStepU C p N func rhs o m () k st) = mulIntoStepS C p N func.toClosure rhs o m st k >>= fun c => .ok ((), c) := by
  unfold mulIntoStepU mulIntoStepS
  simp only [forget_bind, forget_lift, bind_assoc, Res.bind_ok, splitMulU_forget]

theorem replaceRange_split (l acc rest : List S) (r : Nat × Nat) (o : S) :
    replaceRange l r (acc ++ o :: rest) = (l.take r.1 ++ acc) ++ o :: (rest ++ l.drop r.2) := by
  unfold replaceRange
  simp

theorem inplaceStepU_forget (func : ClosureU S T) (d : Dense S) (ro : Nat × Nat) (h1 : ro.1 ≤ d.data.length) (acc rest : List S) (c : S × T) (r : S) :
    forget (inplaceStepU C func (ro.1 + acc.length) () r (d.makeMut.writeSlice (replaceRange d.data ro (acc ++ c.1 :: rest)), c.2)) =
      func.toClosure c.2 (C.mul c.1 r) >>= fun c' => .ok ((), (d.makeMut.writeSlice (replaceRange d.data ro (acc ++ c'.1 :: rest)), c'.2)) := by
  have hl : (d.data.take ro.1 ++ acc).length = ro.1 + acc.length := by simp [h1]
  have hg : (replaceRange d.data ro (acc ++ c.1 :: rest))[ro.1 + acc.length]? = some c.1 := by
    rw [replaceRange_split, List.getElem?_append_right (by omega), hl]
    simp
  have hs : ∀ y, (replaceRange d.data ro (acc ++ c.1 :: rest)).set (ro.1 + acc.length) y = replaceRange d.data ro (acc ++ y :: rest) := by
    intro y
    rw [replaceRange_split, replaceRange_split, List.set_append_right _ _ (by omega), hl]
    simp
  unfold inplaceStepU ClosureU.toClosure
  simp only [Dense.writeSlice_data, hg]
  rcases func c.2 (C.mul c.1 r) with ⟨y | _ | _ | _, t'⟩
  · simp only [forget, Res.bind_ok, hs, write_again]
  all_goals rfl

theorem mulInplaceBufferU_forget (func : ClosureU S T) (d : Dense S) (ro : Nat × Nat) (h1 : ro.1 ≤ d.data.length) (rhs rest acc : List S) (t : T) :
    forget ((List.range' (ro.1 + acc.length) rest.length).foldlM (fun _ i => rhs.foldlM (inplaceStepU C func i) ()) ()
        (d.makeMut.writeSlice (replaceRange d.data ro (acc ++ rest)), t)) =
      rest.foldlM (inplaceStepS C func.toClosure rhs) (acc, t) >>= fun q => .ok ((), (d.makeMut.writeSlice (replaceRange d.data ro q.1), q.2)) := by
  induction rest generalizing acc t with
  | nil =>
    rw [List.append_nil]
    rfl
  | cons o rest ih =>
    rw [List.length_cons, List.range'_succ, List.foldlM_cons, forget_bind, List.foldlM_cons]
    have h := (fold_sim (inplaceStepU C func (ro.1 + acc.length)) (fun (st : S × T) r => func.toClosure st.2 (C.mul st.1 r))
      (fun c : S × T => ((), (d.makeMut.writeSlice (replaceRange d.data ro (acc ++ c.1 :: rest)), c.2))) (fun _ => True) rhs
      (fun c _ r _ => ⟨inplaceStepU_forget C func d ro h1 acc rest c r, fun _ _ => trivial⟩) (o, t) trivial).1
    simp only at h
    rw [h]
    unfold inplaceStepS
    simp only [bind_assoc]
    refine bind_congr fun c => ?_
    simp only [Res.bind_ok, Res.pure_eq]
    have := ih (acc ++ [c.1]) c.2
    rw [List.length_append, List.length_singleton, ← Nat.add_assoc, List.append_assoc] at this
    exact this

theorem mulIntoAssignU_forget (func : ClosureU S T) (rhs : Dense S) (off o m : Nat) (st : Dense S × T) :
    forget (mulIntoAssignU C p N func rhs off o m st) = mulIntoAssignS C p N func.toClosure rhs off o m st >>= fun c => .ok ((), c) := by
  unfold mulIntoAssignU mulIntoAssignS
  simp only [forget_bind, forget_lift, bind_assoc, Res.bind_ok]
  refine bind_congr fun t => ?_
  refine bind_congr fun rr => ?_
  refine bind_congr fun ro => ?_
  by_cases ho : off = 1
  · rw [if_pos ho, if_pos ho]
    simp only [forget_bind, forget_lift, bind_assoc, Res.bind_ok, splitMulU_forget]
  · rw [if_neg ho, if_neg ho, asMutU_bind]
    simp only [forget_bind, forget_lift, bind_assoc, Res.bind_ok, Dense.makeMut_data]
    rcases sliceU_cases st.1.data ro with ⟨h1, h2, h3, h4, h5⟩ | h
    · rw [h3]
      simp only [Res.bind_ok]
      refine bind_congr fun r => ?_
      have := mulInplaceBufferU_forget C func st.1 ro (by omega) r ((st.1.data.take ro.2).drop ro.1) [] st.2
      rw [h4, List.nil_append, h5] at this
      exact this
    · rw [h]
      rfl

theorem mulIntoDegreeU_forget (func : ClosureU S T) (rhs : Dense S) (off : Nat) (as : Bool) (da db : Nat) (st : Dense S × T) (o : Nat) :
    forget (mulIntoDegreeU C p N func rhs off as da db () o st) = mulIntoDegreeS C p N func.toClosure rhs off as da db st o >>= fun c => .ok ((), c) := by
  unfold mulIntoDegreeU mulIntoDegreeS
  simp only [forget_bind, forget_lift, bind_assoc, Res.bind_ok]
  refine bind_congr fun m => ?_
  refine bind_congr fun t => ?_
  have h := fun top st => fold_sim' (mulIntoStepU C p N func rhs o (min t da)) (mulIntoStepS C p N func.toClosure rhs o (min t da))
    (List.range' m (top + 1 - m)).reverse (mulIntoStepU_forget C p N func rhs o (min t da)) st
  cases as with
  | true =>
    simp only [if_true, forget_bind, forget_lift, bind_assoc, Res.bind_ok, mulIntoAssignU_forget]
    refine bind_congr fun c => ?_
    exact bind_congr fun top => h top c
  | false =>
    simp only [Bool.false_eq_true, if_false, forget_bind, forget_lift, bind_assoc, Res.bind_ok]
    exact bind_congr fun top => h top st

theorem mulIntoU_forget (func : ClosureU S T) (rhs : Dense S) (D : Option Nat) (st : Dense S × T) :
    forget (mulIntoU C p N func rhs D st) = mulIntoS C p N func.toClosure st.1 rhs D st.2 >>= fun c => .ok ((), c) := by
  unfold mulIntoU mulIntoS
  rw [get_bind]
  simp only [forget_bind, forget_lift, bind_assoc, Res.bind_ok, growToU_forget]
  refine bind_congr fun da => ?_
  refine bind_congr fun db => ?_
  refine bind_congr fun m => ?_
  refine bind_congr fun s => ?_
  exact fold_sim' _ _ _ (mulIntoDegreeU_forget C p N func rhs _ _ da db) _

/-! ## The state after a panic -/

/-- One call and its addition into the vector. -/
def callStepU (func : ClosureU S T) (_ : Unit) (x : (S × S) × Nat) : Unw (Dense S × T) Unit := fun st =>
  match func st.2 (C.mul x.1.1 x.1.2) with
  | (.ok y, t) => (.ok (), (st.1.writeSlice (st.1.data.modify x.2 fun z => C.add z y), t))
  | (.panic, t) => (.panic, (st.1, t))
  | (.ub, t) => (.ub, (st.1, t))
  | (.diverge, t) => (.diverge, (st.1, t))

theorem foldlM_pairsU {A B X : Type} (f : A → X → B → Unw (Dense S × T) X) (lhs : List A) (rhs : List B) (st : X) :
    lhs.foldlM (fun st a => rhs.foldlM (f a) st) st =
      (lhs.flatMap fun a => rhs.map fun b => (a, b)).foldlM (fun st ab => f ab.1 st ab.2) st := by
  induction lhs generalizing st with
  | nil => rfl
  | cons a lhs ih =>
    rw [List.foldlM_cons, List.flatMap_cons, List.foldlM_append, List.foldlM_map]
    refine bind_congr fun st' => ?_
    exact ih st'

theorem bufU_eq (func : ClosureU S T) (lo len : Nat) (L : List (S × S)) (q : Nat) (st : Dense S × T) (h : q + L.length ≤ len) :
    L.foldlM (fun ptr ab => bufStepU C func lo len ab.1 ptr ab.2) q st =
      ((L.zipIdx (lo + q)).foldlM (callStepU C func) () >>= fun _ => pure (q + L.length)) st := by
  induction L generalizing q st with
  | nil => rfl
  | cons ab L ih =>
    rw [List.length_cons] at h
    rw [List.foldlM_cons, List.zipIdx_cons, List.foldlM_cons, bind_apply, bind_assoc, bind_apply]
    unfold bufStepU callStepU
    simp only
    rw [if_pos (by omega)]
    rcases func st.2 (C.mul ab.1 ab.2) with ⟨y | _ | _ | _, t⟩
    · simp only
      rw [show q + (ab :: L).length = q + 1 + L.length by simp; omega, Nat.add_assoc lo q 1]
      exact ih (q + 1) _ (by omega)
    all_goals rfl

theorem mulIntoBufferU_eq (func : ClosureU S T) (lo len : Nat) (l r : List S) (st : Dense S × T) (h : l.length * r.length ≤ len) :
    mulIntoBufferU C func lo len l r st = ((l.flatMap fun a => r.map fun b => (a, b)).zipIdx lo).foldlM (callStepU C func) () st := by
  unfold mulIntoBufferU
  rw [foldlM_pairsU (bufStepU C func lo len), bind_apply, bufU_eq C func lo len _ 0 st (by rw [pairs_length]; omega), bind_apply, Nat.add_zero]
  rcases List.foldlM (callStepU C func) () ((l.flatMap fun a => r.map fun b => (a, b)).zipIdx lo) st with ⟨_ | _ | _ | _, s⟩ <;> rfl

theorem zipIdx_at {A B : Type} (P : List A) (g : A → B) (h : A → Nat) (lo : Nat) (hP : P.map h = List.range' lo P.length) :
    (P.map g).zipIdx lo = P.map fun x => (g x, h x) := by
  rw [← zipIdx_words P g h lo hP]
  apply List.ext_getElem?
  intro m
  rw [List.getElem?_map, List.getElem?_zipIdx, List.getElem?_zipIdx]
  cases (P.map g)[m]? <;> simp

theorem mulAddStepU_eq (h2 : 2 ≤ N) (func : ClosureU S T) (a b d : Dense S) (o k : Nat) (t : T) (hp : N ^ (o + 1) < 2 ^ 64) (hk : k ≤ o)
    (ha : geomSum N (k + 1) ≤ a.data.length) (hb : geomSum N (o - k + 1) ≤ b.data.length) (hs : geomSum N (o + 1) ≤ d.data.length) :
    mulAddStepU C p N func a b o () k (d, t) = ((wordPairs N k (o - k)).map (callOf C N a b)).foldlM (callStepU C func) () (asMut d, t) := by
  have e1 : geomSum N (o + 1) = geomSum N o + N ^ o := rfl
  have sl : ∀ (l : List S) (z : S) (i : Nat), geomSum N (i + 1) ≤ l.length →
      sliceUnchecked l (geomSum N i, geomSum N (i + 1)) = .ok ((wordsOfLength N i).map fun u => (at? N l u).getD z) := by
    intro l z i hi
    unfold sliceUnchecked
    rw [if_pos ⟨geomSum_mono (by omega), hi⟩]
    simp only
    rw [slice_words N l z i hi]
  have len : ∀ i, (wordsOfLength N i).length = N ^ i := fun i => by simpa using congrArg List.length (wordsOfLength_index N i)
  have hpow : N ^ k * N ^ (o - k) = N ^ o := by rw [← pow_add]; congr 1; omega
  unfold mulAddStepU
  rw [subW_ok hk, lift_ok_bind, asMutU_bind, degreeRange_ok p N h2 o hp, degreeRange_ok p N h2 k (TensorBasis.pow_lt64_mono h2 (by omega) hp),
    degreeRange_ok p N h2 (o - k) (TensorBasis.pow_lt64_mono h2 (by omega) hp)]
  simp only [lift_ok_bind]
  rw [sl _ C.zero _ hs, sl _ C.zero _ ha, sl _ C.zero _ hb]
  simp only [lift_ok_bind]
  rw [mulIntoBufferU_eq _ _ _ _ _ _ _ (by simp [len, hpow, e1])]
  have hpairs : (((wordsOfLength N k).map fun u => (at? N a.data u).getD C.zero).flatMap fun x =>
      ((wordsOfLength N (o - k)).map fun v => (at? N b.data v).getD C.zero).map fun y => (x, y)) =
      (wordPairs N k (o - k)).map fun uv => ((at? N a.data uv.1).getD C.zero, (at? N b.data uv.2).getD C.zero) := by
    rw [wordPairs, List.map_flatMap, List.flatMap_map]
    refine List.flatMap_congr fun u _ => ?_
    rw [List.map_map, List.map_map]
    rfl
  rw [hpairs, zipIdx_at _ _ (fun uv => wordIndex N (uv.1 ++ uv.2)) (geomSum N o) (by
    rw [wordPairs_index, wordPairs_length, show k + (o - k) = o by omega])]
  rfl

/-- The calls, one by one, until one does not return. -/
theorem callUntil_eq (func : ClosureU S T) (d : Dense S) (L : List ((S × S) × Nat)) (l : List S) (t : T) :
    L.foldlM (callStepU C func) () (d.makeMut.writeSlice l, t) =
      ((callUntil func t (L.map fun x => C.mul x.1.1 x.1.2)).1,
        (d.makeMut.writeSlice ((L.zip (callUntil func t (L.map fun x => C.mul x.1.1 x.1.2)).2.1).foldl (addOne C) l),
          (callUntil func t (L.map fun x => C.mul x.1.1 x.1.2)).2.2)) := by
  induction L generalizing l t with
  | nil => rfl
  | cons x L ih =>
    rw [List.foldlM_cons, bind_apply, List.map_cons]
    unfold callStepU callUntil
    simp only
    rcases func t (C.mul x.1.1 x.1.2) with ⟨y | _ | _ | _, t'⟩
    · simp only
      rw [write_again, Dense.writeSlice_data]
      exact ih _ t'
    all_goals simp

theorem asMut_again (d : Dense S) (l : List S) : asMut (d.makeMut.writeSlice l) = d.makeMut.writeSlice l := by
  unfold asMut
  rw [write_write, Dense.writeSlice_data]

theorem foldlM_callsU {A : Type} (func : ClosureU S T) (step : Unit → A → Unw (Dense S × T) Unit) (c : A → List ((S × S) × Nat)) (n : Nat) (L : List A)
    (h : ∀ i ∈ L, ∀ d t, d.data.length = n → step () i (d, t) = (c i).foldlM (callStepU C func) () (asMut d, t))
    (hne : L ≠ []) (d : Dense S) (t : T) (hd : d.data.length = n) :
    L.foldlM step () (d, t) = (L.flatMap c).foldlM (callStepU C func) () (asMut d, t) := by
  induction L generalizing d t with
  | nil => exact absurd rfl hne
  | cons i L ih =>
    rw [List.foldlM_cons, bind_apply, h i (by simp) d t hd, List.flatMap_cons, List.foldlM_append, bind_apply]
    unfold asMut
    rw [callUntil_eq]
    generalize callUntil func t ((c i).map fun x => C.mul x.1.1 x.1.2) = q
    rcases q with ⟨_ | _ | _ | _, ys, t'⟩
    · simp only
      cases L with
      | nil => rfl
      | cons j L =>
        rw [ih (fun i hi => h i (by simp [hi])) (by simp) _ _ (by rw [Dense.writeSlice_data, addOne_length]; exact hd), asMut_again]
    all_goals rfl

theorem mulAddIntoU_eq (h2 : 2 ≤ N) (s a b : Dense S) (ds da db D : Nat) (hds : DegIs N s ds) (hda : DegIs N a da) (hdb : DegIs N b db)
    (hps : N ^ (ds + 1) < 2 ^ 64) (hpa : N ^ (da + 1) < 2 ^ 64) (hpb : N ^ (db + 1) < 2 ^ 64) (hp : N ^ (min D (da + db) + 1) < 2 ^ 64)
    (ha : geomSum N (min (min D (da + db)) da + 1) ≤ a.data.length) (hb : geomSum N (min (min D (da + db)) db + 1) ≤ b.data.length)
    (hs : (s.data.length ≤ geomSum N (min D (da + db)) ∧ 1 ≤ min D (da + db)) ∨ geomSum N (min D (da + db) + 1) ≤ s.data.length) :
    ∃ s1 : Dense S, s1.data.length = max s.data.length (geomSum N (min D (da + db) + 1)) ∧
      (∀ w, ValidWord N w → at? N s1.data w = if w.length ≤ min D (da + db) then some ((at? N s.data w).getD C.zero) else at? N s.data w) ∧
      ∀ (T : Type) (func : ClosureU S T) (t : T), mulAddIntoU C p N func a b (some D) (s, t) =
        ((callOrder N (min D (da + db)) da db).map (callOf C N a b)).foldlM (callStepU C func) () (s1.makeMut.writeSlice s1.data, t) := by
  have b1 := TensorBasis.deg_lt64 h2 hpa
  have b2 := TensorBasis.deg_lt64 h2 hpb
  generalize hM : min D (da + db) = M at *
  obtain ⟨s1, g1, g2, g3⟩ := growTo_ok C p N h2 s ds M hds hps hp hs
  refine ⟨s1, g2, g3, fun T func t => ?_⟩
  unfold mulAddIntoU
  rw [degree_ok p N h2 a da hda hpa, degree_ok p N h2 b db hdb hpb]
  simp only [lift_ok_bind]
  rw [maxDeg_ok p D da db (by omega), hM, lift_ok_bind, bind_apply]
  have hg : growToU C p N M (s, t) = (.ok (), (s1, t)) := by
    unfold growToU
    rw [get_bind]
    simp only [g1, lift_ok_bind]
    rfl
  rw [hg]
  simp only
  rw [callOrder, List.map_flatMap]
  refine foldlM_callsU C func _ _ s1.data.length _ ?_ (by simp) _ _ rfl
  intro o ho d t' hd
  rw [List.mem_reverse, List.mem_range] at ho
  have e : mulAddDegreeU C p N func a b da db () o (d, t') =
      (List.range' (o - db) (min o da + 1 - (o - db))).reverse.foldlM (mulAddStepU C p N func a b o) () (d, t') := by
    unfold mulAddDegreeU
    split_ifs with h
    · rw [subW_ok (by omega)]
      rfl
    · rw [show o - db = 0 by omega]
      rfl
  rw [e, List.map_flatMap]
  refine foldlM_callsU C func _ _ s1.data.length _ ?_ ?_ _ _ hd
  · intro k hk d t' hd
    rw [List.mem_reverse, List.mem_range'_1] at hk
    have g4 := geomSum_mono (N := N) (a := k + 1) (b := min M da + 1) (by omega)
    have g5 := geomSum_mono (N := N) (a := o - k + 1) (b := min M db + 1) (by omega)
    have g6 := geomSum_mono (N := N) (a := o + 1) (b := M + 1) (by omega)
    exact mulAddStepU_eq C p N h2 func a b d o k t' (TensorBasis.pow_lt64_mono h2 (by omega) hp) (by omega) (by omega) (by omega) (by omega)
  · intro h
    have := congrArg List.length h
    simp at this
    omega

/-! ## The product in place by a constant -/

theorem setUntil_eq (func : ClosureU S T) (c : S) (d : Dense S) (L : List Nat) (hn : L.Nodup) (l : List S) (hL : ∀ i ∈ L, i < l.length) (t : T) :
    L.foldlM (fun _ i => inplaceStepU C func i () c) () (d.makeMut.writeSlice l, t) =
      ((callUntil func t (L.map fun i => C.mul (l[i]?.getD C.zero) c)).1,
        (d.makeMut.writeSlice ((L.zip (callUntil func t (L.map fun i => C.mul (l[i]?.getD C.zero) c)).2.1).foldl (fun l iy => l.set iy.1 iy.2) l),
          (callUntil func t (L.map fun i => C.mul (l[i]?.getD C.zero) c)).2.2)) := by
  induction L generalizing l t with
  | nil => rfl
  | cons i L ih =>
    rw [List.nodup_cons] at hn
    have hi := hL i (by simp)
    rw [List.foldlM_cons, bind_apply, List.map_cons]
    unfold inplaceStepU callUntil
    simp only [Dense.writeSlice_data]
    rw [List.getElem?_eq_getElem hi]
    simp only [Option.getD_some]
    rcases func t (C.mul l[i] c) with ⟨y | _ | _ | _, t'⟩
    · simp only
      rw [write_again]
      have h : (L.map fun j => C.mul ((l.set i y)[j]?.getD C.zero) c) = L.map fun j => C.mul (l[j]?.getD C.zero) c := by
        refine List.map_congr_left fun j hj => ?_
        rw [List.getElem?_set_ne (by rintro rfl; exact hn.1 hj)]
      have := ih hn.2 (l.set i y) (by simpa using fun j hj => hL j (by simp [hj])) t'
      rw [h] at this
      exact this
    all_goals simp

theorem setAll_length (L : List (Nat × S)) (l : List S) : (L.foldl (fun l iy => l.set iy.1 iy.2) l).length = l.length := by
  induction L generalizing l with
  | nil => rfl
  | cons x L ih => rw [List.foldl_cons, ih]; simp

theorem setAll_get (L : List Nat) (hn : L.Nodup) (ys l : List S) (hL : ∀ i ∈ L, i < l.length) (j : Nat) :
    ((L.zip ys).foldl (fun l iy => l.set iy.1 iy.2) l)[j]? = ((L.zip ys).lookup j).or l[j]? := by
  induction L generalizing ys l with
  | nil => rfl
  | cons i L ih =>
    rw [List.nodup_cons] at hn
    cases ys with
    | nil => rfl
    | cons y ys =>
      rw [List.zip_cons_cons, List.foldl_cons, ih hn.2 _ _ (by simpa using fun j hj => hL j (by simp [hj])), List.lookup_cons]
      by_cases h : j = i
      · subst h
        have hno : (L.zip ys).lookup j = none := by
          rw [List.lookup_eq_none_iff]
          intro q hq
          have := (List.of_mem_zip (a := q.1) (b := q.2) hq).1
          rw [bne_iff_ne]
          rintro rfl
          exact hn.1 this
        rw [hno, List.getElem?_set_self (hL j (by simp))]
        simp
      · rw [List.getElem?_set_ne (fun e => h e.symm)]
        have : (j == i) = false := by simpa using h
        rw [this]

theorem mulIntoDegreeU_const (h2 : 2 ≤ N) (func : ClosureU S T) (c : S) (b : Dense S) (hb : b.data = [c]) (da o : Nat) (d : Dense S) (t : T)
    (hp : N ^ (o + 1) < 2 ^ 64) (ho : 1 ≤ o) (hod : o ≤ da) (hs : geomSum N (o + 1) ≤ d.data.length) :
    mulIntoDegreeU C p N func b 0 true da 0 () o (d, t) =
      (List.range' (geomSum N o) (N ^ o)).foldlM (fun _ i => inplaceStepU C func i () c) () (asMut d, t) := by
  have e1 : geomSum N (o + 1) = geomSum N o + N ^ o := rfl
  have hp1 : N ^ (0 + 1) < 2 ^ 64 := TensorBasis.pow_lt64_mono h2 (by omega) hp
  unfold mulIntoDegreeU
  rw [subW_ok (Nat.zero_le _)]
  simp only [lift_ok_bind, if_true, Nat.sub_zero]
  rw [Nat.min_eq_left hod]
  unfold mulIntoAssignU
  rw [subW_ok (Nat.le_refl _), Nat.sub_self]
  simp only [lift_ok_bind]
  rw [degreeRange_ok p N h2 0 hp1, degreeRange_ok p N h2 o hp]
  simp only [lift_ok_bind]
  rw [if_neg (by omega), bind_apply, asMutU_bind]
  simp only
  have h4 : sliceUnchecked b.data (geomSum N 0, geomSum N (0 + 1)) = .ok [c] := by
    rw [hb]
    unfold sliceUnchecked
    simp [geomSum]
  have h5 : ∃ x, sliceUnchecked d.data (geomSum N o, geomSum N (o + 1)) = .ok x := by
    unfold sliceUnchecked
    rw [if_pos ⟨by simp only; omega, hs⟩]
    exact ⟨_, rfl⟩
  obtain ⟨x, h5⟩ := h5
  rw [h4, h5]
  simp only [lift_ok_bind]
  rw [subW_ok ho]
  simp only [lift_ok_bind]
  rw [show o - 1 + 1 - o = 0 by omega]
  unfold mulInplaceBufferU
  have h6 : (fun (_ : Unit) i => [c].foldlM (inplaceStepU C func i) ()) = fun _ i => inplaceStepU C func i () c := by
    funext _ i
    rw [List.foldlM_cons]
    exact bind_pure _
  rw [h6, e1, Nat.add_sub_cancel_left]
  rcases List.foldlM (fun (_ : Unit) i => inplaceStepU C func i () c) () (List.range' (geomSum N o) (N ^ o)) (asMut d, t) with ⟨_ | _ | _ | _, s⟩ <;> rfl

theorem setU_state (func : ClosureU S T) (c : S) (d : Dense S) (L : List Nat) (l : List S) (t : T) :
    ∃ l', l'.length = l.length ∧
      (L.foldlM (fun _ i => inplaceStepU C func i () c) () (d.makeMut.writeSlice l, t)).2.1 = d.makeMut.writeSlice l' := by
  induction L generalizing l t with
  | nil => exact ⟨l, rfl, rfl⟩
  | cons i L ih =>
    rw [List.foldlM_cons, bind_apply]
    unfold inplaceStepU
    simp only [Dense.writeSlice_data]
    cases l[i]? with
    | none => exact ⟨l, rfl, rfl⟩
    | some x =>
      simp only
      rcases func t (C.mul x c) with ⟨y | _ | _ | _, t'⟩
      · simp only
        rw [write_again]
        obtain ⟨l', h1, h2⟩ := ih (l.set i y) t'
        exact ⟨l', by simpa using h1, h2⟩
      all_goals exact ⟨l, rfl, rfl⟩

theorem scaleOrder_nodup (m : Nat) : ((scaleOrder N m).map (wordIndex N)).Nodup ∧ (∀ i ∈ (scaleOrder N m).map (wordIndex N), i < geomSum N (m + 1)) := by
  induction m with
  | zero => exact ⟨List.nodup_nil, by simp [scaleOrder]⟩
  | succ m ih =>
    have e1 : geomSum N (m + 1 + 1) = geomSum N (m + 1) + N ^ (m + 1) := rfl
    rw [scaleOrder, List.map_append, wordsOfLength_index]
    refine ⟨List.nodup_append.2 ⟨List.nodup_range', ih.1, ?_⟩, ?_⟩
    · intro i hi j hj
      rw [List.mem_range'_1] at hi
      have := ih.2 j hj
      omega
    · intro i hi
      rcases List.mem_append.1 hi with hi | hi
      · rw [List.mem_range'_1] at hi
        omega
      · have := ih.2 i hi
        omega

theorem mulIntoLoopU_const (h2 : 2 ≤ N) (func : ClosureU S T) (c : S) (b : Dense S) (hb : b.data = [c]) (da m : Nat) (d : Dense S) (t : T)
    (hp : N ^ (m + 1) < 2 ^ 64) (hod : m ≤ da) (hs : geomSum N (m + 1) ≤ d.data.length) (hm : 1 ≤ m) :
    (List.range' 1 m).reverse.foldlM (mulIntoDegreeU C p N func b 0 true da 0) () (d, t) =
      ((scaleOrder N m).map (wordIndex N)).foldlM (fun _ i => inplaceStepU C func i () c) () (asMut d, t) := by
  induction m generalizing d t with
  | zero => omega
  | succ m ih =>
    have e1 : geomSum N (m + 1 + 1) = geomSum N (m + 1) + N ^ (m + 1) := rfl
    rw [range'_reverse_head _ (by omega), Nat.add_sub_cancel, List.foldlM_cons, bind_apply,
      mulIntoDegreeU_const C p N h2 func c b hb da (m + 1) d t hp (by omega) hod hs, scaleOrder, List.map_append, wordsOfLength_index, List.foldlM_append,
      bind_apply]
    obtain ⟨l', h3, h4⟩ := setU_state C func c d (List.range' (geomSum N (m + 1)) (N ^ (m + 1))) d.data t
    unfold asMut
    rcases hq : List.foldlM (fun (_ : Unit) i => inplaceStepU C func i () c) () (List.range' (geomSum N (m + 1)) (N ^ (m + 1)))
      (d.makeMut.writeSlice d.data, t) with ⟨_ | _ | _ | _, d', t'⟩
    · rw [hq] at h4
      simp only at h4
      subst h4
      simp only
      rcases Nat.eq_zero_or_pos m with rfl | hm
      · rfl
      · rw [ih _ _ (TensorBasis.pow_lt64_mono h2 (by omega) hp) (by omega) (by rw [Dense.writeSlice_data]; omega) hm, asMut_again]
    all_goals rfl

end DenseAlg
end RA
