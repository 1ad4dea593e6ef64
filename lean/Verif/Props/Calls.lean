import Verif.Proofs.Calls
import Verif.Props.Closure
import Verif.Props.Unwind

/-!
# Products of any operands with a closure that has a state or panics (C91, C95)

`Props/Closure.lean` says which calls are made for operands that hold the coefficients needed.  Here nothing is assumed of the operands, so the cases where
`multiply_into_impl` reads the wrong entries, panics or is undefined behaviour (C37) are included.
-/

namespace RA
open Spec DenseAlg
variable {S R : Type} (C : Coeff S R) (p : Profile) (N : Nat)

/-- C91.  Both products with any operands call their closure a number of times that depends neither on the closure nor on what it returns, and end alike
whatever it returns.  The arguments and the rest of the course are fixed by the values returned so far (the tree `c`), not by the state. -/
theorem C91_calls (s a b : Dense S) (D : Option Nat) :
    (∃ (n : Nat) (v : Res Unit) (c : Calls S (Dense S)), c.Uniform n v ∧ ∀ T (func : Closure S T) t, mulAddIntoS C p N func s a b D t = c.run func t) ∧
    ∃ (n : Nat) (v : Res Unit) (c : Calls S (Dense S)), c.Uniform n v ∧ ∀ T (func : Closure S T) t, mulIntoS C p N func s b D t = c.run func t :=
  ⟨mulAddIntoS_calls C p N s a b D, mulIntoS_calls C p N s b D⟩

/-- With a closure that returns, `n` calls and the outcome `v`. -/
theorem Spec.Calls.Uniform.returns {α T : Type} {n : Nat} {v : Res Unit} {c : Calls S α} (h : c.Uniform n v) (func : Closure S T)
    (hf : ∀ t x, ∃ r, func t x = .ok r) (t : T) : (c.run func t >>= fun _ => .ok ()) = v := by
  induction h generalizing t with
  | done r => cases r <;> rfl
  | call x k n v _ ih =>
    obtain ⟨r, hr⟩ := hf t x
    show (func t x >>= fun r => (k r.1).run func r.2) >>= _ = v
    rw [hr]
    exact ih r.1 r.2

/-- A counter that panics at call `m`. -/
theorem Spec.Calls.Uniform.panicAt {α : Type} {n : Nat} {v : Res Unit} {c : Calls S α} (h : c.Uniform n v) (f : S → S) (m t : Nat) (ht : t ≤ m) :
    c.run (fun t x => if t = m then .panic else .ok (f x, t + 1)) t =
      if m < t + n then .panic else (c.run (fun (_ : Unit) x => .ok (f x, ())) () >>= fun r => .ok (r.1, t + n)) := by
  induction h generalizing t with
  | done r =>
    rw [if_neg (by omega)]
    cases r <;> rfl
  | call x k n v _ ih =>
    show ((if t = m then Res.panic else .ok (f x, t + 1)) >>= fun r => (k r.1).run _ r.2) =
      if m < t + (n + 1) then .panic else ((k (f x)).run _ () >>= fun r => .ok (r.1, t + (n + 1)))
    by_cases h : t = m
    · rw [if_pos h, if_pos (by omega)]
      rfl
    · rw [if_neg h, Res.bind_ok, show t + (n + 1) = (t + 1) + n by omega]
      exact ih (f x) (t + 1) (by omega)

/-- C91.  A closure that always returns, whatever its state and values, gives the outcome of any closure without state: for given operands the outcome is
that of C34 and C37. -/
theorem C91_outcome {T : Type} (func : Closure S T) (hf : ∀ t x, ∃ r, func t x = .ok r) (f : S → S) (s a b : Dense S) (D : Option Nat) (t : T) :
    (mulAddIntoS C p N func s a b D t >>= fun _ => .ok ()) = (mulAddInto C p N s a b f D >>= fun _ => .ok ()) ∧
    (mulIntoS C p N func s b D t >>= fun _ => .ok ()) = (mulInto C p N s b f D >>= fun _ => .ok ()) := by
  obtain ⟨⟨n, v, c, h1, h2⟩, n', v', c', h3, h4⟩ := C91_calls C p N s a b D
  obtain ⟨hp1, hp2⟩ := C91_pure C p N f s a b D ()
  have e1 := h1.returns (fun (t : Unit) x => .ok (f x, t)) (fun _ _ => ⟨_, rfl⟩) ()
  have e2 := h3.returns (fun (t : Unit) x => .ok (f x, t)) (fun _ _ => ⟨_, rfl⟩) ()
  rw [← h2, hp1] at e1
  rw [← h4, hp2] at e2
  refine ⟨?_, ?_⟩
  · rw [h2, h1.returns func hf, ← e1]
    cases mulAddInto C p N s a b f D <;> rfl
  · rw [h4, h3.returns func hf, ← e2]
    cases mulInto C p N s b f D <;> rfl

/-- C91.  For any operands there is a number of calls `n` such that a closure panicking at its call number `m`, counted from 0, makes the product panic if
`m < n`, and otherwise does not show: the product is that with `f`, and the closure has been called `n` times if it returns. -/
theorem C91_panic_at (s a b : Dense S) (D : Option Nat) :
    (∃ n, ∀ (f : S → S) (m : Nat), mulAddIntoS C p N (fun t x => if t = m then .panic else .ok (f x, t + 1)) s a b D 0 =
      if m < n then .panic else (mulAddInto C p N s a b f D >>= fun r => .ok (r, n))) ∧
    ∃ n, ∀ (f : S → S) (m : Nat), mulIntoS C p N (fun t x => if t = m then .panic else .ok (f x, t + 1)) s b D 0 =
      if m < n then .panic else (mulInto C p N s b f D >>= fun r => .ok (r, n)) := by
  obtain ⟨⟨n, v, c, h1, h2⟩, n', v', c', h3, h4⟩ := C91_calls C p N s a b D
  refine ⟨⟨n, fun f m => ?_⟩, n', fun f m => ?_⟩
  · rw [h2, h1.panicAt f m 0 (by omega), ← h2, (C91_pure C p N f s a b D ()).1, Nat.zero_add]
    cases mulAddInto C p N s a b f D <;> rfl
  · rw [h4, h3.panicAt f m 0 (by omega), ← h4, (C91_pure C p N f s s b D ()).2, Nat.zero_add]
    cases mulInto C p N s b f D <;> rfl

section
variable {T : Type}

/-- The number of coefficients is the same however the computation ends. -/
def KeepsSize {α : Type} (x : Unw (Dense S × T) α) : Prop := ∀ st, (x st).2.1.size = st.1.size

theorem KeepsSize.lift {α : Type} (r : Res α) : KeepsSize (S := S) (T := T) (Unw.lift r) := fun _ => rfl

theorem KeepsSize.bind {α β : Type} {x : Unw (Dense S × T) α} {k : α → Unw (Dense S × T) β} (h : KeepsSize x) (hk : ∀ a, KeepsSize (k a)) :
    KeepsSize (x >>= k) := by
  intro st
  have h := h st
  show (Unw.bind x k st).2.1.size = _
  unfold Unw.bind
  revert h
  rcases x st with ⟨r | _ | _ | _, st'⟩ <;> intro h
  · exact (hk r st').trans h
  all_goals exact h

theorem KeepsSize.fold {α β : Type} {f : β → α → Unw (Dense S × T) β} (hf : ∀ b a, KeepsSize (f b a)) (l : List α) (b : β) : KeepsSize (l.foldlM f b) := by
  induction l generalizing b with
  | nil => exact fun _ => rfl
  | cons a l ih => rw [List.foldlM_cons]; exact .bind (hf b a) fun b' => ih b'

theorem size_writeSlice (d : Dense S) (l : List S) : (d.writeSlice l).size = l.length := by
  unfold Dense.writeSlice
  split <;> rfl

theorem KeepsSize.asMut : KeepsSize (S := S) (T := T) asMutU := fun st => by
  show (DenseAlg.asMut st.1).size = _
  unfold DenseAlg.asMut
  rw [size_writeSlice]
  rfl

theorem keepsSize_buf (func : ClosureU S T) (lo len : Nat) (l r : List S) : KeepsSize (mulIntoBufferU C func lo len l r) := by
  refine .bind (.fold (fun _ _ => .fold (fun ptr b st => ?_) _ _) _ _) fun _ _ => rfl
  unfold bufStepU
  split
  · split
    · simp only [size_writeSlice, List.length_modify]
      rfl
    all_goals rfl
  · rfl

theorem keepsSize_inplace (func : ClosureU S T) (lo len : Nat) (r : List S) : KeepsSize (mulInplaceBufferU C func lo len r) := by
  refine .fold (fun _ _ => .fold (fun _ b st => ?_) _ _) _ _
  unfold inplaceStepU
  split
  · rfl
  · split
    · simp only [size_writeSlice, List.length_set]
      rfl
    all_goals rfl

theorem keepsSize_addDegree (func : ClosureU S T) (a b : Dense S) (da db o : Nat) : KeepsSize (mulAddDegreeU C p N func a b da db () o) :=
  .bind (.lift _) fun _ => .fold (fun _ _ => .bind (.lift _) fun _ => .bind .asMut fun _ => .bind (.lift _) fun _ => .bind (.lift _) fun _ =>
    .bind (.lift _) fun _ => .bind (.lift _) fun _ => .bind (.lift _) fun _ => .bind (.lift _) fun _ => keepsSize_buf C _ _ _ _ _) _ _

theorem keepsSize_split (func : ClosureU S T) (b : Dense S) (mid : Nat) (ro rl rr : Nat × Nat) : KeepsSize (splitMulU C func b mid ro rl rr) := by
  refine .bind .asMut fun data => ?_
  split
  · exact .bind (.lift _) fun _ => .bind (.lift _) fun _ => .bind (.lift _) fun _ => keepsSize_buf C _ _ _ _ _
  · exact .lift _

theorem keepsSize_assign (func : ClosureU S T) (b : Dense S) (offset o m : Nat) : KeepsSize (mulIntoAssignU C p N func b offset o m) := by
  refine .bind (.lift _) fun _ => .bind (.lift _) fun _ => .bind (.lift _) fun _ => ?_
  split
  · exact .bind (.lift _) fun _ => .bind (.lift _) fun _ => keepsSize_split C _ _ _ _ _ _
  · exact .bind .asMut fun _ => .bind (.lift _) fun _ => .bind (.lift _) fun _ => keepsSize_inplace C _ _ _ _

theorem keepsSize_intoDegree (func : ClosureU S T) (b : Dense S) (offset : Nat) (assign : Bool) (da db o : Nat) :
    KeepsSize (mulIntoDegreeU C p N func b offset assign da db () o) := by
  have hl : ∀ l m u, KeepsSize ((List.range' l u).reverse.foldlM (mulIntoStepU C p N func b o m) ()) := fun _ _ _ => .fold (fun _ _ =>
    .bind (.lift _) fun _ => .bind (.lift _) fun _ => .bind (.lift _) fun _ => .bind (.lift _) fun _ => .bind (.lift _) fun _ =>
      .bind (.lift _) fun _ => keepsSize_split C _ _ _ _ _ _) _ _
  refine .bind (.lift _) fun lo => .bind (.lift _) fun t => ?_
  cases assign
  · exact .bind (.lift _) fun _ => .bind (.lift _) fun _ => hl _ _ _
  · exact .bind (keepsSize_assign C p N _ _ _ _ _) fun _ => .bind (.lift _) fun _ => hl _ _ _

/-- The size after growing, however the rest ends. -/
theorem growToU_then (x : Unw (Dense S × T) Unit) (hx : KeepsSize x) (m : Nat) (s d : Dense S) (hg : growTo C p N s m = .ok d) (t : T) :
    ((growToU C p N m >>= fun _ => x) (s, t)).2.1.size = d.size := by
  have : growToU C p N m (s, t) = (.ok (), (d, t)) := by
    unfold growToU
    rw [Unw.get_bind]
    simp only [hg, Unw.lift_ok_bind]
    rfl
  rw [Unw.bind_apply, this]
  exact hx (d, t)

/-- A step before the vector is touched. -/
theorem size_lift {α : Type} (r : Res α) (s : Dense S) (x : ∀ T, ClosureU S T → α → Unw (Dense S × T) Unit)
    (h : ∀ a, r = .ok a → ∃ k, ∀ T func t, (x T func a (s, t)).2.1.size = k) :
    ∃ k, ∀ T func t, ((Unw.lift r >>= x T func) (s, t)).2.1.size = k := by
  cases r with
  | ok a => exact h a rfl
  | panic | ub | diverge => exact ⟨s.size, fun _ _ _ => rfl⟩

theorem size_grow (m : Nat) (s : Dense S) (x : ∀ T, ClosureU S T → Unw (Dense S × T) Unit) (hx : ∀ T func, KeepsSize (x T func)) :
    ∃ k, ∀ T func t, ((growToU C p N m >>= fun _ => x T func) (s, t)).2.1.size = k := by
  cases hg : growTo C p N s m with
  | ok d => exact ⟨d.size, fun T func t => growToU_then C p N _ (hx T func) m s d hg t⟩
  | panic | ub | diverge =>
    refine ⟨s.size, fun T func t => ?_⟩
    rw [Unw.bind_apply]
    unfold growToU
    rw [Unw.get_bind]
    simp only [hg]
    rfl

end

/-- C95.  For all operands and both products, the vector left behind has the same number of coefficients for all closures, however they and the product end. -/
theorem C95_size (s a b : Dense S) (D : Option Nat) :
    (∃ k, ∀ T (func : ClosureU S T) t, (mulAddIntoU C p N func a b D (s, t)).2.1.size = k) ∧
    ∃ k, ∀ T (func : ClosureU S T) t, (mulIntoU C p N func b D (s, t)).2.1.size = k :=
  ⟨size_lift _ s (fun _ _ _ => _) fun _ _ => size_lift _ s (fun _ _ _ => _) fun _ _ => size_lift _ s (fun _ _ _ => _) fun _ _ =>
      size_grow C p N _ s (fun _ _ => _) fun _ _ => .fold (fun _ _ => keepsSize_addDegree C p N _ _ _ _ _ _) _ _,
    size_lift (Dense.degree (tensorBasis p N) s) s (fun _ func da => Unw.lift (Dense.degree (tensorBasis p N) b) >>= fun db =>
        Unw.lift (maxDeg p D da db) >>= fun m => growToU C p N m >>= fun _ =>
          (List.range' 1 m).reverse.foldlM (mulIntoDegreeU C p N func b (offsetAssign C b).1 (offsetAssign C b).2 da db) ()) fun _ _ =>
      size_lift _ s (fun _ _ _ => _) fun _ _ => size_lift _ s (fun _ _ _ => _) fun _ _ =>
        size_grow C p N _ s (fun _ _ => _) fun _ _ => .fold (fun _ _ => keepsSize_intoDegree C p N _ _ _ _ _ _ _) _ _⟩

/-- C95.  So it is the size of the product with any closure without state, if that returns. -/
theorem C95_full_size {T : Type} (func : ClosureU S T) (f : S → S) (s a b r : Dense S) (D : Option Nat) (t : T) :
    (mulAddInto C p N s a b f D = .ok r → (mulAddIntoU C p N func a b D (s, t)).2.1.size = r.size) ∧
    (mulInto C p N s b f D = .ok r → (mulIntoU C p N func b D (s, t)).2.1.size = r.size) := by
  obtain ⟨⟨k, hk⟩, k', hk'⟩ := C95_size C p N s a b D
  obtain ⟨e1, e2⟩ := C95_outcome C p N (fun (t : Unit) x => (.ok (f x), t)) s a b D ()
  obtain ⟨p1, p2⟩ := C91_pure C p N f s a b D ()
  refine ⟨fun h => ?_, fun h => ?_⟩
  · have e : Unw.forget (mulAddIntoU C p N (fun (t : Unit) x => (.ok (f x), t)) a b D (s, ())) = .ok ((), (r, ())) := by
      rw [e1, show (fun (t : Unit) x => Unw.forget ((.ok (f x), t) : Res S × Unit)) = fun t x => .ok (f x, t) from rfl, p1, h]
      rfl
    rw [hk, ← hk Unit (fun (t : Unit) x => (.ok (f x), t)) ()]
    revert e
    rcases mulAddIntoU C p N (fun (t : Unit) x => (.ok (f x), t)) a b D (s, ()) with ⟨_ | _ | _ | _, q⟩ <;> intro e <;> cases e
    rfl
  · have e : Unw.forget (mulIntoU C p N (fun (t : Unit) x => (.ok (f x), t)) b D (s, ())) = .ok ((), (r, ())) := by
      rw [e2, show (fun (t : Unit) x => Unw.forget ((.ok (f x), t) : Res S × Unit)) = fun t x => .ok (f x, t) from rfl, p2, h]
      rfl
    rw [hk', ← hk' Unit (fun (t : Unit) x => (.ok (f x), t)) ()]
    revert e
    rcases mulIntoU C p N (fun (t : Unit) x => (.ok (f x), t)) b D (s, ()) with ⟨_ | _ | _ | _, q⟩ <;> intro e <;> cases e
    rfl

/-- C95.  For all operands there is a number of calls `n` such that the product panics if the closure panics at its call number `m < n`; with `n ≤ m` it ends as
with `f`. -/
theorem C95_panic_any (s a b : Dense S) (D : Option Nat) :
    (∃ n, ∀ (f : S → S) (m : Nat), Unw.forget (mulAddIntoU C p N (panicAt f m) a b D (s, 0)) =
      if m < n then .panic else (mulAddInto C p N s a b f D >>= fun r => .ok ((), (r, n)))) ∧
    ∃ n, ∀ (f : S → S) (m : Nat), Unw.forget (mulIntoU C p N (panicAt f m) b D (s, 0)) =
      if m < n then .panic else (mulInto C p N s b f D >>= fun r => .ok ((), (r, n))) := by
  obtain ⟨⟨n, h⟩, n', h'⟩ := C91_panic_at C p N s a b D
  have e : ∀ (f : S → S) (m : Nat), (fun t x => Unw.forget (panicAt f m t x)) = fun t x => if t = m then .panic else .ok (f x, t + 1) := by
    intro f m
    funext t x
    unfold panicAt
    split <;> rfl
  refine ⟨⟨n, fun f m => ?_⟩, n', fun f m => ?_⟩
  · rw [(C95_outcome C p N (panicAt f m) s a b D 0).1, e, h]
    split
    · rfl
    · cases mulAddInto C p N s a b f D <;> rfl
  · rw [(C95_outcome C p N (panicAt f m) s a b D 0).2, e, h']
    split
    · rfl
    · cases mulInto C p N s b f D <;> rfl

/-! ## Concrete cases: right factors of positive degree, where `multiply_into_impl` is wrong (C37) -/

/-- A closure without state other than a counter, panicking at call `m`. -/
def exCount (m : Nat) : Closure Int Nat := fun t x => if t = m then .panic else .ok (x, t + 1)

/-- Twelve calls, then the wrong result of `C37`. -/
example : mulIntoS intCoeff .debug 2 (exCount 11) (.ofVec [2, 1, 4]) (.ofVec [3, 1, 1]) (some 2) 0 = .panic ∧
    mulIntoS intCoeff .debug 2 (exCount 12) (.ofVec [2, 1, 4]) (.ofVec [3, 1, 1]) (some 2) 0 = .ok (.ofVec [2, 3, 14, 2, 0, 0, 0], 12) := by decide +kernel

/-- So the `n` of `C91_panic_at` is 12 here. -/
example : ∀ (f : Int → Int) (m : Nat), mulIntoS intCoeff .debug 2 (fun t x => if t = m then .panic else .ok (f x, t + 1)) (.ofVec [2, 1, 4]) (.ofVec [3, 1, 1]) (some 2) 0 =
    if m < 12 then .panic else (mulInto intCoeff .debug 2 (.ofVec [2, 1, 4]) (.ofVec [3, 1, 1]) f (some 2) >>= fun r => .ok (r, 12)) := by
  obtain ⟨-, n, h⟩ := C91_panic_at intCoeff .debug 2 (.ofVec [2, 1, 4]) .new (.ofVec [3, 1, 1]) (some 2)
  have e : mulIntoS intCoeff .debug 2 (exCount 12) (.ofVec [2, 1, 4]) (.ofVec [3, 1, 1]) (some 2) 0 = .ok (.ofVec [2, 3, 14, 2, 0, 0, 0], 12) := by decide +kernel
  have hn : n = 12 := by
    have h12 := (h id 12).symm.trans e
    revert h12
    split
    · nofun
    · cases mulInto intCoeff .debug 2 (.ofVec [2, 1, 4]) (.ofVec [3, 1, 1]) id (some 2) <;> intro h12 <;> cases h12
      rfl
  exact hn ▸ h

/-- Undefined behaviour before the first call, and after 22 calls. -/
example : mulIntoS intCoeff .debug 2 (exCount 0) (.ofVec [2, 1, 4]) (.ofVec [1, 1, 1]) (some 2) 0 = .ub ∧
    mulIntoS intCoeff .debug 2 (exCount 21) (.ofVec [2, 1, 4, 0, 0, 0, 0]) (.ofVec [3, 1, 1]) (some 3) 0 = .panic ∧
    mulIntoS intCoeff .debug 2 (exCount 22) (.ofVec [2, 1, 4, 0, 0, 0, 0]) (.ofVec [3, 1, 1]) (some 3) 0 = .ub := by decide +kernel

/-- A closure with a state returns as the closure without. -/
example : (mulIntoS intCoeff .debug 2 exNumber (.ofVec [2, 1, 4]) (.ofVec [3, 1, 1]) (some 2) 0 >>= fun _ => .ok ()) = .ok () :=
  (C91_outcome intCoeff .debug 2 exNumber (fun _ _ => ⟨_, rfl⟩) id (.ofVec [2, 1, 4]) .new (.ofVec [3, 1, 1]) (some 2) 0).2.trans (by decide +kernel)

/-- The grown vector is left behind, with the entries the calls had reached. -/
example : mulIntoU intCoeff .debug 2 (panicAt id 10) (.ofVec [3, 1, 1]) (some 2) (.ofVec [2, 1, 4], 0) = (.panic, (.ofVec [2, 3, 12, 0, 0, 0, 0], 10)) := by decide +kernel

example : (mulIntoU intCoeff .debug 2 (panicAt id 10) (.ofVec [3, 1, 1]) (some 2) (.ofVec [2, 1, 4], 0)).2.1.size = 7 :=
  (C95_full_size intCoeff .debug 2 (panicAt id 10) id (.ofVec [2, 1, 4]) .new (.ofVec [3, 1, 1]) (.ofVec [2, 3, 14, 2, 0, 0, 0]) (some 2) 0).2 (by decide +kernel)

end RA
