import Verif.SpecCalls
import Mathlib.Tactic.Common

/-!
# The products call their closure a number of times that depends on the sizes only
-/

namespace RA
open Spec DenseAlg

/-- Something that runs with every closure. -/
abbrev Inter (S α : Type) := ∀ T : Type, Closure S T → T → Res (α × T)

namespace Calls
variable {S α β γ σ σ' σ'' : Type}

def bind : Spec.Calls S α → (α → Spec.Calls S β) → Spec.Calls S β
  | .done (.ok a), h => h a
  | .done .panic, _ => .done .panic
  | .done .ub, _ => .done .ub
  | .done .diverge, _ => .done .diverge
  | .call x k, h => .call x fun y => bind (k y) h

theorem run_bind {T : Type} (func : Closure S T) (c : Spec.Calls S α) (h : α → Spec.Calls S β) (t : T) :
    (bind c h).run func t = c.run func t >>= fun r => (h r.1).run func r.2 := by
  induction c generalizing t with
  | done r => cases r <;> rfl
  | call x k ih =>
    show (func t x >>= fun r => (bind (k r.1) h).run func r.2) = _
    simp only [ih]
    show _ = (func t x >>= fun r => (k r.1).run func r.2) >>= _
    cases func t x <;> rfl

def HasShape (Q : α → Prop) : Spec.Calls S α → Prop
  | .done r => ∀ a, r = .ok a → Q a
  | .call _ k => ∀ y, HasShape Q (k y)

theorem bind_ok {Q : α → Prop} {Q' : β → Prop} {n m : Nat} {v : Res Unit} {c : Spec.Calls S α} {h : α → Spec.Calls S β} {u : Res Unit} (hc : c.Uniform n u) (hu : u = .ok ())
    (hQ : HasShape Q c) (hh : ∀ a, Q a → (h a).Uniform m v ∧ HasShape Q' (h a)) : (bind c h).Uniform (n + m) v ∧ HasShape Q' (bind c h) := by
  induction hc with
  | done r =>
    cases r with
    | ok a =>
      rw [Nat.zero_add]
      exact hh a (hQ a rfl)
    | _ => cases hu
  | call x k n v' _ ih =>
    refine ⟨?_, fun y => (ih y hu (hQ y)).2⟩
    rw [show n + 1 + m = (n + m) + 1 by omega]
    exact .call _ _ _ _ fun y => (ih y hu (hQ y)).1

theorem bind_fail {Q' : β → Prop} {n : Nat} {c : Spec.Calls S α} {h : α → Spec.Calls S β} {u : Res Unit} (hc : c.Uniform n u) (hu : u ≠ .ok ()) :
    (bind c h).Uniform n u ∧ HasShape Q' (bind c h) := by
  induction hc with
  | done r =>
    cases r with
    | ok a => exact absurd rfl hu
    | panic => exact ⟨.done (α := β) .panic, fun _ h => nomatch h⟩
    | ub => exact ⟨.done (α := β) .ub, fun _ h => nomatch h⟩
    | diverge => exact ⟨.done (α := β) .diverge, fun _ h => nomatch h⟩
  | call x k n v' _ ih => exact ⟨.call _ _ _ _ fun y => (ih y hu).1, fun y => (ih y hu).2⟩

/-- `g` makes `n` calls and ends with `v`; what it returns meets `Q`. -/
def U (n : Nat) (v : Res Unit) (Q : α → Prop) (g : Inter S α) : Prop :=
  ∃ c : Spec.Calls S α, c.Uniform n v ∧ HasShape Q c ∧ ∀ T func t, g T func t = c.run func t

theorem U.pure {Q : α → Prop} {a : α} (h : Q a) : U (S := S) 0 (.ok ()) Q fun _ _ t => .ok (a, t) :=
  ⟨.done (.ok a), .done (.ok a), fun _ e => by cases e; exact h, fun _ _ _ => rfl⟩

theorem U.panic {Q : α → Prop} : U (S := S) 0 .panic Q fun _ _ _ => .panic :=
  ⟨.done .panic, .done (α := α) .panic, fun _ h => (nomatch h), fun _ _ _ => rfl⟩

theorem U.ub {Q : α → Prop} : U (S := S) 0 .ub Q fun _ _ _ => .ub :=
  ⟨.done .ub, .done (α := α) .ub, fun _ h => (nomatch h), fun _ _ _ => rfl⟩

theorem U.diverge {Q : α → Prop} : U (S := S) 0 .diverge Q fun _ _ _ => .diverge :=
  ⟨.done .diverge, .done (α := α) .diverge, fun _ h => (nomatch h), fun _ _ _ => rfl⟩

theorem U.bind {Q : α → Prop} {Q' : β → Prop} {n m : Nat} {v : Res Unit} {g : Inter S α} {h : α → Inter S β} (hg : U n (.ok ()) Q g)
    (hh : ∀ a, Q a → U m v Q' (h a)) : U (n + m) v Q' fun T f t => g T f t >>= fun r => h r.1 T f r.2 := by
  classical
  obtain ⟨c, h1, h2, h3⟩ := hg
  have hc : ∀ a, ∃ c' : Spec.Calls S β, Q a → c'.Uniform m v ∧ HasShape Q' c' ∧ ∀ T func t, h a T func t = c'.run func t := by
    intro a
    by_cases ha : Q a
    · obtain ⟨c', h'⟩ := hh a ha
      exact ⟨c', fun _ => h'⟩
    · exact ⟨.done .panic, fun h => absurd h ha⟩
  choose k hk using hc
  have hb := bind_ok (Q' := Q') h1 rfl h2 fun a ha => ⟨(hk a ha).1, (hk a ha).2.1⟩
  refine ⟨_, hb.1, hb.2, fun T func t => ?_⟩
  show (g T func t >>= fun r => h r.1 T func r.2) = _
  rw [run_bind, h3]
  clear h1 hb h3
  induction c generalizing t with
  | done r =>
    cases r with
    | ok a => exact (hk a (h2 a rfl)).2.2 T func t
    | _ => rfl
  | call x kk ih =>
    show ((func t x >>= fun r => (kk r.1).run func r.2) >>= _) = ((func t x >>= fun r => (kk r.1).run func r.2) >>= _)
    cases hf : func t x with
    | ok r => exact ih r.1 (h2 r.1) r.2
    | _ => rfl

theorem U.bind_fail {Q : α → Prop} {Q' : β → Prop} {n : Nat} {v : Res Unit} {g : Inter S α} {h : α → Inter S β} (hg : U n v Q g) (hv : v ≠ .ok ()) :
    U n v Q' fun T f t => g T f t >>= fun r => h r.1 T f r.2 := by
  obtain ⟨c, h1, -, h3⟩ := hg
  have hb := Calls.bind_fail (Q' := Q') (h := fun _ => .done .panic) h1 hv
  refine ⟨_, hb.1, hb.2, fun T func t => ?_⟩
  show (g T func t >>= fun r => h r.1 T func r.2) = _
  rw [run_bind, h3]
  clear hb h3
  induction h1 generalizing t with
  | done r =>
    cases r with
    | ok a => exact absurd rfl hv
    | _ => rfl
  | call x kk n v _ ih =>
    show ((func t x >>= fun r => (kk r.1).run func r.2) >>= _) = ((func t x >>= fun r => (kk r.1).run func r.2) >>= _)
    cases hf : func t x with
    | ok r => exact ih r.1 hv r.2
    | _ => rfl

/-- The number of calls, the outcome and the shape of the result depend on the shape of the argument only. -/
def Shapely (sh : α → σ) (sh' : β → σ') (g : α → Inter S β) : Prop := ∀ s, ∃ n v s', ∀ a, sh a = s → U n v (fun b => sh' b = s') (g a)

theorem Shapely.bind [Inhabited σ''] {sh : α → σ} {sh' : β → σ'} {sh'' : γ → σ''} {g : α → Inter S β} {h : β → Inter S γ} (hg : Shapely sh sh' g) (hh : Shapely sh' sh'' h) :
    Shapely sh sh'' fun a T f t => g a T f t >>= fun r => h r.1 T f r.2 := by
  intro s
  obtain ⟨n, v, s', h1⟩ := hg s
  by_cases hv : v = .ok ()
  · subst hv
    obtain ⟨m, w, s'', h2⟩ := hh s'
    exact ⟨n + m, w, s'', fun a ha => (h1 a ha).bind h2⟩
  · exact ⟨n, v, default, fun a ha => (h1 a ha).bind_fail hv⟩

/-- Loops. -/
theorem Shapely.fold {E ε : Type} (she : E → ε) [Inhabited σ] (sh : α → σ) (step : ∀ T : Type, Closure S T → α × T → E → Res (α × T))
    (H : ∀ e s, ∃ n v s', ∀ x a, she x = e → sh a = s → U n v (fun b => sh b = s') fun T f t => step T f (a, t) x) (l : List ε) :
    ∀ s, ∃ n v s', ∀ (L : List E) a, L.map she = l → sh a = s → U n v (fun b => sh b = s') fun T f t => L.foldlM (step T f) (a, t) := by
  induction l with
  | nil =>
    intro s
    refine ⟨0, .ok (), s, fun L a hL ha => ?_⟩
    cases List.map_eq_nil_iff.1 hL
    exact U.pure ha
  | cons e l ih =>
    intro s
    obtain ⟨n, v, s', h1⟩ := H e s
    by_cases hv : v = .ok ()
    · subst hv
      obtain ⟨m, w, s'', h2⟩ := ih s'
      refine ⟨n + m, w, s'', fun L a hL ha => ?_⟩
      obtain ⟨x, L, rfl, hx, hL⟩ := List.map_eq_cons_iff.1 hL
      exact (h1 x a hx ha).bind (h := fun b T f t => L.foldlM (step T f) (b, t)) fun b hb => h2 L b hL hb
    · refine ⟨n, v, default, fun L a hL ha => ?_⟩
      obtain ⟨x, L, rfl, hx, hL⟩ := List.map_eq_cons_iff.1 hL
      exact (h1 x a hx ha).bind_fail (h := fun b T f t => L.foldlM (step T f) (b, t)) hv

/-- A step that does not depend on the state or the closure. -/
theorem Shapely.res [Inhabited σ'] {sh : α → σ} {sh' : β → σ'} (r : Res γ) {g : γ → α → Inter S β} (h : ∀ c, Shapely sh sh' (g c)) :
    Shapely sh sh' fun a T f t => r >>= fun c => g c a T f t := by
  cases r with
  | ok c => exact h c
  | panic => exact fun s => ⟨0, .panic, default, fun a _ => U.panic⟩
  | ub => exact fun s => ⟨0, .ub, default, fun a _ => U.ub⟩
  | diverge => exact fun s => ⟨0, .diverge, default, fun a _ => U.diverge⟩

end Calls

namespace DenseAlg
open Calls
variable {S R : Type} (C : Coeff S R) (p : Profile) (N : Nat)

/-- What decides the course of a product. -/
def shape (d : Dense S) : Nat × Nat := ((match d.mode with | .owned => 0 | .borrowed => 1 | .borrowedMut => 2), d.data.length)

theorem bufStepS_shape (st : List S × Nat) (L i : Nat) (h : (st.1.length, st.2) = (L, i)) (a b : S) :
    U (if i < L then 1 else 0) (if i < L then .ok () else .ub) (fun st' : List S × Nat => (st'.1.length, st'.2) = (L, i + 1)) fun _ f t =>
      bufStepS C f a (st, t) b := by
  obtain ⟨o, j⟩ := st
  cases h
  by_cases hi : j < o.length
  · rw [if_pos hi, if_pos hi]
    refine ⟨.call (C.mul a b) fun y => .done (.ok (o.modify j (fun x => C.add x y), j + 1)), .call _ _ _ _ fun y => .done (.ok _), fun y c hc => ?_, fun T func t => ?_⟩
    · cases hc
      simp
    · unfold bufStepS
      simp only [if_pos hi]
      show _ = func t (C.mul a b) >>= _
      cases func t (C.mul a b) with
      | ok r =>
        simp only [Res.bind_ok, modifyUnchecked, if_pos hi]
        rfl
      | _ => rfl
  · rw [if_neg hi, if_neg hi]
    refine ⟨.done .ub, .done .ub, fun _ h => (nomatch h), fun T func t => ?_⟩
    unfold bufStepS
    simp only [if_neg hi]
    rfl

theorem rows_length {n m : Nat} (l r : List S) (hl : l.length = n) (hr : r.length = m) :
    (l.map fun a => (a, r)).map (fun e : S × List S => e.2.length) = List.replicate n m := by
  rw [List.map_map]
  refine List.eq_replicate_iff.2 ⟨by rw [List.length_map, hl], fun x hx => ?_⟩
  obtain ⟨_, _, rfl⟩ := List.mem_map.1 hx
  exact hr

theorem bufRow_shape (r : Nat) (s : Nat × Nat) : ∃ n v s', ∀ (x : S × List S) (st : List S × Nat), x.2.length = r → (st.1.length, st.2) = s →
    U n v (fun st' : List S × Nat => (st'.1.length, st'.2) = s') fun _ f t => x.2.foldlM (bufStepS C f x.1) (st, t) := by
  obtain ⟨n, v, s', h⟩ := Shapely.fold (S := S) (fun _ : S × S => ()) (fun st : List S × Nat => (st.1.length, st.2)) (fun _ f st e => bufStepS C f e.1 st e.2)
    (fun _ s => ⟨_, _, _, fun x a _ ha => bufStepS_shape C a s.1 s.2 ha x.1 x.2⟩) (List.replicate r ()) s
  refine ⟨n, v, s', fun x st hx hs => ?_⟩
  have := h (x.2.map fun b => (x.1, b)) st (by rw [List.map_map, ← hx]; exact List.map_const) hs
  simpa only [List.foldlM_map] using this

theorem mulIntoBufferS_shape (lo ll lr : Nat) : ∃ n v l', ∀ out lhs rhs : List S, out.length = lo → lhs.length = ll → rhs.length = lr →
    U n v (fun o => o.length = l') fun _ f t => mulIntoBufferS C f out lhs rhs t := by
  obtain ⟨n, v, s', h⟩ := Shapely.fold (S := S) (fun e : S × List S => e.2.length) (fun st : List S × Nat => (st.1.length, st.2))
    (fun _ f st e => e.2.foldlM (bufStepS C f e.1) st) (fun r s => bufRow_shape C r s) (List.replicate ll lr) (lo, 0)
  by_cases hv : v = .ok ()
  · subst hv
    refine ⟨n + 0, .ok (), s'.1, fun out lhs rhs ho hl hr => ?_⟩
    have := h (lhs.map fun a => (a, rhs)) (out, 0) (rows_length lhs rhs hl hr) (by rw [ho])
    simp only [List.foldlM_map] at this
    exact this.bind (Q' := fun o => o.length = s'.1) (h := fun st _ _ t => .ok (st.1, t)) fun st hst => U.pure (by rw [← hst])
  · refine ⟨n, v, 0, fun out lhs rhs ho hl hr => ?_⟩
    have := h (lhs.map fun a => (a, rhs)) (out, 0) (rows_length lhs rhs hl hr) (by rw [ho])
    simp only [List.foldlM_map] at this
    exact this.bind_fail (h := fun st _ _ t => .ok (st.1, t)) hv

theorem inplaceStepS_shape (r : Nat) (l : Nat) : ∃ n v l', ∀ (x : S × List S) (acc : List S), x.2.length = r → acc.length = l →
    U n v (fun o => o.length = l') fun _ f t => inplaceStepS C f x.2 (acc, t) x.1 := by
  obtain ⟨n, v, s', h⟩ := Shapely.fold (S := S) (fun _ : S => ()) (fun _ : S => ()) (fun _ f st r => f st.2 (C.mul st.1 r))
    (fun _ _ => ⟨1, .ok (), (), fun x a _ _ => ⟨.call (C.mul a x) fun y => .done (.ok y), .call _ _ _ _ fun y => .done (.ok y), fun _ _ _ => rfl, fun T func t => by
      show func t (C.mul a x) = func t (C.mul a x) >>= _
      cases func t (C.mul a x) <;> rfl⟩⟩) (List.replicate r ()) ()
  by_cases hv : v = .ok ()
  · subst hv
    refine ⟨n + 0, .ok (), l + 1, fun x acc hx hl => ?_⟩
    exact (h x.2 x.1 (by rw [← hx]; exact List.map_const) rfl).bind (h := fun o _ _ t => .ok (acc ++ [o], t)) fun o _ => U.pure (by simp [hl])
  · refine ⟨n, v, 0, fun x acc hx hl => ?_⟩
    exact (h x.2 x.1 (by rw [← hx]; exact List.map_const) rfl).bind_fail (h := fun o _ _ t => .ok (acc ++ [o], t)) hv

theorem mulInplaceBufferS_shape (lo lr : Nat) : ∃ n v l', ∀ out rhs : List S, out.length = lo → rhs.length = lr →
    U n v (fun o => o.length = l') fun _ f t => mulInplaceBufferS C f out rhs t := by
  obtain ⟨n, v, s', h⟩ := Shapely.fold (S := S) (fun e : S × List S => e.2.length) (fun acc : List S => acc.length)
    (fun _ f st e => inplaceStepS C f e.2 st e.1) (fun r s => inplaceStepS_shape C r s) (List.replicate lo lr) 0
  refine ⟨n, v, s', fun out rhs ho hr => ?_⟩
  have := h (out.map fun a => (a, rhs)) [] (rows_length out rhs ho hr) rfl
  simp only [List.foldlM_map] at this
  exact this

theorem makeMut_data (d : Dense S) : d.makeMut.data = d.data := by
  unfold Dense.makeMut
  split <;> rfl

/-- The storage mode after `as_mut_slice`. -/
def mutMode (m : Nat) : Nat := if m = 1 then 0 else m

theorem shape_writeSlice (d : Dense S) (l : List S) : shape (d.makeMut.writeSlice l) = (mutMode (shape d).1, l.length) := by
  obtain ⟨m, l, x⟩ := d
  cases m <;> rfl

theorem finish {ι : Type} {P : ι → Prop} {g : ι → Inter S (List S)} (h : ∃ n v l', ∀ i, P i → U n v (fun o => o.length = l') (g i)) (F : ι → List S → Dense S)
    (φ : Nat → Nat × Nat) (hF : ∀ i, P i → ∀ o, shape (F i o) = φ o.length) :
    ∃ n v s', ∀ i, P i → U n v (fun d => shape d = s') fun T f t => g i T f t >>= fun r => .ok (F i r.1, r.2) := by
  obtain ⟨n, v, l', h⟩ := h
  by_cases hv : v = .ok ()
  · subst hv
    exact ⟨n + 0, .ok (), φ l', fun i hi => (h i hi).bind (Q' := fun d => shape d = φ l') (h := fun o _ _ t => .ok (F i o, t)) fun o ho => U.pure (by rw [hF i hi, ho])⟩
  · exact ⟨n, v, (0, 0), fun i hi => (h i hi).bind_fail (h := fun o _ _ t => .ok (F i o, t)) hv⟩

theorem slice_ok (l : List S) (r : Nat × Nat) (h : r.1 ≤ r.2 ∧ r.2 ≤ l.length) : sliceUnchecked l r = .ok ((l.take r.2).drop r.1) := if_pos h

theorem slice_ub (l : List S) (r : Nat × Nat) (h : ¬ (r.1 ≤ r.2 ∧ r.2 ≤ l.length)) : sliceUnchecked l r = .ub := if_neg h

theorem slice_length (l : List S) (r : Nat × Nat) (h : r.1 ≤ r.2 ∧ r.2 ≤ l.length) : ((l.take r.2).drop r.1).length = r.2 - r.1 := by
  rw [List.length_drop, List.length_take]
  omega

theorem replace_length (l o : List S) (r : Nat × Nat) (h : r.1 ≤ r.2 ∧ r.2 ≤ l.length) : (replaceRange l r o).length = r.1 + o.length + (l.length - r.2) := by
  unfold replaceRange
  rw [List.length_append, List.length_append, List.length_take, List.length_drop]
  omega

theorem splitMulS_shape (rhs : Dense S) (mid : Nat) (ro rl rr : Nat × Nat) :
    Shapely shape shape fun d _ f t => splitMulS C f rhs (d, t) mid ro rl rr := by
  rintro ⟨m, len⟩
  have hlen : ∀ d : Dense S, shape d = (m, len) → d.data.length = len := fun d h => congrArg Prod.snd h
  by_cases hmid : mid ≤ len
  swap
  · refine ⟨0, .panic, (0, 0), fun d hd => ?_⟩
    have : (fun (T : Type) (f : Closure S T) t => splitMulS C f rhs (d, t) mid ro rl rr) = fun _ _ _ => .panic := by
      funext T f t
      unfold splitMulS
      simp only [makeMut_data, hlen d hd, if_neg hmid]
    beta_reduce
    rw [this]
    exact U.panic
  have htake : ∀ d : Dense S, shape d = (m, len) → (d.data.take mid).length = mid := fun d h => by rw [List.length_take, hlen d h]; omega
  have hdrop : ∀ d : Dense S, shape d = (m, len) → (d.data.drop mid).length = len - mid := fun d h => by rw [List.length_drop, hlen d h]
  have key : ∀ d : Dense S, shape d = (m, len) → ∀ (T : Type) (f : Closure S T) t, splitMulS C f rhs (d, t) mid ro rl rr =
      sliceUnchecked (d.data.drop mid) ro >>= fun o => sliceUnchecked (d.data.take mid) rl >>= fun l => sliceUnchecked rhs.data rr >>= fun r =>
        mulIntoBufferS C f o l r t >>= fun q => .ok (d.makeMut.writeSlice (d.data.take mid ++ replaceRange (d.data.drop mid) ro q.1), q.2) := by
    intro d hd T f t
    unfold splitMulS
    simp only [makeMut_data, hlen d hd, if_pos hmid]
    rfl
  by_cases ho : ro.1 ≤ ro.2 ∧ ro.2 ≤ len - mid
  swap
  · refine ⟨0, .ub, (0, 0), fun d hd => ?_⟩
    have : (fun (T : Type) (f : Closure S T) t => splitMulS C f rhs (d, t) mid ro rl rr) = fun _ _ _ => .ub := by
      funext T f t
      rw [key d hd, slice_ub _ _ (by rw [hdrop d hd]; exact ho)]
      rfl
    beta_reduce
    rw [this]
    exact U.ub
  by_cases hl : rl.1 ≤ rl.2 ∧ rl.2 ≤ mid
  swap
  · refine ⟨0, .ub, (0, 0), fun d hd => ?_⟩
    have : (fun (T : Type) (f : Closure S T) t => splitMulS C f rhs (d, t) mid ro rl rr) = fun _ _ _ => .ub := by
      funext T f t
      rw [key d hd, slice_ok _ _ (by rw [hdrop d hd]; exact ho), Res.bind_ok, slice_ub _ _ (by rw [htake d hd]; exact hl)]
      rfl
    beta_reduce
    rw [this]
    exact U.ub
  by_cases hr : rr.1 ≤ rr.2 ∧ rr.2 ≤ rhs.data.length
  swap
  · refine ⟨0, .ub, (0, 0), fun d hd => ?_⟩
    have : (fun (T : Type) (f : Closure S T) t => splitMulS C f rhs (d, t) mid ro rl rr) = fun _ _ _ => .ub := by
      funext T f t
      rw [key d hd, slice_ok _ _ (by rw [hdrop d hd]; exact ho), Res.bind_ok, slice_ok _ _ (by rw [htake d hd]; exact hl), Res.bind_ok, slice_ub _ _ hr]
      rfl
    beta_reduce
    rw [this]
    exact U.ub
  obtain ⟨n, v, l', h⟩ := mulIntoBufferS_shape C (ro.2 - ro.1) (rl.2 - rl.1) (rr.2 - rr.1)
  obtain ⟨n, v, s', h⟩ := finish (P := fun d : Dense S => shape d = (m, len))
    (g := fun d _ f t => mulIntoBufferS C f (((d.data.drop mid).take ro.2).drop ro.1) (((d.data.take mid).take rl.2).drop rl.1) ((rhs.data.take rr.2).drop rr.1) t)
    ⟨n, v, l', fun d hd => h _ _ _ (slice_length _ _ (by rw [hdrop d hd]; exact ho)) (slice_length _ _ (by rw [htake d hd]; exact hl)) (slice_length _ _ hr)⟩
    (fun d o => d.makeMut.writeSlice (d.data.take mid ++ replaceRange (d.data.drop mid) ro o)) (fun l => (mutMode m, mid + (ro.1 + l + (len - mid - ro.2)))) (fun d hd o => by
      rw [shape_writeSlice, hd, List.length_append, htake d hd, replace_length _ _ _ (by rw [hdrop d hd]; exact ho), hdrop d hd])
  refine ⟨n, v, s', fun d hd => ?_⟩
  have : (fun (T : Type) (f : Closure S T) t => splitMulS C f rhs (d, t) mid ro rl rr) = fun T f t =>
      mulIntoBufferS C f (((d.data.drop mid).take ro.2).drop ro.1) (((d.data.take mid).take rl.2).drop rl.1) ((rhs.data.take rr.2).drop rr.1) t >>= fun q =>
        .ok (d.makeMut.writeSlice (d.data.take mid ++ replaceRange (d.data.drop mid) ro q.1), q.2) := by
    funext T f t
    rw [key d hd, slice_ok _ _ (by rw [hdrop d hd]; exact ho), Res.bind_ok, slice_ok _ _ (by rw [htake d hd]; exact hl), Res.bind_ok, slice_ok _ _ hr, Res.bind_ok]
  beta_reduce
  rw [this]
  exact h d hd

theorem mulIntoStepS_shape (rhs : Dense S) (outDeg lhsDegMax lhsD : Nat) :
    Shapely shape shape fun d _ f t => mulIntoStepS C p N f rhs outDeg lhsDegMax (d, t) lhsD :=
  .res _ fun _ => .res _ fun _ => .res _ fun _ => .res _ fun _ => .res _ fun _ => .res _ fun _ => splitMulS_shape C rhs _ _ _ _

theorem inplace_shape (rhs : Dense S) (ro rr : Nat × Nat) : Shapely shape shape fun d T f t =>
    (sliceUnchecked d.makeMut.data ro >>= fun o => sliceUnchecked rhs.data rr >>= fun r => mulInplaceBufferS C f o r t >>= fun q =>
      .ok (d.makeMut.writeSlice (replaceRange d.makeMut.data ro q.1), q.2) : Res (Dense S × T)) := by
  simp only [makeMut_data]
  rintro ⟨m, len⟩
  have hlen : ∀ d : Dense S, shape d = (m, len) → d.data.length = len := fun d h => congrArg Prod.snd h
  by_cases ho : ro.1 ≤ ro.2 ∧ ro.2 ≤ len
  swap
  · refine ⟨0, .ub, (0, 0), fun d hd => ?_⟩
    simp only [slice_ub d.data ro (by rw [hlen d hd]; exact ho)]
    exact U.ub
  by_cases hr : rr.1 ≤ rr.2 ∧ rr.2 ≤ rhs.data.length
  swap
  · refine ⟨0, .ub, (0, 0), fun d hd => ?_⟩
    simp only [slice_ok d.data ro (by rw [hlen d hd]; exact ho), slice_ub _ _ hr]
    exact U.ub
  obtain ⟨n, v, l', h⟩ := mulInplaceBufferS_shape C (ro.2 - ro.1) (rr.2 - rr.1)
  obtain ⟨n, v, s', h⟩ := finish (P := fun d : Dense S => shape d = (m, len))
    (g := fun d _ f t => mulInplaceBufferS C f ((d.data.take ro.2).drop ro.1) ((rhs.data.take rr.2).drop rr.1) t)
    ⟨n, v, l', fun d hd => h _ _ (slice_length _ _ (by rw [hlen d hd]; exact ho)) (slice_length _ _ hr)⟩
    (fun d o => d.makeMut.writeSlice (replaceRange d.data ro o)) (fun l => (mutMode m, ro.1 + l + (len - ro.2))) (fun d hd o => by
      rw [shape_writeSlice, hd, replace_length _ _ _ (by rw [hlen d hd]; exact ho), hlen d hd])
  refine ⟨n, v, s', fun d hd => ?_⟩
  simp only [slice_ok d.data ro (by rw [hlen d hd]; exact ho), slice_ok _ _ hr]
  exact h d hd

theorem mulIntoAssignS_shape (rhs : Dense S) (offset outDeg lhsDegMax : Nat) :
    Shapely shape shape fun d _ f t => mulIntoAssignS C p N f rhs offset outDeg lhsDegMax (d, t) := by
  by_cases ho : offset = 1
  · have : (fun (d : Dense S) (T : Type) (f : Closure S T) t => mulIntoAssignS C p N f rhs offset outDeg lhsDegMax (d, t)) = fun d T f t =>
        subW p 32 outDeg lhsDegMax >>= fun x => TensorBasis.degreeRange p N x >>= fun rr => TensorBasis.degreeRange p N outDeg >>= fun ro =>
          TensorBasis.degreeRange p N lhsDegMax >>= fun rl => TensorBasis.startOfDegree p N lhsDegMax >>= fun mid => splitMulS C f rhs (d, t) mid ro rl rr := by
      funext d T f t
      unfold mulIntoAssignS
      simp only [if_pos ho]
    rw [this]
    exact .res _ fun _ => .res _ fun _ => .res _ fun _ => .res _ fun _ => .res _ fun _ => splitMulS_shape C rhs _ _ _ _
  · have : (fun (d : Dense S) (T : Type) (f : Closure S T) t => mulIntoAssignS C p N f rhs offset outDeg lhsDegMax (d, t)) = fun d T f t =>
        subW p 32 outDeg lhsDegMax >>= fun x => TensorBasis.degreeRange p N x >>= fun rr => TensorBasis.degreeRange p N outDeg >>= fun ro =>
          (sliceUnchecked d.makeMut.data ro >>= fun o => sliceUnchecked rhs.data rr >>= fun r => mulInplaceBufferS C f o r t >>= fun q =>
            .ok (d.makeMut.writeSlice (replaceRange d.makeMut.data ro q.1), q.2) : Res (Dense S × T)) := by
      funext d T f t
      unfold mulIntoAssignS
      simp only [if_neg ho]
      rfl
    rw [this]
    exact .res _ fun _ => .res _ fun _ => .res _ fun _ => inplace_shape C rhs _ _

theorem fold_shape (L : List Nat) (step : ∀ T : Type, Closure S T → Dense S × T → Nat → Res (Dense S × T))
    (H : ∀ e, Shapely shape shape fun d T f t => step T f (d, t) e) : Shapely shape shape fun d T f t => L.foldlM (step T f) (d, t) := by
  intro s
  obtain ⟨n, v, s', h⟩ := Shapely.fold (S := S) (fun e : Nat => e) shape step (fun e s => by
    obtain ⟨n, v, s', h⟩ := H e s
    exact ⟨n, v, s', fun x a hx ha => hx ▸ h a ha⟩) L s
  exact ⟨n, v, s', fun d hd => h L d (List.map_id' L) hd⟩

theorem mulIntoDegreeS_shape (rhs : Dense S) (offset : Nat) (assign : Bool) (lhsDeg rhsDeg outDeg : Nat) :
    Shapely shape shape fun d _ f t => mulIntoDegreeS C p N f rhs offset assign lhsDeg rhsDeg (d, t) outDeg := by
  cases assign
  · have : (fun (d : Dense S) (T : Type) (f : Closure S T) t => mulIntoDegreeS C p N f rhs offset false lhsDeg rhsDeg (d, t) outDeg) = fun d T f t =>
        subW p 32 outDeg rhsDeg >>= fun lo => subW p 32 outDeg offset >>= fun x => subW p 32 (min x lhsDeg) 0 >>= fun top =>
          (List.range' lo (top + 1 - lo)).reverse.foldlM (mulIntoStepS C p N f rhs outDeg (min x lhsDeg)) (d, t) := rfl
    rw [this]
    exact .res _ fun _ => .res _ fun _ => .res _ fun _ => fold_shape _ (fun T f => mulIntoStepS C p N f rhs _ _) fun e => mulIntoStepS_shape C p N rhs _ _ e
  · have : (fun (d : Dense S) (T : Type) (f : Closure S T) t => mulIntoDegreeS C p N f rhs offset true lhsDeg rhsDeg (d, t) outDeg) = fun d T f t =>
        subW p 32 outDeg rhsDeg >>= fun lo => subW p 32 outDeg offset >>= fun x => mulIntoAssignS C p N f rhs offset outDeg (min x lhsDeg) (d, t) >>= fun q =>
          subW p 32 (min x lhsDeg) 1 >>= fun top =>
            (List.range' lo (top + 1 - lo)).reverse.foldlM (mulIntoStepS C p N f rhs outDeg (min x lhsDeg)) (q.1, q.2) := rfl
    rw [this]
    refine .res _ fun lo => .res _ fun x => ?_
    exact (mulIntoAssignS_shape C p N rhs offset outDeg _).bind (h := fun d T f t => subW p 32 (min x lhsDeg) 1 >>= fun top =>
      (List.range' lo (top + 1 - lo)).reverse.foldlM (mulIntoStepS C p N f rhs outDeg (min x lhsDeg)) (d, t))
      (.res _ fun _ => fold_shape _ (fun T f => mulIntoStepS C p N f rhs _ _) fun e => mulIntoStepS_shape C p N rhs _ _ e)

theorem mulIntoS_calls (self rhs : Dense S) (D : Option Nat) :
    ∃ (n : Nat) (v : Res Unit) (c : Spec.Calls S (Dense S)), c.Uniform n v ∧ ∀ T (func : Closure S T) t, mulIntoS C p N func self rhs D t = c.run func t := by
  have h : Shapely (S := S) (fun _ : Unit => ()) shape fun _ _ f t => mulIntoS C p N f self rhs D t := by
    refine .res _ fun _ => .res _ fun _ => .res _ fun _ => .res _ fun d _ => ?_
    obtain ⟨n, v, s', h⟩ := fold_shape (S := S) (List.range' 1 _).reverse (fun _ f => mulIntoDegreeS C p N f rhs (offsetAssign C rhs).1 (offsetAssign C rhs).2 _ _)
      (fun e => mulIntoDegreeS_shape C p N rhs _ _ _ _ e) (shape d)
    exact ⟨n, v, s', fun _ _ => h d rfl⟩
  obtain ⟨n, v, s', h⟩ := h ()
  obtain ⟨c, h1, -, h3⟩ := h () rfl
  exact ⟨n, v, c, h1, h3⟩

theorem addBlock_shape (l r : List S) (ro : Nat × Nat) : Shapely shape shape fun d T f t =>
    (sliceUnchecked d.makeMut.data ro >>= fun o => mulIntoBufferS C f o l r t >>= fun q =>
      .ok (d.makeMut.writeSlice (replaceRange d.makeMut.data ro q.1), q.2) : Res (Dense S × T)) := by
  simp only [makeMut_data]
  rintro ⟨m, len⟩
  have hlen : ∀ d : Dense S, shape d = (m, len) → d.data.length = len := fun d h => congrArg Prod.snd h
  by_cases ho : ro.1 ≤ ro.2 ∧ ro.2 ≤ len
  swap
  · refine ⟨0, .ub, (0, 0), fun d hd => ?_⟩
    simp only [slice_ub d.data ro (by rw [hlen d hd]; exact ho)]
    exact U.ub
  obtain ⟨n, v, l', h⟩ := mulIntoBufferS_shape C (ro.2 - ro.1) l.length r.length
  obtain ⟨n, v, s', h⟩ := finish (P := fun d : Dense S => shape d = (m, len))
    (g := fun d _ f t => mulIntoBufferS C f ((d.data.take ro.2).drop ro.1) l r t)
    ⟨n, v, l', fun d hd => h _ _ _ (slice_length _ _ (by rw [hlen d hd]; exact ho)) rfl rfl⟩
    (fun d o => d.makeMut.writeSlice (replaceRange d.data ro o)) (fun l => (mutMode m, ro.1 + l + (len - ro.2))) (fun d hd o => by
      rw [shape_writeSlice, hd, replace_length _ _ _ (by rw [hlen d hd]; exact ho), hlen d hd])
  refine ⟨n, v, s', fun d hd => ?_⟩
  simp only [slice_ok d.data ro (by rw [hlen d hd]; exact ho)]
  exact h d hd

theorem mulAddStepS_shape (lhs rhs : Dense S) (outDeg lhsD : Nat) : Shapely shape shape fun d _ f t => mulAddStepS C p N f lhs rhs outDeg (d, t) lhsD := by
  have : (fun (d : Dense S) (T : Type) (f : Closure S T) t => mulAddStepS C p N f lhs rhs outDeg (d, t) lhsD) = fun d T f t =>
      subW p 32 outDeg lhsD >>= fun rd => TensorBasis.degreeRange p N outDeg >>= fun ro => sliceUnchecked d.makeMut.data ro >>= fun o =>
        TensorBasis.degreeRange p N lhsD >>= fun rl => sliceUnchecked lhs.data rl >>= fun l => TensorBasis.degreeRange p N rd >>= fun rr =>
          sliceUnchecked rhs.data rr >>= fun r => mulIntoBufferS C f o l r t >>= fun q =>
            .ok (d.makeMut.writeSlice (replaceRange d.makeMut.data ro q.1), q.2) := rfl
  rw [this]
  refine .res _ fun rd => .res _ fun ro => ?_
  rintro ⟨m, len⟩
  have hlen : ∀ d : Dense S, shape d = (m, len) → d.makeMut.data.length = len := fun d h => by rw [makeMut_data]; exact congrArg Prod.snd h
  by_cases ho : ro.1 ≤ ro.2 ∧ ro.2 ≤ len
  swap
  · refine ⟨0, .ub, (0, 0), fun d hd => ?_⟩
    simp only [slice_ub d.makeMut.data ro (by rw [hlen d hd]; exact ho)]
    exact U.ub
  have h2 : Shapely (S := S) shape shape fun d T f t =>
      (TensorBasis.degreeRange p N lhsD >>= fun rl => sliceUnchecked lhs.data rl >>= fun l => TensorBasis.degreeRange p N rd >>= fun rr =>
        sliceUnchecked rhs.data rr >>= fun r => sliceUnchecked d.makeMut.data ro >>= fun o => mulIntoBufferS C f o l r t >>= fun q =>
          .ok (d.makeMut.writeSlice (replaceRange d.makeMut.data ro q.1), q.2) : Res (Dense S × T)) :=
    .res _ fun _ => .res _ fun l => .res _ fun _ => .res _ fun r => addBlock_shape C l r ro
  obtain ⟨n, v, s', h⟩ := h2 (m, len)
  refine ⟨n, v, s', fun d hd => ?_⟩
  have := h d hd
  simp only [slice_ok d.makeMut.data ro (by rw [hlen d hd]; exact ho), Res.bind_ok] at this ⊢
  exact this

theorem mulAddDegreeS_shape (lhs rhs : Dense S) (lhsDeg rhsDeg outDeg : Nat) :
    Shapely shape shape fun d _ f t => mulAddDegreeS C p N f lhs rhs lhsDeg rhsDeg (d, t) outDeg := by
  by_cases h : outDeg > rhsDeg
  · have : (fun (d : Dense S) (T : Type) (f : Closure S T) t => mulAddDegreeS C p N f lhs rhs lhsDeg rhsDeg (d, t) outDeg) = fun d T f t =>
        subW p 32 outDeg rhsDeg >>= fun lo => (List.range' lo (min outDeg lhsDeg + 1 - lo)).reverse.foldlM (mulAddStepS C p N f lhs rhs outDeg) (d, t) := by
      funext d T f t
      unfold mulAddDegreeS
      simp only [if_pos h]
    rw [this]
    exact .res _ fun _ => fold_shape _ (fun T f => mulAddStepS C p N f lhs rhs _) fun e => mulAddStepS_shape C p N lhs rhs _ e
  · have : (fun (d : Dense S) (T : Type) (f : Closure S T) t => mulAddDegreeS C p N f lhs rhs lhsDeg rhsDeg (d, t) outDeg) = fun d T f t =>
        (List.range' 0 (min outDeg lhsDeg + 1 - 0)).reverse.foldlM (mulAddStepS C p N f lhs rhs outDeg) (d, t) := by
      funext d T f t
      unfold mulAddDegreeS
      simp only [if_neg h]
      rfl
    rw [this]
    exact fold_shape _ (fun T f => mulAddStepS C p N f lhs rhs _) fun e => mulAddStepS_shape C p N lhs rhs _ e

theorem mulAddIntoS_calls (self lhs rhs : Dense S) (D : Option Nat) :
    ∃ (n : Nat) (v : Res Unit) (c : Spec.Calls S (Dense S)), c.Uniform n v ∧ ∀ T (func : Closure S T) t, mulAddIntoS C p N func self lhs rhs D t = c.run func t := by
  have h : Shapely (S := S) (fun _ : Unit => ()) shape fun _ _ f t => mulAddIntoS C p N f self lhs rhs D t := by
    refine .res _ fun _ => .res _ fun _ => .res _ fun _ => .res _ fun d _ => ?_
    obtain ⟨n, v, s', h⟩ := fold_shape (S := S) (List.range _).reverse (fun _ f => mulAddDegreeS C p N f lhs rhs _ _)
      (fun e => mulAddDegreeS_shape C p N lhs rhs _ _ e) (shape d)
    exact ⟨n, v, s', fun _ _ => h d rfl⟩
  obtain ⟨n, v, s', h⟩ := h ()
  obtain ⟨c, h1, -, h3⟩ := h () rfl
  exact ⟨n, v, c, h1, h3⟩

end DenseAlg
end RA
