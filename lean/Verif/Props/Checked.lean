import Verif.Proofs.FallibleSim
import Verif.Props.FallibleMore
import Verif.Props.FallibleInplace
import Verif.Props.FallibleProduct
import Verif.Props.CoeffRel
import Verif.Props.Unwind
import Verif.Props.Closure

/-!
# Checked arithmetic is never silently wrong (C103)

A coefficient type may panic instead of giving a wrong result: integers that check for overflow, rationals that refuse to divide by zero.  The vector operations
built on it inherit this: an operation that returns has returned the exact result.  If the arithmetic does nothing worse than panic, an operation on vectors panics or
does what the exact one does.
-/

namespace RA
open Spec TensorKey TensorBasis

/-- What the operations of `F` return is what the operations of `C` give, after the map `φ` into the coefficients of `C`.  `F` may panic whenever it likes.
`P r r'` holds if dividing by `r` is meant to be dividing by `r'`. -/
structure FCoeff.ExactFor {S S' R R' : Type} (F : FCoeff S R) (φ : S → S') (P : R → R' → Prop) (C : Coeff S' R') : Prop where
  zero : φ F.zero = C.zero
  one : φ F.one = C.one
  mone : φ F.mone = C.mone
  eq : ∀ x y b, F.eq x y = .ok b → b = C.eq (φ x) (φ y)
  uminus : ∀ x z, F.uminus x = .ok z → φ z = C.uminus (φ x)
  mul : ∀ x y z, F.mul x y = .ok z → φ z = C.mul (φ x) (φ y)
  div : ∀ x r r' z, P r r' → F.div x r = .ok z → φ z = C.div (φ x) r'
  addIn : ∀ x y, (F.addIn x y).1 = .ok () → φ (F.addIn x y).2 = C.add (φ x) (φ y)
  subIn : ∀ x y, (F.subIn x y).1 = .ok () → φ (F.subIn x y).2 = C.sub (φ x) (φ y)
  mulIn : ∀ x y, (F.mulIn x y).1 = .ok () → φ (F.mulIn x y).2 = C.mul (φ x) (φ y)
  divIn : ∀ x r r', P r r' → (F.divIn x r).1 = .ok () → φ (F.divIn x r).2 = C.div (φ x) r'

/-- The computation returns or panics. -/
def Res.ReturnsOrPanics {α : Type} (x : Res α) : Prop := x ≠ .ub ∧ x ≠ .diverge

/-- Arithmetic written in safe Rust, without endless loops: each operation returns or panics. -/
structure FCoeff.OnlyPanics {S R : Type} (F : FCoeff S R) : Prop where
  eq : ∀ x y, (F.eq x y).ReturnsOrPanics
  uminus : ∀ x, (F.uminus x).ReturnsOrPanics
  mul : ∀ x y, (F.mul x y).ReturnsOrPanics
  div : ∀ x r, (F.div x r).ReturnsOrPanics
  addIn : ∀ x y, (F.addIn x y).1.ReturnsOrPanics
  subIn : ∀ x y, (F.subIn x y).1.ReturnsOrPanics
  mulIn : ∀ x y, (F.mulIn x y).1.ReturnsOrPanics
  divIn : ∀ x r, (F.divIn x r).1.ReturnsOrPanics

/-- If the first computation returns, the second returns the image.  If `safe` holds, the first computation panics or does what the second one does, also when that
is undefined behaviour or does not end. -/
def ReturnsAs (safe : Prop) {α β : Type} (g : α → β) (x : Res α) (y : Res β) : Prop := (∀ a, x = .ok a → y = .ok (g a)) ∧ (safe → x = .panic ∨ y = g <$> x)

namespace Fallible

section
variable {K S S' R R' : Type} {F : FCoeff S R} {φ : S → S'} {P : R → R' → Prop} {C : Coeff S' R'}

theorem ref_of_image {z : Prop} {α β : Type} {r : α → β → Prop} {x : Res α} {b : β} (h : ∀ a, x = .ok a → r a b) (hz : z → x.ReturnsOrPanics) :
    ResRef z r x (.ok b) := by
  cases x with
  | ok a => exact ⟨b, rfl, h a rfl⟩
  | panic => trivial
  | ub => exact fun h' => ((hz h').1 rfl).elim
  | diverge => exact fun h' => ((hz h').2 rfl).elim

theorem exact_ref (h : F.ExactFor φ P C) : FRef F.OnlyPanics (Img φ) P F (.ofCoeff C) where
  zero := h.zero.symm
  one := h.one.symm
  mone := h.mone.symm
  eq := by rintro x _ y _ rfl rfl; exact ref_of_image (h.eq x y) fun hz => hz.eq x y
  uminus := by rintro x _ rfl; exact ref_of_image (fun z hz => (h.uminus x z hz).symm) fun hz => hz.uminus x
  mul := by rintro x _ y _ rfl rfl; exact ref_of_image (fun z hz => (h.mul x y z hz).symm) fun hz => hz.mul x y
  div := by rintro x _ r r' rfl hr; exact ref_of_image (fun z hz => (h.div x r r' z hr hz).symm) fun hz => hz.div x r
  addIn := by rintro x _ y _ rfl rfl; exact ref_of_image (fun _ hz => (h.addIn x y hz).symm) fun hz => hz.addIn x y
  subIn := by rintro x _ y _ rfl rfl; exact ref_of_image (fun _ hz => (h.subIn x y hz).symm) fun hz => hz.subIn x y
  mulIn := by rintro x _ y _ rfl rfl; exact ref_of_image (fun _ hz => (h.mulIn x y hz).symm) fun hz => hz.mulIn x y
  divIn := by rintro x _ r r' rfl hr; exact ref_of_image (fun _ hz => (h.divIn x r r' hr hz).symm) fun hz => hz.divIn x r

theorem returnsAs_of {z : Prop} {α β : Type} {r : α → β → Prop} {g : α → β} {x : Res α} {y y' : Res β} (h : ResRef z r x y) (hr : ∀ a b, r a b → b = g a)
    (e : y' = y) : ReturnsAs z g x y' := by
  subst e
  cases x with
  | ok a =>
    obtain ⟨b, rfl, hb⟩ := h
    cases hr a b hb
    exact ⟨fun a ha => by cases ha; rfl, fun _ => .inr rfl⟩
  | panic => exact ⟨nofun, fun _ => .inl rfl⟩
  | ub => exact ⟨nofun, fun hz => .inr (h hz)⟩
  | diverge => exact ⟨nofun, fun hz => .inr (h hz)⟩

theorem dense_gives {z : Prop} {x : Res (Dense S)} {y y' : Res (Dense S')} (h : ResRef z (DRel (Img φ)) x y) (e : y' = y) : ReturnsAs z (Dense.map φ) x y' :=
  returnsAs_of h (fun _ _ h => (dRel_img ..).1 h) e

theorem sparse_gives {z : Prop} {x : Res (Sparse K S)} {y y' : Res (Sparse K S')} (h : ResRef z (SRel (Img φ)) x y) (e : y' = y) : ReturnsAs z (Sparse.map φ) x y' :=
  returnsAs_of h (fun _ _ h => (sRel_img ..).1 h) e

theorem frefMono {z z' : Prop} {S S' R R' : Type} {Q : S → S' → Prop} {P : R → R' → Prop} {F : FCoeff S R} {F' : FCoeff S' R'} (h : FRef z Q P F F') (hz : z' → z) :
    FRef z' Q P F F' := by
  have hw : ∀ {α β : Type} {r : α → β → Prop} {x : Res α} {y : Res β}, ResRef z r x y → ResRef z' r x y := fun {_ _ _ x _} h => by
    cases x with
    | ok a => exact h
    | panic => trivial
    | ub | diverge => exact fun h' => h (hz h')
  exact ⟨h.zero, h.one, h.mone, fun _ _ _ _ a b => hw (h.eq _ _ _ _ a b), fun _ _ a => hw (h.uminus _ _ a), fun _ _ _ _ a b => hw (h.mul _ _ _ _ a b),
    fun _ _ _ _ a b => hw (h.div _ _ _ _ a b), fun _ _ _ _ a b => hw (h.addIn _ _ _ _ a b), fun _ _ _ _ a b => hw (h.subIn _ _ _ _ a b),
    fun _ _ _ _ a b => hw (h.mulIn _ _ _ _ a b), fun _ _ _ _ a b => hw (h.divIn _ _ _ _ a b)⟩

theorem temp_eq {V : Type} {q : Res Unit × V} {v : Res V} (h1 : v = .ok q.2) (h2 : q.1 = .ok ()) : v = temp q := by unfold temp; rw [h1, h2]

end

section
variable {S R : Type} (C : Coeff S R) (p : Profile) (N : Nat)

/-! ## Coefficients that never panic -/

theorem temp_forget {T α : Type} (x : Res Unit × (Dense S × T)) (z : Res (Dense S × T)) (f : Dense S → α)
    (h : Unw.forget x = (z >>= fun c => .ok ((), c))) : (temp (x.1, x.2.1) >>= fun v => .ok (f v)) = (z >>= fun c => .ok (f c.1)) := by
  rcases x with ⟨_ | _ | _ | _, v, t⟩
  · cases z with
    | ok c => simp only [Unw.forget, Res.bind_ok, Res.ok.injEq, Prod.mk.injEq, true_and] at h; subst h; rfl
    | _ => cases h
  all_goals
    cases z with
    | ok c => cases h
    | _ => first | rfl | cases h

theorem tMulAdd_total (f : S → S) (v a b : Dense S) (d : Option Nat) :
    DenseAlg.mulAddInto C p N v a b f d = temp (tMulAdd (.ofCoeff C) p N (fun x => .ok (f x)) v a b d) := by
  have h1 := (C95_outcome C p N (fun (t : Unit) x => (.ok (f x), t)) v a b d ()).1
  have h2 := (C91_pure C p N f v a b d ()).1
  have h3 : DenseAlg.mulAddIntoS C p N (fun (t : Unit) x => Unw.forget ((.ok (f x), t) : Res S × Unit)) v a b d () =
    (DenseAlg.mulAddInto C p N v a b f d >>= fun r => .ok (r, ())) := h2
  rw [h3, ← C100_product_total p N C] at h1
  have h4 := temp_forget _ _ id h1
  unfold tMulAdd
  revert h4
  simp only [id]
  cases temp (_, _) <;> cases DenseAlg.mulAddInto C p N v a b f d <;> intro h4 <;> first | rfl | exact h4.symm

theorem tMulInto_total (f : S → S) (v b : Dense S) (d : Option Nat) :
    DenseAlg.mulInto C p N v b f d = temp (tMulInto (.ofCoeff C) p N (fun x => .ok (f x)) v b d) := by
  have h1 := (C95_outcome C p N (fun (t : Unit) x => (.ok (f x), t)) v v b d ()).2
  have h2 := (C91_pure C p N f v v b d ()).2
  have h3 : DenseAlg.mulIntoS C p N (fun (t : Unit) x => Unw.forget ((.ok (f x), t) : Res S × Unit)) v b d () =
    (DenseAlg.mulInto C p N v b f d >>= fun r => .ok (r, ())) := h2
  rw [h3, ← C100_inplace_total p N C] at h1
  have h4 := temp_forget _ _ id h1
  unfold tMulInto
  revert h4
  simp only [id]
  cases temp (_, _) <;> cases DenseAlg.mulInto C p N v b f d <;> intro h4 <;> first | rfl | exact h4.symm

theorem dFromKeyScalar_total {K : Type} (B : Basis K) (k : K) (s : S) : Dense.fromKeyScalar C B k s = dFromKeyScalar (.ofCoeff C) B k s := rfl

theorem dClear_total (d : Dense S) : Dense.clear C d = .ok (dClear (.ofCoeff C) d) := by
  unfold Dense.clear dClear
  cases d.mode <;> rfl

end
end Fallible

section
open Fallible
variable {S R : Type} (C : Coeff S R) (p : Profile) (N : Nat)

/-- C103.  With coefficients that never panic, the methods of `Model/FallibleAlgebra.lean` are those of the other claims. -/
theorem C103_total (v a b : Dense S) (s : S) (r : R) (d : Option Nat) (m : Nat) :
    (DenseAlg.ops C p N).multiply a b d = tMultiply (.ofCoeff C) p N a b d ∧
    (DenseAlg.ops C p N).multiplyInplace a b d = temp (tMultiplyInplace (.ofCoeff C) p N a b d) ∧
    (DenseAlg.ops C p N).addMul v a b d = temp (tAddMul (.ofCoeff C) p N v a b d) ∧
    (DenseAlg.ops C p N).subMul C v a b d = temp (tSubMul (.ofCoeff C) p N v a b d) ∧
    (DenseAlg.ops C p N).commutator C a b d = tCommutator (.ofCoeff C) p N a b d ∧
    (DenseAlg.ops C p N).mulScalLprod C a b s d = temp (tMulScalLprod (.ofCoeff C) p N a b s d) ∧
    (DenseAlg.ops C p N).mulScalRprod C a b s d = temp (tMulScalRprod (.ofCoeff C) p N a b s d) ∧
    (DenseAlg.ops C p N).mulRatLdiv C a b r d = temp (tMulRatLdiv (.ofCoeff C) p N a b r d) ∧
    (DenseAlg.ops C p N).mulRatRdiv C a b s d = temp (tMulRatRdiv (.ofCoeff C) p N a b s d) ∧
    FreeTensor.exp C (DenseAlg.ops C p N) m a = tExp (.ofCoeff C) p N (fun i => .ok (C.fromDegree i)) m a ∧
    FreeTensor.fmexp p C (DenseAlg.ops C p N) m v a = tFmexp (.ofCoeff C) p N (fun i => .ok (C.fromDegree i)) m v a ∧
    FreeTensor.log C (DenseAlg.ops C p N) m a = tLog (.ofCoeff C) p N (fun i => .ok (C.ratFromDegree i)) m a := by
  have hA : ∀ d o : Dense S, Dense.addInplace C d o = temp (dAdd (.ofCoeff C) d o) := fun d o =>
    temp_eq (C100_dense_total C d o s r).1 (C100_dense_total C d o s r).2.1
  have hM : ∀ (v x : Dense S) (s : S) (d : Option Nat), (DenseAlg.ops C p N).mulRatRdiv C v x s d = temp (tMulRatRdiv (.ofCoeff C) p N v x s d) :=
    fun v x s d => tMulInto_total C p N (fun y => C.mul y s) v x d
  have hmul : ∀ (a b : Dense S) d, (DenseAlg.ops C p N).multiply a b d = tMultiply (.ofCoeff C) p N a b d := fun a b d => tMulAdd_total C p N id .new a b d
  refine ⟨hmul a b d, tMulInto_total C p N id a b d, tMulAdd_total C p N id v a b d, tMulAdd_total C p N C.uminus v a b d, ?_,
    tMulInto_total C p N (fun x => C.mul s x) a b d, hM a b s d, tMulInto_total C p N (fun x => C.div x r) a b d, hM a b s d, ?_, ?_, ?_⟩
  · show (DenseAlg.mulAddInto C p N .new a b id d >>= fun w => DenseAlg.mulAddInto C p N w b a C.uminus d) = _
    rw [tMulAdd_total]
    unfold tCommutator
    congr 1
    funext w
    exact tMulAdd_total C p N C.uminus w b a d
  · have hstep : FreeTensor.expStep C (DenseAlg.ops C p N) m = tExpStep (.ofCoeff C) p N (fun i => .ok (C.fromDegree i)) m := by
      funext x t w i
      unfold FreeTensor.expStep tExpStep
      rw [hM, Res.bind_ok]
      congr 1
      funext w
      exact hA w t
    unfold FreeTensor.exp tExp
    rw [hstep]
    rfl
  · have hstep : FreeTensor.fmexpStep p C (DenseAlg.ops C p N) m = tFmexpStep (.ofCoeff C) p N (fun i => .ok (C.fromDegree i)) m := by
      funext x t w i
      unfold FreeTensor.fmexpStep tFmexpStep
      rw [Res.bind_ok]
      congr 1
      funext d
      congr 1
      funext d
      rw [hM]
      congr 1
      funext w
      exact hA w t
    unfold FreeTensor.fmexp tFmexp
    rw [hstep]
    rfl
  · have hstep : FreeTensor.logStep C (DenseAlg.ops C p N) m = tLogStep (.ofCoeff C) p N (fun i => .ok (C.ratFromDegree i)) m := by
      funext x t w i
      have h1 := (C101_dense_total C (tensorBasis p N) w t s (C.ratFromDegree i) TensorKey.new []).2.2.2.2.2.2.2.2.2.2.2
      have h2 : (DenseAlg.ops C p N).addScalarRdivide w t (C.ratFromDegree i) = temp (dAddDiv (.ofCoeff C) w t (C.ratFromDegree i)) := h1.1
      have h3 : (DenseAlg.ops C p N).subScalarRdivide w t (C.ratFromDegree i) = temp (dSubDiv (.ofCoeff C) w t (C.ratFromDegree i)) := h1.2.2.1
      unfold FreeTensor.logStep tLogStep
      rw [h2, h3, Res.bind_ok]
      by_cases h : i % 2 = 0
      · simp only [if_pos h]
        congr 1
        funext w
        rw [hmul]
      · simp only [if_neg h]
        congr 1
        funext w
        rw [hmul]
    unfold FreeTensor.log tLog
    rw [hstep]
    rfl

end

/-! ## What returns is exact -/

namespace Fallible

section
variable {K S S' R R' : Type} {F : FCoeff S R} {φ : S → S'} {P : R → R' → Prop} {C : Coeff S' R'}

theorem img_dense (φ : S → S') (a : Dense S) : DRel (Img φ) a (a.map φ) := (dRel_img ..).2 rfl

theorem img_sparse (φ : S → S') (a : Sparse K S) : SRel (Img φ) a (a.map φ) := (sRel_img ..).2 rfl

end
end Fallible

section
open Fallible
variable {K S S' R R' : Type} {F : FCoeff S R} {φ : S → S'} {P : R → R' → Prop} {C : Coeff S' R'} (p : Profile) (N : Nat)

/-- C103, every arithmetic method of dense vectors, over any basis: if it returns, the exact method applied to the exact vectors returns the exact vector. -/
theorem C103_dense (B : Basis K) (hF : F.ExactFor φ P C) (a b : Dense S) (s : S) (r : R) (r' : R') (hr : P r r') (k : K) (items : List (K × S)) :
    ReturnsAs F.OnlyPanics (Dense.map φ) (temp (dAdd F a b)) ((Dense.ops C B).addInplace (a.map φ) (b.map φ)) ∧
    ReturnsAs F.OnlyPanics (Dense.map φ) (temp (dSub F a b)) ((Dense.ops C B).subInplace (a.map φ) (b.map φ)) ∧
    ReturnsAs F.OnlyPanics (Dense.map φ) (temp (dMul F a s)) ((Dense.ops C B).scalarLmultiplyInplace (a.map φ) (φ s)) ∧
    ReturnsAs F.OnlyPanics (Dense.map φ) (temp (dDiv F a r)) ((Dense.ops C B).scalarRdivideInplace (a.map φ) r') ∧
    ReturnsAs F.OnlyPanics (Dense.map φ) (temp (dUminus F a)) ((Dense.ops C B).uminusInplace (a.map φ)) ∧
    ReturnsAs F.OnlyPanics (Dense.map φ) (dAddNew F a b) ((Dense.ops C B).add (a.map φ) (b.map φ)) ∧
    ReturnsAs F.OnlyPanics (Dense.map φ) (dSubNew F a b) ((Dense.ops C B).sub (a.map φ) (b.map φ)) ∧
    ReturnsAs F.OnlyPanics (Dense.map φ) (dMulNew F a s) ((Dense.ops C B).scalarLmultiply (a.map φ) (φ s)) ∧
    ReturnsAs F.OnlyPanics (Dense.map φ) (dDivNew F a r) ((Dense.ops C B).scalarRdivide (a.map φ) r') ∧
    ReturnsAs F.OnlyPanics (Dense.map φ) (dUminusNew F a) ((Dense.ops C B).uminus (a.map φ)) ∧
    ReturnsAs F.OnlyPanics (Dense.map φ) (temp (dAddMul F a b s)) ((Dense.ops C B).addScalarLmultiply (a.map φ) (b.map φ) (φ s)) ∧
    ReturnsAs F.OnlyPanics (Dense.map φ) (temp (dSubMul F a b s)) ((Dense.ops C B).subScalarLmultiply (a.map φ) (b.map φ) (φ s)) ∧
    ReturnsAs F.OnlyPanics (Dense.map φ) (temp (dAddDiv F a b r)) ((Dense.ops C B).addScalarRdivide (a.map φ) (b.map φ) r') ∧
    ReturnsAs F.OnlyPanics (Dense.map φ) (temp (dSubDiv F a b r)) ((Dense.ops C B).subScalarRdivide (a.map φ) (b.map φ) r') ∧
    ReturnsAs F.OnlyPanics (Dense.map φ) (temp (keyAdd F (denseKeys B) k s a)) (KeyExt.addScalarMultiply C (Dense.ops C B) (a.map φ) k (φ s)) ∧
    ReturnsAs F.OnlyPanics (Dense.map φ) (temp (keySub F (denseKeys B) k s a)) (KeyExt.subScalarMultiply C (Dense.ops C B) (a.map φ) k (φ s)) ∧
    ReturnsAs F.OnlyPanics (Dense.map φ) (temp (keyAddDiv F (denseKeys B) k r a)) (KeyExt.addScalarDivide C (Dense.ops C B) (a.map φ) k r') ∧
    ReturnsAs F.OnlyPanics (Dense.map φ) (temp (keySubDiv F (denseKeys B) k r a)) (KeyExt.subScalarDivide C (Dense.ops C B) (a.map φ) k r') ∧
    ReturnsAs F.OnlyPanics (Dense.map φ) (fromIteratorF F B items) ((Dense.ops C B).fromIterator (items.map fun e => (e.1, φ e.2))) := by
  have h := exact_ref hF
  have ha := img_dense φ a
  have hb := img_dense φ b
  have hs : Img φ s (φ s) := rfl
  have ha' := Dense.ofVec_rel ha.data
  obtain ⟨a1, a2, b1, b2, c1, c2, d1, d2, e1, e2⟩ := C100_dense_total C (a.map φ) (b.map φ) (φ s) r'
  obtain ⟨t1, t2, t3, -, t5, -, t7, t8, -, t10, -, t12, -, t14, -, t16, t17, t18, t19, t20⟩ :=
    C101_dense_total C B (a.map φ) (b.map φ) (φ s) r' k (items.map fun e => (e.1, φ e.2))
  exact ⟨dense_gives (OutRef.temp (dAdd_ref h ha hb)) (temp_eq a1 a2), dense_gives (OutRef.temp (dSub_ref h ha hb)) (temp_eq b1 b2),
    dense_gives (OutRef.temp (dMul_ref h ha hs)) (temp_eq c1 c2), dense_gives (OutRef.temp (dDiv_ref h ha hr)) (temp_eq d1 d2),
    dense_gives (OutRef.temp (dUminus_ref h ha)) (temp_eq e1 e2), dense_gives (OutRef.temp (dAdd_ref h ha' hb)) t1,
    dense_gives (OutRef.temp (dSub_ref h ha' hb)) t2, dense_gives (OutRef.temp (dMul_ref h ha' hs)) t3, dense_gives (OutRef.temp (dDiv_ref h ha' hr)) t5,
    dense_gives (OutRef.temp (dUminus_ref h ha')) t7, dense_gives (OutRef.temp (dAddMul_ref h ha hb hs)) t8,
    dense_gives (OutRef.temp (dSubMul_ref h ha hb hs)) t10, dense_gives (OutRef.temp (dAddDiv_ref h ha hb hr)) t12,
    dense_gives (OutRef.temp (dSubDiv_ref h ha hb hr)) t14,
    dense_gives (OutRef.temp ((keyAdd_ref h (denseKeys_ref B) k hs).out ha)) t16, dense_gives (OutRef.temp ((keySub_ref h (denseKeys_ref B) k hs).out ha)) t17,
    dense_gives (OutRef.temp ((keyAddDiv_ref h (denseKeys_ref B) k hr).out ha)) t18,
    dense_gives (OutRef.temp ((keySubDiv_ref h (denseKeys_ref B) k hr).out ha)) t19,
    dense_gives (fromIteratorF_ref h B ((pairs_img ..).2 rfl)) t20⟩

theorem noDup_map {a : Sparse K S} (h : Sparse.NoDup a.entries) (φ : S → S') : Sparse.NoDup (a.map φ).entries := by
  unfold Sparse.NoDup Sparse.map at *
  simpa [List.map_map, Function.comp_def] using h

/-- C103, every arithmetic method of sparse vectors. -/
theorem C103_sparse [DecidableEq K] (hF : F.ExactFor φ P C) (a b : Sparse K S) (hn : Sparse.NoDup a.entries) (s : S) (r : R) (r' : R') (hr : P r r') (k : K) :
    ReturnsAs F.OnlyPanics (Sparse.map φ) (temp (sAdd F a b)) ((Sparse.ops C).addInplace (a.map φ) (b.map φ)) ∧
    ReturnsAs F.OnlyPanics (Sparse.map φ) (temp (sSub F a b)) ((Sparse.ops C).subInplace (a.map φ) (b.map φ)) ∧
    ReturnsAs F.OnlyPanics (Sparse.map φ) (temp (sMul F a s)) ((Sparse.ops C).scalarLmultiplyInplace (a.map φ) (φ s)) ∧
    ReturnsAs F.OnlyPanics (Sparse.map φ) (temp (sDiv F a r)) ((Sparse.ops C).scalarRdivideInplace (a.map φ) r') ∧
    ReturnsAs F.OnlyPanics (Sparse.map φ) (temp (sUminus F a)) ((Sparse.ops C).uminusInplace (a.map φ)) ∧
    ReturnsAs F.OnlyPanics (Sparse.map φ) (temp (keyAdd F sparseKeys k s a)) (KeyExt.addScalarMultiply C (Sparse.ops C) (a.map φ) k (φ s)) ∧
    ReturnsAs F.OnlyPanics (Sparse.map φ) (temp (keySub F sparseKeys k s a)) (KeyExt.subScalarMultiply C (Sparse.ops C) (a.map φ) k (φ s)) ∧
    ReturnsAs F.OnlyPanics (Sparse.map φ) (temp (keyAddDiv F sparseKeys k r a)) (KeyExt.addScalarDivide C (Sparse.ops C) (a.map φ) k r') ∧
    ReturnsAs F.OnlyPanics (Sparse.map φ) (temp (keySubDiv F sparseKeys k r a)) (KeyExt.subScalarDivide C (Sparse.ops C) (a.map φ) k r') := by
  have h := exact_ref hF
  have ha := img_sparse φ a
  have hb := img_sparse φ b
  have hs : Img φ s (φ s) := rfl
  have hn' := noDup_map hn φ
  obtain ⟨a1, a2, b1, b2, c1, c2, d1, d2, e1, e2⟩ := C100_sparse_total C (a.map φ) (b.map φ) hn' (φ s) r'
  obtain ⟨t1, t2, t3, t4⟩ := C101_sparse_total C (a.map φ) hn' (φ s) r' k
  exact ⟨sparse_gives (OutRef.temp (sAdd_ref h ha hb)) (temp_eq a1 a2), sparse_gives (OutRef.temp (sSub_ref h ha hb)) (temp_eq b1 b2),
    sparse_gives (OutRef.temp (sMul_ref h ha hs)) (temp_eq c1 c2), sparse_gives (OutRef.temp (sDiv_ref h ha hr)) (temp_eq d1 d2),
    sparse_gives (OutRef.temp (sUminus_ref h ha)) (temp_eq e1 e2),
    sparse_gives (OutRef.temp ((keyAdd_ref h sparseKeys_ref k hs).out ha)) t1, sparse_gives (OutRef.temp ((keySub_ref h sparseKeys_ref k hs).out ha)) t2,
    sparse_gives (OutRef.temp ((keyAddDiv_ref h sparseKeys_ref k hr).out ha)) t3,
    sparse_gives (OutRef.temp ((keySubDiv_ref h sparseKeys_ref k hr).out ha)) t4⟩

/-- C103, every method of `Algebra` and `FreeTensor` of dense tensors, for all operands and truncation degrees. -/
theorem C103_algebra (hF : F.ExactFor φ P C) (v a b : Dense S) (s : S) (r : R) (r' : R') (hr : P r r') (d : Option Nat) (m : Nat) (deg : Nat → Res S)
    (hd : ∀ i x, deg i = .ok x → φ x = C.fromDegree i) (rat : Nat → Res R) (ht : ∀ i x, rat i = .ok x → P x (C.ratFromDegree i)) :
    ReturnsAs F.OnlyPanics (Dense.map φ) (tMultiply F p N a b d) ((DenseAlg.ops C p N).multiply (a.map φ) (b.map φ) d) ∧
    ReturnsAs F.OnlyPanics (Dense.map φ) (temp (tMultiplyInplace F p N a b d)) ((DenseAlg.ops C p N).multiplyInplace (a.map φ) (b.map φ) d) ∧
    ReturnsAs F.OnlyPanics (Dense.map φ) (temp (tAddMul F p N v a b d)) ((DenseAlg.ops C p N).addMul (v.map φ) (a.map φ) (b.map φ) d) ∧
    ReturnsAs F.OnlyPanics (Dense.map φ) (temp (tSubMul F p N v a b d)) ((DenseAlg.ops C p N).subMul C (v.map φ) (a.map φ) (b.map φ) d) ∧
    ReturnsAs F.OnlyPanics (Dense.map φ) (tCommutator F p N a b d) ((DenseAlg.ops C p N).commutator C (a.map φ) (b.map φ) d) ∧
    ReturnsAs F.OnlyPanics (Dense.map φ) (temp (tMulScalLprod F p N a b s d)) ((DenseAlg.ops C p N).mulScalLprod C (a.map φ) (b.map φ) (φ s) d) ∧
    ReturnsAs F.OnlyPanics (Dense.map φ) (temp (tMulScalRprod F p N a b s d)) ((DenseAlg.ops C p N).mulScalRprod C (a.map φ) (b.map φ) (φ s) d) ∧
    ReturnsAs F.OnlyPanics (Dense.map φ) (temp (tMulRatLdiv F p N a b r d)) ((DenseAlg.ops C p N).mulRatLdiv C (a.map φ) (b.map φ) r' d) ∧
    ReturnsAs F.OnlyPanics (Dense.map φ) (temp (tMulRatRdiv F p N a b s d)) ((DenseAlg.ops C p N).mulRatRdiv C (a.map φ) (b.map φ) (φ s) d) ∧
    ReturnsAs (F.OnlyPanics ∧ ∀ i, (deg i).ReturnsOrPanics) (Dense.map φ) (tExp F p N deg m a) (FreeTensor.exp C (DenseAlg.ops C p N) m (a.map φ)) ∧
    ReturnsAs (F.OnlyPanics ∧ ∀ i, (deg i).ReturnsOrPanics) (Dense.map φ) (tFmexp F p N deg m v a) (FreeTensor.fmexp p C (DenseAlg.ops C p N) m (v.map φ) (a.map φ)) ∧
    ReturnsAs (F.OnlyPanics ∧ ∀ i, (rat i).ReturnsOrPanics) (Dense.map φ) (tLog F p N rat m a) (FreeTensor.log C (DenseAlg.ops C p N) m (a.map φ)) := by
  have h := exact_ref hF
  have ha := img_dense φ a
  have hb := img_dense φ b
  have hv := img_dense φ v
  have hs : Img φ s (φ s) := rfl
  have hd' : ∀ i, ResRef (F.OnlyPanics ∧ ∀ i, (deg i).ReturnsOrPanics) (Img φ) (deg i) (.ok (C.fromDegree i)) :=
    fun i => ref_of_image (fun x hx => (hd i x hx).symm) fun hz => hz.2 i
  have ht' : ∀ i, ResRef (F.OnlyPanics ∧ ∀ i, (rat i).ReturnsOrPanics) P (rat i) (.ok (C.ratFromDegree i)) := fun i => ref_of_image (ht i) fun hz => hz.2 i
  have hid : ∀ x x', Img φ x x' → ResRef F.OnlyPanics (Img φ) (.ok x) (.ok x') := fun _ _ h => .ok h
  obtain ⟨t1, t2, t3, t4, t5, t6, t7, t8, t9, t10, t11, t12⟩ := C103_total C p N (v.map φ) (a.map φ) (b.map φ) (φ s) r' d m
  exact ⟨dense_gives (tMultiply_ref p N h ha hb d) t1, dense_gives (OutRef.temp (tMulInto_ref p N h hid ha hb d)) t2,
    dense_gives (OutRef.temp (tMulAdd_ref p N h hid hv ha hb d)) t3, dense_gives (OutRef.temp (tMulAdd_ref p N h h.uminus hv ha hb d)) t4,
    dense_gives (tCommutator_ref p N h ha hb d) t5, dense_gives (OutRef.temp (tMulScalLprod_ref p N h ha hb hs d)) t6,
    dense_gives (OutRef.temp (tMulScalRprod_ref p N h ha hb hs d)) t7, dense_gives (OutRef.temp (tMulRatLdiv_ref p N h ha hb hr d)) t8,
    dense_gives (OutRef.temp (tMulScalRprod_ref p N h ha hb hs d)) t9, dense_gives (tExp_ref p N (frefMono h And.left) hd' m ha) t10,
    dense_gives (tFmexp_ref p N (frefMono h And.left) hd' m hv ha) t11, dense_gives (tLog_ref p N (frefMono h And.left) ht' m ha) t12⟩

end
end RA
