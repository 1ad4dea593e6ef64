import Verif.Proofs.CoeffRel
import Verif.Props.Program
import Verif.Props.SparseProgram
import Verif.Props.Expr
import Verif.SpecError
import Verif.Props.FloatAlgebra
import Mathlib.Algebra.Field.ZMod
import Mathlib.Data.Real.Basic

/-!
# Change of coefficients (C82)

The code touches coefficients through the operations of the coefficient type only.  So a map of coefficients that preserves the operations may be applied
before or after any computation, a set of coefficients closed under the operations is never left, and how a computation with dense tensors ends does not
depend on the coefficients at all.
-/

namespace RA
open Spec TensorKey TensorBasis DenseAlg

section
variable {S S' R R' : Type}

/-- The two statements differ in their coefficients only, and these are related. -/
inductive StmtRel (Q : S → S' → Prop) (P : R → R' → Prop) : PStmt S R → PStmt S' R' → Prop
  | zero (i) : StmtRel Q P (.zero i) (.zero i)
  | word (i w s s') : Q s s' → StmtRel Q P (.word i w s) (.word i w s')
  | terms (i items items') : List.Forall₂ (PairRel Q) items items' → StmtRel Q P (.terms i items) (.terms i items')
  | copy (i j) : StmtRel Q P (.copy i j) (.copy i j)
  | swap (i j) : StmtRel Q P (.swap i j) (.swap i j)
  | clear (i) : StmtRel Q P (.clear i) (.clear i)
  | modify (i w f f') : FRel Q f f' → StmtRel Q P (.modify i w f) (.modify i w f')
  | erase (i w) : StmtRel Q P (.erase i w) (.erase i w)
  | neg (i) : StmtRel Q P (.neg i) (.neg i)
  | add (i j) : StmtRel Q P (.add i j) (.add i j)
  | sub (i j) : StmtRel Q P (.sub i j) (.sub i j)
  | scale (i s s') : Q s s' → StmtRel Q P (.scale i s) (.scale i s')
  | div (i r r') : P r r' → StmtRel Q P (.div i r) (.div i r')
  | mul (i j k D) : StmtRel Q P (.mul i j k D) (.mul i j k D)
  | comm (i j k D) : StmtRel Q P (.comm i j k D) (.comm i j k D)
  | addMul (i j k D) : StmtRel Q P (.addMul i j k D) (.addMul i j k D)
  | subMul (i j k D) : StmtRel Q P (.subMul i j k D) (.subMul i j k D)

variable {Q : S → S' → Prop} {P : R → R' → Prop} {C : Coeff S R} {C' : Coeff S' R'} (p : Profile) (N : Nat)

theorem setReg_rel {V V' : Type} {r : V → V' → Prop} {σ : Nat → V} {σ' : Nat → V'} (h : ∀ j, r (σ j) (σ' j)) (i : Nat) {v : V} {v' : V'} (hv : r v v') :
    ∀ j, r (setReg σ i v j) (setReg σ' i v' j) := by
  intro j
  unfold setReg
  split
  · exact hv
  · exact h j

theorem keys_rel {items : List (List Nat × S)} {items' : List (List Nat × S')} (h : List.Forall₂ (PairRel Q) items items') :
    ResRel (List.Forall₂ (PairRel Q)) (items.mapM fun e => (fun k => (k, e.2)) <$> fromLetters p N e.1)
      (items'.mapM fun e => (fun k => (k, e.2)) <$> fromLetters p N e.1) := by
  refine .mapM h fun e e' he => ?_
  rw [← he.1]
  exact .map (r := Eq) (.refl _ fun _ => rfl) fun a b hab => ⟨hab, he.2⟩

theorem commutator_rel (hC : CoeffRel Q P C C') {a b : Dense S} {a' b' : Dense S'} (ha : DRel Q a a') (hb : DRel Q b b') (d : Option Nat) :
    ResRel (DRel Q) ((DenseAlg.ops C p N).commutator C a b d) ((DenseAlg.ops C' p N).commutator C' a' b' d) :=
  .bind (mulAddInto_rel p N hC (func := id) (func' := id) (fun _ _ h => h) Dense.new_rel ha hb d) fun _ _ h =>
    mulAddInto_rel p N hC hC.uminus h hb ha d

theorem runStmt_rel (hC : CoeffRel Q P C C') {σ : Nat → Dense S} {σ' : Nat → Dense S'} (h : ∀ i, DRel Q (σ i) (σ' i)) {st : PStmt S R} {st' : PStmt S' R'}
    (hst : StmtRel Q P st st') : ResRel (fun τ τ' => ∀ i, DRel Q (τ i) (τ' i)) (runStmt C p N σ st) (runStmt C' p N σ' st') := by
  have hid : FRel Q (id : S → S) (id : S' → S') := fun _ _ h => h
  cases hst with
  | zero i => exact setReg_rel h i Dense.new_rel
  | word i w s s' hs => exact .bind_eq fun k => .bind (Dense.fromKeyScalar_rel _ hC k hs) fun _ _ hv => setReg_rel h i hv
  | terms i l l' hl => exact .bind (keys_rel p N hl) fun _ _ hk => .bind (Dense.fromIterator_rel _ hC hk) fun _ _ hv => setReg_rel h i hv
  | copy i j => exact .bind (Dense.toOwned_rel (h j)) fun _ _ hv => setReg_rel h i hv
  | swap i j => exact .bind (Dense.swap_rel (h i) (h j)) fun _ _ hv => setReg_rel (setReg_rel h i hv.1) j hv.2
  | clear i => exact .bind (Dense.clear_rel hC (h i)) fun _ _ hv => setReg_rel h i hv
  | modify i w f f' hf => exact .bind_eq fun k => .bind (Dense.getMut_rel _ (h i) k hf) fun _ _ hv => setReg_rel h i hv.2
  | erase i w => exact .bind_eq fun k => .bind (Dense.erase_rel _ hC (h i) k) fun _ _ hv => setReg_rel h i hv
  | neg i => exact .bind (Dense.uminusInplace_rel hC (h i)) fun _ _ hv => setReg_rel h i hv
  | add i j => exact .bind (Dense.addInplace_rel hC (h i) (h j)) fun _ _ hv => setReg_rel h i hv
  | sub i j => exact .bind (Dense.subInplace_rel hC (h i) (h j)) fun _ _ hv => setReg_rel h i hv
  | scale i s s' hs => exact .bind (Dense.scalarLmultiplyInplace_rel hC (h i) hs) fun _ _ hv => setReg_rel h i hv
  | div i r r' hr => exact .bind (Dense.scalarRdivideInplace_rel hC (h i) hr) fun _ _ hv => setReg_rel h i hv
  | mul i j k D => exact .bind (mulAddInto_rel p N hC hid Dense.new_rel (h j) (h k) _) fun _ _ hv => setReg_rel h i hv
  | comm i j k D => exact .bind (commutator_rel p N hC (h j) (h k) _) fun _ _ hv => setReg_rel h i hv
  | addMul i j k D => exact .bind (mulAddInto_rel p N hC hid (h i) (h j) (h k) _) fun _ _ hv => setReg_rel h i hv
  | subMul i j k D => exact .bind (mulAddInto_rel p N hC hC.uminus (h i) (h j) (h k) _) fun _ _ hv => setReg_rel h i hv

theorem runProg_rel (hC : CoeffRel Q P C C') {prog : List (PStmt S R)} {prog' : List (PStmt S' R')} (h : List.Forall₂ (StmtRel Q P) prog prog') :
    ResRel (fun σ σ' => ∀ i, DRel Q (σ i) (σ' i)) (runProg C p N prog) (runProg C' p N prog') :=
  .foldlM h (fun _ _ _ _ hσ hst => runStmt_rel p N hC hσ hst) fun _ => Dense.new_rel

theorem runSparseStmt_rel (hC : CoeffRel Q P C C') (hE : EqRel Q C C') {σ : Nat → Sparse TensorKey S} {σ' : Nat → Sparse TensorKey S'}
    (h : ∀ i, SRel Q (σ i) (σ' i)) {st : PStmt S R} {st' : PStmt S' R'} (hst : StmtRel Q P st st') :
    ResRel (fun τ τ' => ∀ i, SRel Q (τ i) (τ' i)) (runSparseStmt C p N σ st) (runSparseStmt C' p N σ' st') := by
  cases hst with
  | zero i => exact setReg_rel h i .nil
  | word i w s s' hs => exact .bind_eq fun k => setReg_rel h i (r := SRel Q) (Sparse.hmInsert_rel .nil k hs)
  | terms i l l' hl => exact .bind (keys_rel p N hl) fun _ _ hk => .bind (Sparse.fromIterator_rel hk) fun _ _ hv => setReg_rel h i hv
  | copy i j => trivial
  | swap i j => trivial
  | clear i => exact setReg_rel h i .nil
  | modify i w f f' hf => exact .bind_eq fun k => .bind (Sparse.getMut_rel (h i) k hf) fun _ _ hv => setReg_rel h i hv.2
  | erase i w => exact .bind_eq fun k => trivial
  | neg i => exact .bind (Sparse.uminusInplace_rel hC (h i)) fun _ _ hv => setReg_rel h i hv
  | add i j => exact .bind (Sparse.addInplace_rel hC hE (h i) (h j)) fun _ _ hv => setReg_rel h i hv
  | sub i j => exact .bind (Sparse.subInplace_rel hC hE (h i) (h j)) fun _ _ hv => setReg_rel h i hv
  | scale i s s' hs => exact .bind (Sparse.scalarLmultiplyInplace_rel hC hE (h i) hs) fun _ _ hv => setReg_rel h i hv
  | div i r r' hr => exact .bind (Sparse.scalarRdivideInplace_rel hC (h i) hr) fun _ _ hv => setReg_rel h i hv
  | _ => trivial

theorem runSparseProg_rel (hC : CoeffRel Q P C C') (hE : EqRel Q C C') {prog : List (PStmt S R)} {prog' : List (PStmt S' R')}
    (h : List.Forall₂ (StmtRel Q P) prog prog') :
    ResRel (fun σ σ' => ∀ i, SRel Q (σ i) (σ' i)) (runSparseProg C p N prog) (runSparseProg C' p N prog') :=
  .foldlM h (fun _ _ _ _ hσ hst => runSparseStmt_rel p N hC hE hσ hst) fun _ => .nil

theorem runExpr_rel (hC : CoeffRel Q P C C') (φ : S → S') (D : Nat) (e : TExpr S) (he : e.Scalars fun s => Q s (φ s)) :
    ResRel (DRel Q) (runExpr C p N D e) (runExpr C' p N D (e.map φ)) := by
  have hid : FRel Q (id : S → S) (id : S' → S') := fun _ _ h => h
  induction e with
  | term w s => exact .bind_eq fun k => Dense.fromKeyScalar_rel _ hC k he
  | add a b iha ihb =>
    exact .bind (iha he.1) fun _ _ h1 => .bind (ihb he.2) fun _ _ h2 => .bind (Dense.toOwned_rel h1) fun _ _ h => Dense.addInplace_rel hC h h2
  | sub a b iha ihb =>
    exact .bind (iha he.1) fun _ _ h1 => .bind (ihb he.2) fun _ _ h2 => .bind (Dense.toOwned_rel h1) fun _ _ h => Dense.subInplace_rel hC h h2
  | neg a iha => exact .bind (iha he) fun _ _ h1 => .bind (Dense.toOwned_rel h1) fun _ _ h => Dense.uminusInplace_rel hC h
  | smul s a iha => exact .bind (iha he.2) fun _ _ h1 => .bind (Dense.toOwned_rel h1) fun _ _ h => Dense.scalarLmultiplyInplace_rel hC h he.1
  | mul a b iha ihb => exact .bind (iha he.1) fun _ _ h1 => .bind (ihb he.2) fun _ _ h2 => mulAddInto_rel p N hC hid Dense.new_rel h1 h2 _
  | comm a b iha ihb => exact .bind (iha he.1) fun _ _ h1 => .bind (ihb he.2) fun _ _ h2 => commutator_rel p N hC h1 h2 _

/-! ## Maps of coefficients -/

/-- The image of a dense vector. -/
def Dense.map (φ : S → S') (d : Dense S) : Dense S' := ⟨d.mode, d.data.map φ, d.lent.map φ⟩

/-- The image of a sparse vector. -/
def Sparse.map {K : Type} (φ : S → S') (a : Sparse K S) : Sparse K S' := ⟨a.entries.map fun e => (e.1, φ e.2)⟩

/-- The map `φ` preserves the operations of the coefficient types.  `P r r'` holds for the divisors for which division by `r` becomes division by `r'`. -/
structure CoeffMap (φ : S → S') (P : R → R' → Prop) (C : Coeff S R) (C' : Coeff S' R') : Prop where
  zero : φ C.zero = C'.zero
  one : φ C.one = C'.one
  mone : φ C.mone = C'.mone
  uminus : ∀ x, φ (C.uminus x) = C'.uminus (φ x)
  add : ∀ x y, φ (C.add x y) = C'.add (φ x) (φ y)
  sub : ∀ x y, φ (C.sub x y) = C'.sub (φ x) (φ y)
  mul : ∀ x y, φ (C.mul x y) = C'.mul (φ x) (φ y)
  div : ∀ x r r', P r r' → φ (C.div x r) = C'.div (φ x) r'

/-- The map also preserves the answers of comparisons. -/
def CoeffMap.Faithful (φ : S → S') (C : Coeff S R) (C' : Coeff S' R') : Prop := ∀ x y, C'.eq (φ x) (φ y) = C.eq x y

/-- Being the image under `φ`. -/
abbrev Img {α β : Type} (φ : α → β) (x : α) (y : β) : Prop := y = φ x

theorem CoeffMap.rel {φ : S → S'} (h : CoeffMap φ P C C') : CoeffRel (Img φ) P C C' where
  zero := h.zero.symm
  one := h.one.symm
  mone := h.mone.symm
  uminus := by rintro x _ rfl; exact (h.uminus x).symm
  add := by rintro x _ y _ rfl rfl; exact (h.add x y).symm
  sub := by rintro x _ y _ rfl rfl; exact (h.sub x y).symm
  mul := by rintro x _ y _ rfl rfl; exact (h.mul x y).symm
  div := by rintro x _ r r' rfl hr; exact (h.div x r r' hr).symm

theorem CoeffMap.Faithful.rel {φ : S → S'} (h : CoeffMap.Faithful φ C C') : EqRel (Img φ) C C' := by
  rintro x _ y _ rfl rfl
  exact (h x y).symm

theorem forall₂_img {α β : Type} (φ : α → β) (l : List α) (l' : List β) : List.Forall₂ (Img φ) l l' ↔ l' = l.map φ := by
  constructor
  · intro h
    induction h with
    | nil => rfl
    | cons hx _ ih => rw [List.map_cons, ih, hx]
  · rintro rfl
    induction l with
    | nil => exact .nil
    | cons x l ih => exact .cons rfl ih

theorem dRel_img (φ : S → S') (a : Dense S) (a' : Dense S') : DRel (Img φ) a a' ↔ a' = a.map φ := by
  constructor
  · rintro ⟨h1, h2, h3⟩
    rw [forall₂_img] at h2 h3
    cases a'
    simp only at h1 h2 h3
    subst h1 h2 h3
    rfl
  · rintro rfl
    exact ⟨rfl, (forall₂_img ..).2 rfl, (forall₂_img ..).2 rfl⟩

theorem pairs_img {K : Type} (φ : S → S') (l : List (K × S)) (l' : List (K × S')) :
    List.Forall₂ (PairRel (Img φ)) l l' ↔ l' = l.map fun e => (e.1, φ e.2) := by
  rw [← forall₂_img]
  have : PairRel (K := K) (Img φ) = Img fun e => (e.1, φ e.2) := by
    funext e e'
    apply propext
    rcases e with ⟨k, x⟩
    rcases e' with ⟨k', x'⟩
    simp [PairRel, Img, eq_comm]
  rw [this]

theorem sRel_img {K : Type} (φ : S → S') (a : Sparse K S) (a' : Sparse K S') : SRel (Img φ) a a' ↔ a' = a.map φ := by
  unfold SRel
  rw [pairs_img]
  cases a'
  simp [Sparse.map]

theorem resRel_img {α β : Type} {r : α → β → Prop} (g : α → β) (hr : ∀ a b, r a b → b = g a) {x : Res α} {y : Res β} (h : ResRel r x y) : y = g <$> x := by
  cases x <;> cases y <;> first | exact congrArg Res.ok (hr _ _ h) | rfl | exact h.elim

theorem dense_img {φ : S → S'} {x : Res (Dense S)} {y : Res (Dense S')} (h : ResRel (DRel (Img φ)) x y) : y = Dense.map φ <$> x :=
  resRel_img _ (fun _ _ => (dRel_img ..).1) h

theorem sparse_img {K : Type} {φ : S → S'} {x : Res (Sparse K S)} {y : Res (Sparse K S')} (h : ResRel (SRel (Img φ)) x y) : y = Sparse.map φ <$> x :=
  resRel_img _ (fun _ _ => (sRel_img ..).1) h

/-- C82, whole programs over dense tensors: running the image of a program is the same as taking the image of its result, whether it returns or not. -/
theorem C82_change_of_coefficients (φ : S → S') (hφ : CoeffMap φ P C C') (prog : List (PStmt S R)) (prog' : List (PStmt S' R'))
    (h : List.Forall₂ (StmtRel (Img φ) P) prog prog') : runProg C' p N prog' = (fun σ i => (σ i).map φ) <$> runProg C p N prog :=
  resRel_img _ (fun _ _ h => funext fun i => (dRel_img ..).1 (h i)) (runProg_rel p N hφ.rel h)

/-- C82, the same for programs over sparse vectors, for maps that preserve the answers of comparisons. -/
theorem C82_change_of_coefficients_sparse (φ : S → S') (hφ : CoeffMap φ P C C') (hE : CoeffMap.Faithful φ C C') (prog : List (PStmt S R))
    (prog' : List (PStmt S' R')) (h : List.Forall₂ (StmtRel (Img φ) P) prog prog') :
    runSparseProg C' p N prog' = (fun σ i => (σ i).map φ) <$> runSparseProg C p N prog :=
  resRel_img _ (fun _ _ h => funext fun i => (sRel_img ..).1 (h i)) (runSparseProg_rel p N hφ.rel hE.rel h)

theorem scalars_img (φ : S → S') (e : TExpr S) : e.Scalars fun s => Img φ s (φ s) := by
  induction e with
  | term w s => rfl
  | add a b iha ihb => exact ⟨iha, ihb⟩
  | sub a b iha ihb => exact ⟨iha, ihb⟩
  | neg a iha => exact iha
  | smul s a iha => exact ⟨rfl, iha⟩
  | mul a b iha ihb => exact ⟨iha, ihb⟩
  | comm a b iha ihb => exact ⟨iha, ihb⟩

/-- C82, nested expressions. -/
theorem C82_expressions (φ : S → S') (hφ : CoeffMap φ P C C') (D : Nat) (e : TExpr S) :
    runExpr C' p N D (e.map φ) = Dense.map φ <$> runExpr C p N D e := dense_img (runExpr_rel p N hφ.rel φ D e (scalars_img φ e))

/-- C82, every method of dense vectors over any basis. -/
theorem C82_dense {K : Type} (B : Basis K) (φ : S → S') (hφ : CoeffMap φ P C C') (a b : Dense S) (k : K) (items : List (K × S)) (s : S) (r : R) (r' : R')
    (hr : P r r') (f : S → S) (f' : S' → S') (hf : ∀ x, f' (φ x) = φ (f x)) :
    (Dense.ops C' B).fromKey k = Dense.map φ <$> (Dense.ops C B).fromKey k ∧
    (Dense.ops C' B).fromKeyScalar k (φ s) = Dense.map φ <$> (Dense.ops C B).fromKeyScalar k s ∧
    (Dense.ops C' B).fromIterator (items.map fun e => (e.1, φ e.2)) = Dense.map φ <$> (Dense.ops C B).fromIterator items ∧
    (Dense.ops C' B).toOwned (a.map φ) = Dense.map φ <$> (Dense.ops C B).toOwned a ∧
    (Dense.ops C' B).clear (a.map φ) = Dense.map φ <$> (Dense.ops C B).clear a ∧
    (Dense.ops C' B).get (a.map φ) k = Option.map φ <$> (Dense.ops C B).get a k ∧
    (Dense.ops C' B).getMut (a.map φ) k f' = (fun x => (x.1, x.2.map φ)) <$> (Dense.ops C B).getMut a k f ∧
    (Dense.ops C' B).insertSingle (a.map φ) k (φ s) = Dense.map φ <$> (Dense.ops C B).insertSingle a k s ∧
    (Dense.ops C' B).erase (a.map φ) k = Dense.map φ <$> (Dense.ops C B).erase a k ∧
    (Dense.ops C' B).uminus (a.map φ) = Dense.map φ <$> (Dense.ops C B).uminus a ∧
    (Dense.ops C' B).add (a.map φ) (b.map φ) = Dense.map φ <$> (Dense.ops C B).add a b ∧
    (Dense.ops C' B).sub (a.map φ) (b.map φ) = Dense.map φ <$> (Dense.ops C B).sub a b ∧
    (Dense.ops C' B).scalarLmultiply (a.map φ) (φ s) = Dense.map φ <$> (Dense.ops C B).scalarLmultiply a s ∧
    (Dense.ops C' B).scalarRmultiply (a.map φ) (φ s) = Dense.map φ <$> (Dense.ops C B).scalarRmultiply a s ∧
    (Dense.ops C' B).scalarRdivide (a.map φ) r' = Dense.map φ <$> (Dense.ops C B).scalarRdivide a r ∧
    (Dense.ops C' B).scalarLdivide (a.map φ) r' = Dense.map φ <$> (Dense.ops C B).scalarLdivide a r ∧
    (Dense.ops C' B).addScalarLmultiply (a.map φ) (b.map φ) (φ s) = Dense.map φ <$> (Dense.ops C B).addScalarLmultiply a b s ∧
    (Dense.ops C' B).subScalarLmultiply (a.map φ) (b.map φ) (φ s) = Dense.map φ <$> (Dense.ops C B).subScalarLmultiply a b s ∧
    (Dense.ops C' B).addScalarRdivide (a.map φ) (b.map φ) r' = Dense.map φ <$> (Dense.ops C B).addScalarRdivide a b r ∧
    (Dense.ops C' B).subScalarRdivide (a.map φ) (b.map φ) r' = Dense.map φ <$> (Dense.ops C B).subScalarRdivide a b r := by
  have hC := hφ.rel
  have ha : DRel (Img φ) a (a.map φ) := (dRel_img ..).2 rfl
  have hb : DRel (Img φ) b (b.map φ) := (dRel_img ..).2 rfl
  have hs : Img φ s (φ s) := rfl
  have hmul : ResRel (DRel (Img φ)) ((Dense.ops C B).scalarLmultiply b s) ((Dense.ops C' B).scalarLmultiply (b.map φ) (φ s)) :=
    .bind (Dense.toOwned_rel hb) fun _ _ h => Dense.scalarLmultiplyInplace_rel hC h hs
  have hdiv : ResRel (DRel (Img φ)) ((Dense.ops C B).scalarRdivide b r) ((Dense.ops C' B).scalarRdivide (b.map φ) r') :=
    .bind (Dense.toOwned_rel hb) fun _ _ h => Dense.scalarRdivideInplace_rel hC h hr
  refine ⟨dense_img (Dense.fromKey_rel B hC k), dense_img (Dense.fromKeyScalar_rel B hC k hs),
    dense_img (Dense.fromIterator_rel B hC ((pairs_img ..).2 rfl)), dense_img (Dense.toOwned_rel ha), dense_img (Dense.clear_rel hC ha), ?_, ?_,
    dense_img (Dense.insertSingle_rel B ha k s (φ s)), dense_img (Dense.erase_rel B hC ha k),
    dense_img (.bind (Dense.toOwned_rel ha) fun _ _ h => Dense.uminusInplace_rel hC h),
    dense_img (.bind (Dense.toOwned_rel ha) fun _ _ h => Dense.addInplace_rel hC h hb),
    dense_img (.bind (Dense.toOwned_rel ha) fun _ _ h => Dense.subInplace_rel hC h hb),
    dense_img (.bind (Dense.toOwned_rel ha) fun _ _ h => Dense.scalarLmultiplyInplace_rel hC h hs),
    dense_img (.bind (Dense.toOwned_rel ha) fun _ _ h => Dense.scalarLmultiplyInplace_rel hC h hs),
    dense_img (.bind (Dense.toOwned_rel ha) fun _ _ h => Dense.scalarRdivideInplace_rel hC h hr),
    dense_img (.bind (Dense.toOwned_rel ha) fun _ _ h => Dense.scalarRdivideInplace_rel hC h hr),
    dense_img (.bind hmul fun _ _ h => Dense.addInplace_rel hC ha h), dense_img (.bind hmul fun _ _ h => Dense.subInplace_rel hC ha h),
    dense_img (.bind hdiv fun _ _ h => Dense.addInplace_rel hC ha h), dense_img (.bind hdiv fun _ _ h => Dense.subInplace_rel hC ha h)⟩
  · exact resRel_img _ (fun x y h => by cases h with | none => rfl | some h => rw [h]; rfl) (Dense.get_rel B ha k)
  · refine resRel_img _ (fun x y h => ?_) (Dense.getMut_rel B ha k (f := f) (f' := f') ?_)
    · exact Prod.ext h.1.symm ((dRel_img ..).1 h.2)
    · rintro x _ rfl
      exact hf x

/-- C82, the products of dense tensors.  The in-place products compare the constant term of the second factor with zero and one, so they need maps that
preserve comparisons. -/
theorem C82_products (φ : S → S') (hφ : CoeffMap φ P C C') (v a b : Dense S) (s : S) (r : R) (r' : R') (hr : P r r') (d : Option Nat) :
    (DenseAlg.ops C' p N).multiply (a.map φ) (b.map φ) d = Dense.map φ <$> (DenseAlg.ops C p N).multiply a b d ∧
    (DenseAlg.ops C' p N).addMul (v.map φ) (a.map φ) (b.map φ) d = Dense.map φ <$> (DenseAlg.ops C p N).addMul v a b d ∧
    (DenseAlg.ops C' p N).subMul C' (v.map φ) (a.map φ) (b.map φ) d = Dense.map φ <$> (DenseAlg.ops C p N).subMul C v a b d ∧
    (DenseAlg.ops C' p N).commutator C' (a.map φ) (b.map φ) d = Dense.map φ <$> (DenseAlg.ops C p N).commutator C a b d ∧
    (CoeffMap.Faithful φ C C' →
      (DenseAlg.ops C' p N).multiplyInplace (a.map φ) (b.map φ) d = Dense.map φ <$> (DenseAlg.ops C p N).multiplyInplace a b d ∧
      (DenseAlg.ops C' p N).mulScalLprod C' (a.map φ) (b.map φ) (φ s) d = Dense.map φ <$> (DenseAlg.ops C p N).mulScalLprod C a b s d ∧
      (DenseAlg.ops C' p N).mulScalRprod C' (a.map φ) (b.map φ) (φ s) d = Dense.map φ <$> (DenseAlg.ops C p N).mulScalRprod C a b s d ∧
      (DenseAlg.ops C' p N).mulRatLdiv C' (a.map φ) (b.map φ) r' d = Dense.map φ <$> (DenseAlg.ops C p N).mulRatLdiv C a b r d ∧
      (DenseAlg.ops C' p N).mulRatRdiv C' (a.map φ) (b.map φ) (φ s) d = Dense.map φ <$> (DenseAlg.ops C p N).mulRatRdiv C a b s d) := by
  have hC := hφ.rel
  have hv : DRel (Img φ) v (v.map φ) := (dRel_img ..).2 rfl
  have ha : DRel (Img φ) a (a.map φ) := (dRel_img ..).2 rfl
  have hb : DRel (Img φ) b (b.map φ) := (dRel_img ..).2 rfl
  have hs : Img φ s (φ s) := rfl
  have hid : FRel (Img φ) (id : S → S) (id : S' → S') := fun _ _ h => h
  refine ⟨dense_img (mulAddInto_rel p N hC hid Dense.new_rel ha hb d), dense_img (mulAddInto_rel p N hC hid hv ha hb d),
    dense_img (mulAddInto_rel p N hC hC.uminus hv ha hb d), dense_img (commutator_rel p N hC ha hb d), fun hE => ?_⟩
  exact ⟨dense_img (mulInto_rel p N hC hid hE.rel ha hb d), dense_img (mulInto_rel p N hC (fun _ _ h => hC.mul _ _ _ _ hs h) hE.rel ha hb d),
    dense_img (mulInto_rel p N hC (fun _ _ h => hC.mul _ _ _ _ h hs) hE.rel ha hb d),
    dense_img (mulInto_rel p N hC (fun _ _ h => hC.div _ _ _ _ h hr) hE.rel ha hb d),
    dense_img (mulInto_rel p N hC (fun _ _ h => hC.mul _ _ _ _ h hs) hE.rel ha hb d)⟩

/-- C82, the exponential, fused exponential and logarithm of dense tensors (as they are, C39 to C41), whether they return or not. -/
theorem C82_exp_log (φ : S → S') (hφ : CoeffMap φ P C C') (hE : CoeffMap.Faithful φ C C') (hdeg : ∀ n, φ (C.fromDegree n) = C'.fromDegree n)
    (hrat : ∀ n, P (C.ratFromDegree n) (C'.ratFromDegree n)) (m : Nat) (v a : Dense S) :
    FreeTensor.exp C' (DenseAlg.ops C' p N) m (a.map φ) = Dense.map φ <$> FreeTensor.exp C (DenseAlg.ops C p N) m a ∧
    FreeTensor.fmexp p C' (DenseAlg.ops C' p N) m (v.map φ) (a.map φ) = Dense.map φ <$> FreeTensor.fmexp p C (DenseAlg.ops C p N) m v a ∧
    FreeTensor.log C' (DenseAlg.ops C' p N) m (a.map φ) = Dense.map φ <$> FreeTensor.log C (DenseAlg.ops C p N) m a := by
  have hC := hφ.rel
  have hv : DRel (Img φ) v (v.map φ) := (dRel_img ..).2 rfl
  have ha : DRel (Img φ) a (a.map φ) := (dRel_img ..).2 rfl
  have hid : FRel (Img φ) (id : S → S) (id : S' → S') := fun _ _ h => h
  have hz : FRel (Img φ) (fun _ : S => C.zero) (fun _ : S' => C'.zero) := fun _ _ _ => hC.zero
  have hprod : ∀ {x y : Dense S} {x' y' : Dense S'} (n : Nat) (d : Option Nat), DRel (Img φ) x x' → DRel (Img φ) y y' →
      ResRel (DRel (Img φ)) ((DenseAlg.ops C p N).mulRatRdiv C x y (C.fromDegree n) d) ((DenseAlg.ops C' p N).mulRatRdiv C' x' y' (C'.fromDegree n) d) :=
    fun n d hx hy => mulInto_rel p N hC (fun _ _ h => hC.mul _ _ _ _ h (hdeg n).symm) hE.rel hx hy d
  have hdiv : ∀ {y : Dense S} {y' : Dense S'} (n : Nat), DRel (Img φ) y y' →
      ResRel (DRel (Img φ)) ((DenseAlg.ops C p N).scalarRdivide y (C.ratFromDegree n)) ((DenseAlg.ops C' p N).scalarRdivide y' (C'.ratFromDegree n)) :=
    fun n hy => .bind (Dense.toOwned_rel hy) fun _ _ h => Dense.scalarRdivideInplace_rel hC h (hrat n)
  refine ⟨dense_img ?_, dense_img ?_, dense_img ?_⟩
  · unfold FreeTensor.exp
    refine .bind (Dense.fromKey_rel _ hC _) fun _ _ h1 => .bind (Dense.fromKey_rel _ hC _) fun _ _ h2 => .foldlM_same (fun _ _ n h => ?_) h2
    exact .bind (hprod n _ h ha) fun _ _ h => Dense.addInplace_rel hC h h1
  · unfold FreeTensor.fmexp
    refine .bind (Dense.toOwned_rel hv) fun _ _ h1 => .bind (Dense.toOwned_rel ha) fun _ _ h2 => .bind (Dense.getMut_rel _ h2 _ hz) fun x y h3 => ?_
    obtain ⟨x1, x2⟩ := x
    obtain ⟨y1, y2⟩ := y
    refine .foldlM_same (fun _ _ n h => ?_) hv
    exact .bind_eq fun _ => .bind_eq fun _ => .bind (hprod n _ h h3.2) fun _ _ h => Dense.addInplace_rel hC h h1
  · unfold FreeTensor.log
    refine .bind (Dense.fromKey_rel _ hC _) fun _ _ h1 => .bind (Dense.toOwned_rel ha) fun _ _ h2 => ?_
    refine ResRel.bind (Dense.getMut_rel _ h2 _ hz) fun x y h3 => ?_
    obtain ⟨x1, x2⟩ := x
    obtain ⟨y1, y2⟩ := y
    refine .foldlM_same (r := DRel (Img φ)) (fun a b n h => ?_) Dense.new_rel
    unfold FreeTensor.logStep
    have hend : ∀ {y : Dense S} {y' : Dense S'}, DRel (Img φ) y y' → ResRel (DRel (Img φ))
        (do let _ ← (DenseAlg.ops C p N).multiply y x2 (some m); return y) (do let _ ← (DenseAlg.ops C' p N).multiply y' y2 (some m); return y') :=
      fun hy => .bind (mulAddInto_rel p N hC hid Dense.new_rel hy h3.2 _) fun _ _ _ => hy
    dsimp only
    split
    · exact .bind (.bind (hdiv n h1) fun _ _ h' => Dense.subInplace_rel hC h h') fun _ _ h => hend h
    · exact .bind (.bind (hdiv n h1) fun _ _ h' => Dense.addInplace_rel hC h h') fun _ _ h => hend h

/-! ## Coefficients do not decide how a computation ends -/

/-- C82: two programs over dense tensors that differ in their coefficients only, even in their coefficient types, end the same way.  If they return, every
register has the same size in both. -/
theorem C82_outcome (C : Coeff S R) (C' : Coeff S' R') (prog : List (PStmt S R)) (prog' : List (PStmt S' R'))
    (h : List.Forall₂ (StmtRel (fun _ _ => True) fun _ _ => True) prog prog') :
    ResRel (fun σ σ' => ∀ i, (σ i).mode = (σ' i).mode ∧ (σ i).size = (σ' i).size) (runProg C p N prog) (runProg C' p N prog') := by
  have hC : CoeffRel (fun (_ : S) (_ : S') => True) (fun (_ : R) (_ : R') => True) C C' := by constructor <;> simp
  have := runProg_rel p N hC h
  revert this
  cases runProg C p N prog <;> cases runProg C' p N prog' <;> intro h <;> first | exact h | exact fun i => ⟨(h i).mode, Dense.size_rel (h i)⟩

theorem forall₂_true {l : List S} {l' : List S'} (h : l.length = l'.length) : List.Forall₂ (fun _ _ => True) l l' := by
  induction l generalizing l' with
  | nil => cases l' with
    | nil => exact .nil
    | cons _ _ => cases h
  | cons x l ih => cases l' with
    | nil => cases h
    | cons x' l' => exact .cons trivial (ih (Nat.succ.inj h))

/-- C82 for one product: whether it returns, panics or leaves the memory of its operands, and how long the result is, depends on the number of coefficients
of the operands only. -/
theorem C82_product_outcome (C : Coeff S R) (C' : Coeff S' R') (a b : Dense S) (a' b' : Dense S') (d : Option Nat) (ha : a.size = a'.size)
    (hb : b.size = b'.size) : ResRel (fun r r' => r.size = r'.size) ((DenseAlg.ops C p N).multiply a b d) ((DenseAlg.ops C' p N).multiply a' b' d) := by
  have hC : CoeffRel (fun (_ : S) (_ : S') => True) (fun (_ : R) (_ : R') => True) C C' := by constructor <;> simp
  have ha' : DRel (fun (_ : S) (_ : S') => True) (Dense.ofVec a.data) (Dense.ofVec a'.data) := Dense.ofVec_rel (forall₂_true ha)
  have hb' : DRel (fun (_ : S) (_ : S') => True) (Dense.ofVec b.data) (Dense.ofVec b'.data) := Dense.ofVec_rel (forall₂_true hb)
  have : ResRel (DRel fun _ _ => True) ((DenseAlg.ops C p N).multiply a b d) ((DenseAlg.ops C' p N).multiply a' b' d) :=
    mulAddInto_rel p N hC (func := id) (func' := id) (fun _ _ h => h) Dense.new_rel ha' hb' d
  revert this
  cases (DenseAlg.ops C p N).multiply a b d <;> cases (DenseAlg.ops C' p N).multiply a' b' d <;> intro h <;>
    first | exact h | exact Dense.size_rel h

/-! ## Sets of coefficients that are never left -/

/-- The scalars of a statement belong to `I`, its divisors to `J`. -/
def CoeffsIn (I : S → Prop) (J : R → Prop) : PStmt S R → Prop
  | .word _ _ s | .scale _ s => I s
  | .terms _ items => ∀ e ∈ items, I e.2
  | .modify _ _ f => ∀ x, I x → I (f x)
  | .div _ r => J r
  | _ => True

/-- C82: a set of coefficients that contains zero, one and minus one, is closed under the operations (with divisors from `J`), and contains the coefficients
of a program, contains all coefficients the program computes. -/
theorem C82_invariant (I : S → Prop) (J : R → Prop) (h0 : I C.zero) (h1 : I C.one) (hm : I C.mone) (hn : ∀ x, I x → I (C.uminus x))
    (ha : ∀ x y, I x → I y → I (C.add x y)) (hs : ∀ x y, I x → I y → I (C.sub x y)) (hp : ∀ x y, I x → I y → I (C.mul x y))
    (hd : ∀ x r, I x → J r → I (C.div x r)) (prog : List (PStmt S R))
    (hprog : ∀ st ∈ prog, CoeffsIn I J st)
    (σ : Nat → Dense S) (hσ : runProg C p N prog = .ok σ) (i : Nat) : ∀ x ∈ (σ i).data, I x := by
  have hC : CoeffRel (fun x y => y = x ∧ I x) (fun r r' => r' = r ∧ J r) C C :=
    { zero := ⟨rfl, h0⟩
      one := ⟨rfl, h1⟩
      mone := ⟨rfl, hm⟩
      uminus := by rintro x _ ⟨rfl, hx⟩; exact ⟨rfl, hn _ hx⟩
      add := by rintro x _ y _ ⟨rfl, hx⟩ ⟨rfl, hy⟩; exact ⟨rfl, ha _ _ hx hy⟩
      sub := by rintro x _ y _ ⟨rfl, hx⟩ ⟨rfl, hy⟩; exact ⟨rfl, hs _ _ hx hy⟩
      mul := by rintro x _ y _ ⟨rfl, hx⟩ ⟨rfl, hy⟩; exact ⟨rfl, hp _ _ hx hy⟩
      div := by rintro x _ y _ ⟨rfl, hx⟩ ⟨rfl, hy⟩; exact ⟨rfl, hd _ _ hx hy⟩ }
  have hrel : List.Forall₂ (StmtRel (fun x y => y = x ∧ I x) fun r r' => r' = r ∧ J r) prog prog := by
    refine List.forall₂_same.2 fun st hst => ?_
    have := hprog st hst
    cases st with
    | word i w s => exact .word i w s s ⟨rfl, this⟩
    | terms i items => exact .terms i _ _ (List.forall₂_same.2 fun e he => ⟨rfl, rfl, this e he⟩)
    | modify i w f => exact .modify i w f f (by rintro x _ ⟨rfl, hx⟩; exact ⟨rfl, this _ hx⟩)
    | scale i s => exact .scale i s s ⟨rfl, this⟩
    | div i r => exact .div i r r ⟨rfl, this⟩
    | _ => constructor
  have := runProg_rel p N hC hrel
  rw [hσ] at this
  have hi := (this i).data
  rw [List.forall₂_same] at hi
  exact fun x hx => (hi x hx).2

/-! ## Sparse vectors under maps that do not preserve comparisons -/

theorem value_img [CommRing S] [CommRing S'] (φ : S →+* S') {st : PStmt S R} {st' : PStmt S' R'} (h : StmtRel (Img φ) P st st') (hl : Linear st)
    {ρ : Nat → List Nat → S} {ρ' : Nat → List Nat → S'} (hρ : ∀ i w, ρ' i w = φ (ρ i w)) : ∀ i w, st'.value ρ' i w = φ (st.value ρ i w) := by
  intro i w
  have hset : ∀ (j : Nat) (f : List Nat → S) (f' : List Nat → S'), (∀ u, f' u = φ (f u)) → setReg ρ' j f' i w = φ (setReg ρ j f i w) := by
    intro j f f' hf
    unfold setReg
    split
    · exact hf w
    · exact hρ i w
  cases h with
  | zero j => exact hset _ _ _ fun _ => (map_zero φ).symm
  | clear j => exact hset _ _ _ fun _ => (map_zero φ).symm
  | word j v s s' hs =>
    refine hset _ _ _ fun u => ?_
    rw [hs, apply_ite φ, map_zero]
  | terms j l l' hl' =>
    rw [pairs_img] at hl'
    subst hl'
    refine hset _ _ _ fun u => ?_
    rw [map_list_sum]
    congr 1
    unfold itemValues
    rw [List.filter_map, List.map_map, List.map_map]
    rfl
  | neg j => exact hset _ _ _ fun u => by rw [hρ, map_neg]
  | add j k => exact hset _ _ _ fun u => by rw [hρ, hρ, map_add]
  | sub j k => exact hset _ _ _ fun u => by rw [hρ, hρ, map_sub]
  | scale j s s' hs => exact hset _ _ _ fun u => by rw [hρ, hs, map_mul]
  | _ => exact hl.elim

/-- C82, sparse vectors and any homomorphism of rings, for instance reduction modulo a number: coefficients may vanish under the map, so the stored entries
need not correspond, but the coefficients of all words do. -/
theorem C82_sparse_homomorphism [CommRing S] [CommRing S'] (hC : C.IsRing) (hE : C.EqLawful) (hC' : C'.IsRing) (hE' : C'.EqLawful) (φ : S →+* S')
    (h1 : 1 ≤ N) (hN : N < 2 ^ 32) (D : Nat) (hm : D ≤ maxDepth N) (prog : List (PStmt S R)) (prog' : List (PStmt S' R'))
    (hs : ∀ s ∈ prog, s.Within N D ∧ Linear s) (h : List.Forall₂ (StmtRel (Img φ) P) prog prog') :
    ∃ σ σ', runSparseProg C p N prog = .ok σ ∧ runSparseProg C' p N prog' = .ok σ' ∧
      ∀ i w k, ValidWord N w → w.length ≤ maxDepth N → fromLetters p N w = .ok k →
        ∃ x x', (Sparse.ops C).get (σ i) k = .ok x ∧ (Sparse.ops C').get (σ' i) k = .ok x' ∧ x'.getD 0 = φ (x.getD 0) := by
  have hs' : ∀ s ∈ prog', s.Within N D ∧ Linear s := by
    clear hC hE hC' hE'
    induction h with
    | nil => simp
    | @cons st st' l l' hst _ ih =>
      intro s hmem
      rcases List.mem_cons.1 hmem with rfl | hmem
      · have := hs st (List.mem_cons_self ..)
        cases hst with
        | terms j l l' hl =>
          rw [pairs_img] at hl
          subst hl
          refine ⟨?_, ?_⟩
          · intro e he
            obtain ⟨e0, he0, rfl⟩ := List.mem_map.1 he
            exact this.1 e0 he0
          · have h2 : (l.map (·.1)).Nodup := this.2
            show ((l.map fun e => (e.1, φ e.2)).map (·.1)).Nodup
            rw [List.map_map]
            exact h2
        | modify => exact this.2.elim
        | div => exact this.2.elim
        | _ => exact this
      · exact ih (fun s h => hs s (List.mem_cons_of_mem _ h)) s hmem
  obtain ⟨σ, e1, g1⟩ := C67_sparse_programs C p N hC hE h1 hN D hm prog hs
  obtain ⟨σ', e2, g2⟩ := C67_sparse_programs C' p N hC' hE' h1 hN D hm prog' hs'
  have hval : ∀ i w, valueProg prog' i w = φ (valueProg prog i w) := by
    have key : ∀ (ρ : Nat → List Nat → S) (ρ' : Nat → List Nat → S'), (∀ i w, ρ' i w = φ (ρ i w)) →
        ∀ i w, prog'.foldl PStmt.value ρ' i w = φ (prog.foldl PStmt.value ρ i w) := by
      clear e1 g1 e2 g2 hs' σ σ' hC hE hC' hE'
      induction h with
      | nil => exact fun ρ ρ' h => h
      | cons hst _ ih =>
        intro ρ ρ' hρ
        exact ih (fun s h => hs s (List.mem_cons_of_mem _ h)) _ _ (value_img φ hst (hs _ (List.mem_cons_self ..)).2 hρ)
    exact key _ _ fun _ _ => (map_zero φ).symm
  refine ⟨σ, σ', e1, e2, fun i w k hw hl hk => ?_⟩
  obtain ⟨x, x1, x2⟩ := (g1 i).2 w k hw hl hk
  obtain ⟨y, y1, y2⟩ := (g2 i).2 w k hw hl hk
  exact ⟨x, y, x1, y1, by rw [y2, hval, x2]⟩

end

/-- C82, floating-point numbers: a program whose scalars are representable computes representable numbers only. -/
theorem C82_floats_representable (F : FloatFmt) (hF : F = .f32 ∨ F = .f64) (p : Profile) (N : Nat) (prog : List (PStmt Fl Fl))
    (hprog : ∀ st ∈ prog, CoeffsIn (Fl.Valid F) (Fl.Valid F) st)
    (σ : Nat → Dense Fl) (hσ : runProg (floatCoeff F) p N prog = .ok σ) (i : Nat) : ∀ x ∈ (σ i).data, x.Valid F := by
  have h := fun x y (hx : Fl.Valid F x) (hy : Fl.Valid F y) => C50_closed F hF x y hx hy 0
  have h0 := h .nan .nan trivial trivial
  exact C82_invariant (C := floatCoeff F) p N (Fl.Valid F) (Fl.Valid F) h0.2.2.2.2.2.2.1 h0.2.2.2.2.2.2.2.1 h0.2.2.2.2.2.2.2.2.1
    (fun x hx => (h x x hx hx).2.2.2.2.2.1) (fun x y hx hy => (h x y hx hy).1) (fun x y hx hy => (h x y hx hy).2.1) (fun x y hx hy => (h x y hx hy).2.2.1)
    (fun x y hx hy => (h x y hx hy).2.2.2.1) prog hprog σ hσ i

/-! ## Examples -/

theorem intCast_coeffMap : CoeffMap (fun n : Int => (n : Rat)) (fun _ _ => False) intCoeff (fieldCoeff Rat) where
  zero := by simp [intCoeff, fieldCoeff]
  one := by simp [intCoeff, fieldCoeff]
  mone := by simp [intCoeff, fieldCoeff]
  uminus := by simp [intCoeff, fieldCoeff]
  add := by simp [intCoeff, fieldCoeff]
  sub := by simp [intCoeff, fieldCoeff]
  mul := by simp [intCoeff, fieldCoeff]
  div := fun _ _ _ h => h.elim

/-- Integers inside the rational numbers: `C82_expressions` for `(3 a - b) [a, 2 b]`, and the value over the integers. -/
example (p : Profile) : runExpr (fieldCoeff Rat) p 2 3 (TExpr.map (fun n : Int => (n : Rat))
      (.mul (.sub (.term [1] 3) (.term [2] 1)) (.comm (.term [1] 1) (.term [2] 2)))) =
    Dense.map (fun n : Int => (n : Rat)) <$> runExpr intCoeff p 2 3 (.mul (.sub (.term [1] 3) (.term [2] 1)) (.comm (.term [1] 1) (.term [2] 2))) ∧
    runExpr intCoeff p 2 3 (.mul (.sub (.term [1] 3) (.term [2] 1)) (.comm (.term [1] 1) (.term [2] 2))) =
      .ok (.ofVec [0, 0, 0, 0, 0, 0, 0, 0, 6, -6, 0, 0, -2, 2, 0]) :=
  ⟨C82_expressions p 2 _ intCast_coeffMap 3 _, by cases p <;> decide +kernel⟩

instance : Fact (Nat.Prime 2) := ⟨Nat.prime_two⟩

/-- `x_0 = w; x_1 = w; x_0 = x_0 + x_1` for the word `w = 1`. -/
def doubleProg (S R : Type) [One S] : List (PStmt S R) := [.word 0 [1] 1, .word 1 [1] 1, .add 0 1]

theorem doubleProg_rel : List.Forall₂ (StmtRel (Img (Int.castRingHom (ZMod 2))) fun _ _ => False) (doubleProg Int Int) (doubleProg (ZMod 2) (ZMod 2)) :=
  .cons (.word _ _ _ _ (by simp [Img])) (.cons (.word _ _ _ _ (by simp [Img])) (.cons (.add _ _) .nil))

/-- Modulo 2 the sum vanishes, so the entry `2` of the sum over the integers has no counterpart: comparisons do matter to the entries sparse vectors store
(`C82_change_of_coefficients_sparse`), and not to their coefficients (`C82_sparse_homomorphism`). -/
theorem C82_sparse_entries_differ (p : Profile) : runSparseProg (fieldCoeff (ZMod 2)) p 2 (doubleProg _ _) ≠
    (fun σ i => (σ i).map (Int.castRingHom (ZMod 2))) <$> runSparseProg intCoeff p 2 (doubleProg _ _) := by
  have e1 : (fun σ : Nat → Sparse TensorKey (ZMod 2) => σ 0) <$> runSparseProg (fieldCoeff (ZMod 2)) p 2 (doubleProg _ _) = .ok ⟨[]⟩ := by
    cases p <;> decide +kernel
  have e2 : (fun σ : Nat → Sparse TensorKey Int => σ 0) <$> runSparseProg intCoeff p 2 (doubleProg _ _) = .ok ⟨[(⟨1, 0⟩, 2)]⟩ := by
    cases p <;> decide +kernel
  intro h
  rw [h] at e1
  revert e1 e2
  cases runSparseProg intCoeff p 2 (doubleProg _ _) with
  | ok σ =>
    intro e1 e2
    have h1 : (σ 0).map (Int.castRingHom (ZMod 2)) = ⟨[]⟩ := Res.ok.inj e1
    have h2 : σ 0 = ⟨[(⟨1, 0⟩, 2)]⟩ := Res.ok.inj e2
    rw [h2] at h1
    exact absurd (congrArg (fun a => a.entries.length) h1) (Nat.succ_ne_zero 0)
  | _ => intro e; cases e

/-- `C82_sparse_homomorphism` for this program. -/
example (p : Profile) := C82_sparse_homomorphism p 2 intCoeff_isRing intCoeff_eqLawful (fieldCoeff_isField (ZMod 2)).toIsRing (fieldCoeff_eqLawful (ZMod 2))
  (Int.castRingHom (ZMod 2)) (by decide) (by decide) 1 (by decide +kernel) (doubleProg _ _) (doubleProg _ _)
  (by
    intro s hs
    simp only [doubleProg, List.mem_cons, List.not_mem_nil, or_false] at hs
    rcases hs with rfl | rfl | rfl
    · exact ⟨⟨by simp [ValidWord], by decide⟩, trivial⟩
    · exact ⟨⟨by simp [ValidWord], by decide⟩, trivial⟩
    · exact ⟨trivial, trivial⟩) doubleProg_rel

/-- The sample program of C66 with rational coefficients. -/
def ratProg : List (PStmt Rat Rat) :=
  [.word 0 [1] 1, .word 3 [2] 2, .add 0 3, .word 1 [2] 3, .comm 2 0 1 3, .addMul 2 1 1 3, .erase 2 [2, 2], .scale 2 (-1), .sub 2 0]

theorem ratProg_rel : List.Forall₂ (StmtRel (Img fun n : Int => (n : Rat)) fun _ _ => False) sampleProg ratProg := by
  unfold sampleProg ratProg
  repeat' constructor

/-- `C82_change_of_coefficients`: the rational program computes the integers the integer program computes. -/
example (p : Profile) : runProg (fieldCoeff Rat) p 2 ratProg = (fun σ i => (σ i).map fun n : Int => (n : Rat)) <$> runProg intCoeff p 2 sampleProg :=
  C82_change_of_coefficients p 2 _ intCast_coeffMap _ _ ratProg_rel

theorem intCast_faithful : CoeffMap.Faithful (fun n : Int => (n : Rat)) intCoeff (fieldCoeff Rat) := by
  intro x y
  simp [intCoeff, fieldCoeff]

/-- `C82_change_of_coefficients_sparse`. -/
example (p : Profile) : runSparseProg (fieldCoeff Rat) p 2 [.word 0 [1] 3, .word 1 [1] (-3), .add 0 1] =
    (fun σ i => (σ i).map fun n : Int => (n : Rat)) <$> runSparseProg intCoeff p 2 [.word 0 [1] 3, .word 1 [1] (-3), .add 0 1] :=
  C82_change_of_coefficients_sparse p 2 _ intCast_coeffMap intCast_faithful _ _
    (.cons (.word _ _ _ _ (by simp [Img])) (.cons (.word _ _ _ _ (by simp [Img])) (.cons (.add _ _) .nil)))

/-- `C82_outcome`: the sample program with floating-point coefficients returns, because it does with integers. -/
example (p : Profile) : ∃ σ, runProg (floatCoeff .f32) p 2 [.word 0 [1] .nan, .word 1 [2] (.inf true), .comm 2 0 1 3] = .ok σ ∧ (σ 2).size = 7 := by
  have h := C82_outcome p 2 (floatCoeff .f32) intCoeff [.word 0 [1] .nan, .word 1 [2] (.inf true), .comm 2 0 1 3] [.word 0 [1] 0, .word 1 [2] 0, .comm 2 0 1 3]
    (.cons (.word _ _ _ _ trivial) (.cons (.word _ _ _ _ trivial) (.cons (.comm ..) .nil)))
  have e : (fun σ : Nat → Dense Int => (σ 2).size) <$> runProg intCoeff p 2 [.word 0 [1] 0, .word 1 [2] 0, .comm 2 0 1 3] = .ok 7 := by
    cases p <;> decide +kernel
  revert h e
  cases runProg intCoeff p 2 [.word 0 [1] 0, .word 1 [2] 0, .comm 2 0 1 3] <;>
    cases runProg (floatCoeff .f32) p 2 [.word 0 [1] .nan, .word 1 [2] (.inf true), .comm 2 0 1 3] <;> intro h e <;>
    first | exact h.elim | cases e | exact ⟨_, rfl, (h 2).2.trans (Res.ok.inj e)⟩

/-- `C82_product_outcome`: the product of two constants is undefined behaviour whatever the constants are. -/
example (p : Profile) (x y : Fl) : (DenseAlg.ops (floatCoeff .f64) p 2).multiply (.ofVec [x]) (.ofVec [y]) (some 0) = .ub := by
  have h := C82_product_outcome p 2 (floatCoeff .f64) intCoeff (.ofVec [x]) (.ofVec [y]) (.ofVec [1]) (.ofVec [1]) (some 0) rfl rfl
  have e : (DenseAlg.ops intCoeff p 2).multiply (.ofVec [1]) (.ofVec [1]) (some 0) = .ub := by cases p <;> decide +kernel
  rw [e] at h
  revert h
  cases (DenseAlg.ops (floatCoeff .f64) p 2).multiply (.ofVec [x]) (.ofVec [y]) (some 0) <;> intro h <;> first | rfl | exact h.elim

/-- `C82_invariant`: the integers are closed under the operations other than division, so this program computes integers. -/
example (p : Profile) (σ : Nat → Dense Rat) (h : runProg (fieldCoeff Rat) p 2 ratProg = .ok σ) : ∀ x ∈ (σ 2).data, ∃ n : Int, x = n := by
  refine C82_invariant (C := fieldCoeff Rat) p 2 (fun x => ∃ n : Int, x = n) (fun _ => False) ⟨0, by simp [fieldCoeff]⟩ ⟨1, by simp [fieldCoeff]⟩
    ⟨-1, by simp [fieldCoeff]⟩ ?_ ?_ ?_ ?_ (fun _ _ _ h => h.elim) ratProg ?_ σ h 2
  · rintro _ ⟨n, rfl⟩
    exact ⟨-n, by simp [fieldCoeff]⟩
  · rintro _ _ ⟨n, rfl⟩ ⟨m, rfl⟩
    exact ⟨n + m, by simp [fieldCoeff]⟩
  · rintro _ _ ⟨n, rfl⟩ ⟨m, rfl⟩
    exact ⟨n - m, by simp [fieldCoeff]⟩
  · rintro _ _ ⟨n, rfl⟩ ⟨m, rfl⟩
    exact ⟨n * m, by simp [fieldCoeff]⟩
  · intro st hst
    simp only [ratProg, List.mem_cons, List.not_mem_nil, or_false] at hst
    rcases hst with rfl | rfl | rfl | rfl | rfl | rfl | rfl | rfl | rfl
    · exact ⟨1, by simp⟩
    · exact ⟨2, by simp⟩
    · trivial
    · exact ⟨3, by simp⟩
    · trivial
    · trivial
    · trivial
    · exact ⟨-1, by simp⟩
    · trivial

/-- Every homomorphism of fields preserves the operations of the coefficient types. -/
theorem field_coeffMap {S S' : Type} [Field S] [Field S'] [DecidableEq S] [DecidableEq S'] (φ : S →+* S') :
    CoeffMap φ (fun r r' => r' = φ r) (fieldCoeff S) (fieldCoeff S') ∧ CoeffMap.Faithful φ (fieldCoeff S) (fieldCoeff S') := by
  refine ⟨⟨map_zero φ, map_one φ, ?_, map_neg φ, map_add φ, map_sub φ, map_mul φ, ?_⟩, ?_⟩
  · show φ (-1) = -1
    rw [map_neg, map_one]
  · rintro x r _ rfl
    exact map_div₀ φ x r
  · intro x y
    refine decide_eq_decide.2 ⟨fun e => ?_, fun e => e ▸ rfl⟩
    rw [← sub_eq_zero, ← map_sub, map_eq_zero, sub_eq_zero] at e
    exact e

open Classical in
/-- `C82_dense`, `C82_products` and `C82_exp_log` for rational and real numbers. -/
example (p : Profile) (a b : Dense Rat) (k : TensorKey) (items : List (TensorKey × Rat)) (m : Nat) (d : Option Nat) :=
  have h := field_coeffMap (Rat.castHom ℝ)
  And.intro (C82_dense (tensorBasis p 3) _ h.1 a b k items (2 / 3) (5 : Rat) _ rfl (fun x => x + 1 / 2) (fun x => x + 1 / 2) (by intro x; simp))
    (And.intro (C82_products p 3 _ h.1 a a b (2 / 3) (5 : Rat) _ rfl d)
      (C82_exp_log p 3 _ h.1 h.2 (fun n => map_natCast (Rat.castHom ℝ) n) (fun n => (map_natCast (Rat.castHom ℝ) n).symm) m a b))

end RA
