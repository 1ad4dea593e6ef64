import Verif.Props.Checked

/-!
# Checked arithmetic is never silently wrong: programs and expressions (C103)
-/

namespace RA
open Spec TensorKey TensorBasis Fallible

section
variable {S R : Type} (F : FCoeff S R) (p : Profile) (N : Nat)

/-- A statement, executed with the methods of the crate; the coefficient arithmetic may panic. -/
def runStmtF (σ : Nat → Dense S) : PStmt S R → Res (Nat → Dense S)
  | .zero i => .ok (setReg σ i .new)
  | .word i w s => do
    let k ← fromLetters p N w
    let v ← dFromKeyScalar F (tensorBasis p N) k s
    return setReg σ i v
  | .terms i items => do
    let keys ← items.mapM (fun e => (fun k => (k, e.2)) <$> fromLetters p N e.1)
    let v ← fromIteratorF F (tensorBasis p N) keys
    return setReg σ i v
  | .copy i j => do
    let v ← (σ j).toOwned
    return setReg σ i v
  | .swap i j => do
    let (x, y) ← (σ i).swap (σ j)
    return setReg (setReg σ i x) j y
  | .clear i => .ok (setReg σ i (dClear F (σ i)))
  | .modify i w f => do
    let k ← fromLetters p N w
    let r ← Dense.getMut (tensorBasis p N) (σ i) k f
    return setReg σ i r.2
  | .erase i w => do
    let k ← fromLetters p N w
    let v ← dErase F (tensorBasis p N) (σ i) k
    return setReg σ i v
  | .neg i => do
    let v ← temp (dUminus F (σ i))
    return setReg σ i v
  | .add i j => do
    let v ← temp (dAdd F (σ i) (σ j))
    return setReg σ i v
  | .sub i j => do
    let v ← temp (dSub F (σ i) (σ j))
    return setReg σ i v
  | .scale i s => do
    let v ← temp (dMul F (σ i) s)
    return setReg σ i v
  | .div i r => do
    let v ← temp (dDiv F (σ i) r)
    return setReg σ i v
  | .mul i j k D => do
    let v ← tMultiply F p N (σ j) (σ k) (some D)
    return setReg σ i v
  | .comm i j k D => do
    let v ← tCommutator F p N (σ j) (σ k) (some D)
    return setReg σ i v
  | .addMul i j k D => do
    let v ← temp (tAddMul F p N (σ i) (σ j) (σ k) (some D))
    return setReg σ i v
  | .subMul i j k D => do
    let v ← temp (tSubMul F p N (σ i) (σ j) (σ k) (some D))
    return setReg σ i v

/-- A program, started with every register `new()`. -/
def runProgF (prog : List (PStmt S R)) : Res (Nat → Dense S) := prog.foldlM (runStmtF F p N) (fun _ => .new)

/-- Evaluation of an expression with the operations of the crate, every product truncated at `D`; the coefficient arithmetic may panic. -/
def runExprF (D : Nat) : TExpr S → Res (Dense S)
  | .term w s => do
    let k ← fromLetters p N w
    dFromKeyScalar F (tensorBasis p N) k s
  | .add a b => do
    let x ← runExprF D a
    let y ← runExprF D b
    dAddNew F x y
  | .sub a b => do
    let x ← runExprF D a
    let y ← runExprF D b
    dSubNew F x y
  | .neg a => do
    let x ← runExprF D a
    dUminusNew F x
  | .smul s a => do
    let x ← runExprF D a
    dMulNew F x s
  | .mul a b => do
    let x ← runExprF D a
    let y ← runExprF D b
    tMultiply F p N x y (some D)
  | .comm a b => do
    let x ← runExprF D a
    let y ← runExprF D b
    tCommutator F p N x y (some D)

end

section
variable {S R : Type} (C : Coeff S R) (p : Profile) (N : Nat)

theorem runStmtF_total (σ : Nat → Dense S) (st : PStmt S R) : runStmt C p N σ st = runStmtF (.ofCoeff C) p N σ st := by
  have hd := fun (d o : Dense S) => C100_dense_total C d o C.zero (C.ratFromDegree 0)
  have ht := fun (v a b : Dense S) D => C103_total C p N v a b C.zero (C.ratFromDegree 0) (some D) 0
  have hb : ∀ {α β : Type} {x y : Res α} (g : α → Res β), x = y → (x >>= g) = (y >>= g) := fun g h => by rw [h]
  cases st with
  | zero i | word i w s | copy i j | swap i j | modify i w f => rfl
  | erase i w =>
    refine congrArg (fromLetters p N w >>= ·) (funext fun k => ?_)
    rfl
  | terms i l =>
    refine congrArg (_ >>= ·) (funext fun keys => hb _ ?_)
    exact (C101_dense_total C (tensorBasis p N) .new .new C.zero (C.ratFromDegree 0) TensorKey.new keys).2.2.2.2.2.2.2.2.2.2.2.2.2.2.2.2.2.2.2
  | clear i => exact hb _ (dClear_total C (σ i))
  | neg i => exact hb _ (temp_eq (hd (σ i) (σ i)).2.2.2.2.2.2.2.2.1 (hd (σ i) (σ i)).2.2.2.2.2.2.2.2.2)
  | add i j => exact hb _ (temp_eq (hd (σ i) (σ j)).1 (hd (σ i) (σ j)).2.1)
  | sub i j => exact hb _ (temp_eq (hd (σ i) (σ j)).2.2.1 (hd (σ i) (σ j)).2.2.2.1)
  | scale i s =>
    have := C100_dense_total C (σ i) (σ i) s (C.ratFromDegree 0)
    exact hb _ (temp_eq this.2.2.2.2.1 this.2.2.2.2.2.1)
  | div i r =>
    have := C100_dense_total C (σ i) (σ i) C.zero r
    exact hb _ (temp_eq this.2.2.2.2.2.2.1 this.2.2.2.2.2.2.2.1)
  | mul i j k D => exact hb _ (ht (σ i) (σ j) (σ k) D).1
  | comm i j k D => exact hb _ (ht (σ i) (σ j) (σ k) D).2.2.2.2.1
  | addMul i j k D => exact hb _ (ht (σ i) (σ j) (σ k) D).2.2.1
  | subMul i j k D => exact hb _ (ht (σ i) (σ j) (σ k) D).2.2.2.1

/-- C103.  With coefficients that never panic, programs and expressions are run as in the other claims. -/
theorem C103_run_total (prog : List (PStmt S R)) (D : Nat) (e : TExpr S) :
    runProg C p N prog = runProgF (.ofCoeff C) p N prog ∧ runExpr C p N D e = runExprF (.ofCoeff C) p N D e := by
  constructor
  · unfold runProg runProgF
    rw [show runStmt C p N = runStmtF (.ofCoeff C) p N from funext fun σ => funext (runStmtF_total C p N σ)]
    rfl
  · have hd := fun (d o : Dense S) (s : S) => C101_dense_total C (tensorBasis p N) d o s (C.ratFromDegree 0) TensorKey.new []
    have ht := fun (a b : Dense S) => C103_total C p N .new a b C.zero (C.ratFromDegree 0) (some D) 0
    have two : ∀ {a b : TExpr S} {f g : Dense S → Dense S → Res (Dense S)}, runExpr C p N D a = runExprF (.ofCoeff C) p N D a →
        runExpr C p N D b = runExprF (.ofCoeff C) p N D b → (∀ x y, f x y = g x y) →
        (runExpr C p N D a >>= fun x => runExpr C p N D b >>= fun y => f x y) =
          (runExprF (.ofCoeff C) p N D a >>= fun x => runExprF (.ofCoeff C) p N D b >>= fun y => g x y) := by
      intro a b f g h1 h2 h
      rw [h1, h2, show f = g from funext fun x => funext (h x)]
    have one : ∀ {a : TExpr S} {f g : Dense S → Res (Dense S)}, runExpr C p N D a = runExprF (.ofCoeff C) p N D a → (∀ x, f x = g x) →
        (runExpr C p N D a >>= f) = (runExprF (.ofCoeff C) p N D a >>= g) := by
      intro a f g h1 h
      rw [h1, show f = g from funext h]
    induction e with
    | term w s => rfl
    | add a b iha ihb => exact two iha ihb fun x y => (hd x y C.zero).1
    | sub a b iha ihb => exact two iha ihb fun x y => (hd x y C.zero).2.1
    | neg a iha => exact one iha fun x => (hd x x C.zero).2.2.2.2.2.2.1
    | smul s a iha => exact one iha fun x => (hd x x s).2.2.1
    | mul a b iha ihb => exact two iha ihb fun x y => (ht x y).1
    | comm a b iha ihb => exact two iha ihb fun x y => (ht x y).2.2.2.2.1

end

section
variable {z : Prop} {S S' R R' : Type} {Q : S → S' → Prop} {P : R → R' → Prop} {F : FCoeff S R} {F' : FCoeff S' R'} (p : Profile) (N : Nat)

theorem runStmtF_ref (hF : FRef z Q P F F') {σ : Nat → Dense S} {σ' : Nat → Dense S'} (h : ∀ i, DRel Q (σ i) (σ' i)) {st : PStmt S R} {st' : PStmt S' R'}
    (hst : StmtRel Q P st st') : ResRef z (fun τ τ' => ∀ i, DRel Q (τ i) (τ' i)) (runStmtF F p N σ st) (runStmtF F' p N σ' st') := by
  have hid : ∀ x x', Q x x' → ResRef z Q (.ok x) (.ok x') := fun _ _ h => .ok h
  have hset : ∀ {i : Nat} {x : Res (Dense S)} {x' : Res (Dense S')}, ResRef z (DRel Q) x x' →
      ResRef z (fun τ τ' => ∀ i, DRel Q (τ i) (τ' i)) (x >>= fun v => .ok (setReg σ i v)) (x' >>= fun v => .ok (setReg σ' i v)) :=
    fun hx => .bind hx fun _ _ hv => .ok (setReg_rel h _ hv)
  cases hst with
  | zero i => exact .ok (setReg_rel h i Dense.new_rel)
  | word i w s s' hs => exact .bind_eq fun k => hset (dFromKeyScalar_ref hF _ k hs)
  | terms i l l' hl => exact .bind (.of_rel (keys_rel p N hl)) fun _ _ hk => hset (fromIteratorF_ref hF _ hk)
  | copy i j => exact hset (.of_rel (Dense.toOwned_rel (h j)))
  | swap i j => exact .bind (.of_rel (Dense.swap_rel (h i) (h j))) fun _ _ hv => .ok (setReg_rel (setReg_rel h i hv.1) j hv.2)
  | clear i => exact .ok (setReg_rel h i (dClear_ref hF (h i)))
  | modify i w f f' hf => exact .bind_eq fun k => .bind (.of_rel (Dense.getMut_rel _ (h i) k hf)) fun _ _ hv => .ok (setReg_rel h i hv.2)
  | erase i w => exact .bind_eq fun k => hset (dErase_ref hF _ (h i) k)
  | neg i => exact hset (OutRef.temp (dUminus_ref hF (h i)))
  | add i j => exact hset (OutRef.temp (dAdd_ref hF (h i) (h j)))
  | sub i j => exact hset (OutRef.temp (dSub_ref hF (h i) (h j)))
  | scale i s s' hs => exact hset (OutRef.temp (dMul_ref hF (h i) hs))
  | div i r r' hr => exact hset (OutRef.temp (dDiv_ref hF (h i) hr))
  | mul i j k D => exact hset (tMultiply_ref p N hF (h j) (h k) _)
  | comm i j k D => exact hset (tCommutator_ref p N hF (h j) (h k) _)
  | addMul i j k D => exact hset (OutRef.temp (tMulAdd_ref p N hF hid (h i) (h j) (h k) _))
  | subMul i j k D => exact hset (OutRef.temp (tMulAdd_ref p N hF hF.uminus (h i) (h j) (h k) _))

theorem runProgF_ref (hF : FRef z Q P F F') {prog : List (PStmt S R)} {prog' : List (PStmt S' R')} (h : List.Forall₂ (StmtRel Q P) prog prog') :
    ResRef z (fun σ σ' => ∀ i, DRel Q (σ i) (σ' i)) (runProgF F p N prog) (runProgF F' p N prog') :=
  .foldlM h (fun _ _ _ _ hσ hst => runStmtF_ref p N hF hσ hst) fun _ => Dense.new_rel

theorem runExprF_ref (hF : FRef z Q P F F') (φ : S → S') (D : Nat) (e : TExpr S) (he : e.Scalars fun s => Q s (φ s)) :
    ResRef z (DRel Q) (runExprF F p N D e) (runExprF F' p N D (e.map φ)) := by
  have own : ∀ {d : Dense S} {d' : Dense S'}, DRel Q d d' → DRel Q (Dense.ofVec d.data) (Dense.ofVec d'.data) := fun h => Dense.ofVec_rel h.data
  induction e with
  | term w s => exact .bind_eq fun k => dFromKeyScalar_ref hF _ k he
  | add a b iha ihb => exact .bind (iha he.1) fun _ _ h1 => .bind (ihb he.2) fun _ _ h2 => OutRef.temp (dAdd_ref hF (own h1) h2)
  | sub a b iha ihb => exact .bind (iha he.1) fun _ _ h1 => .bind (ihb he.2) fun _ _ h2 => OutRef.temp (dSub_ref hF (own h1) h2)
  | neg a iha => exact .bind (iha he) fun _ _ h1 => OutRef.temp (dUminus_ref hF (own h1))
  | smul s a iha => exact .bind (iha he.2) fun _ _ h1 => OutRef.temp (dMul_ref hF (own h1) he.1)
  | mul a b iha ihb => exact .bind (iha he.1) fun _ _ h1 => .bind (ihb he.2) fun _ _ h2 => tMultiply_ref p N hF h1 h2 _
  | comm a b iha ihb => exact .bind (iha he.1) fun _ _ h1 => .bind (ihb he.2) fun _ _ h2 => tCommutator_ref p N hF h1 h2 _

end

section
variable {S S' R R' : Type} {F : FCoeff S R} {φ : S → S'} {P : R → R' → Prop} {C : Coeff S' R'} (p : Profile) (N : Nat)

/-- C103, programs: if a program returns, the same program on the exact scalars returns, and every register holds the exact coefficients. -/
theorem C103_programs (hF : F.ExactFor φ P C) (prog : List (PStmt S R)) (prog' : List (PStmt S' R'))
    (h : List.Forall₂ (StmtRel (Img φ) P) prog prog') :
    ReturnsAs F.OnlyPanics (fun σ i => (σ i).map φ) (runProgF F p N prog) (runProg C p N prog') := by
  exact returnsAs_of (runProgF_ref p N (exact_ref hF) h) (fun _ _ h2 => funext fun i => (dRel_img ..).1 (h2 i))
    (C103_run_total C p N prog' 0 (.term [] C.zero)).1

/-- C103, expressions: if the evaluation returns, so does the exact one, with the exact coefficients. -/
theorem C103_expressions (hF : F.ExactFor φ P C) (D : Nat) (e : TExpr S) :
    ReturnsAs F.OnlyPanics (Dense.map φ) (runExprF F p N D e) (runExpr C p N D (e.map φ)) := by
  refine dense_gives (runExprF_ref p N (exact_ref hF) φ D e ?_) (C103_run_total C p N [] D (e.map φ)).2
  induction e with
  | term w s => rfl
  | add a b iha ihb | sub a b iha ihb | mul a b iha ihb | comm a b iha ihb => exact ⟨iha, ihb⟩
  | neg a iha => exact iha
  | smul s a iha => exact ⟨rfl, iha⟩

theorem words_map {T T' : Type} (f : T → T') {N D : Nat} {e : TExpr T} (h : e.Words N D) : (e.map f).Words N D := by
  induction e with
  | term w s => exact h
  | add a b iha ihb | sub a b iha ihb | mul a b iha ihb | comm a b iha ihb => exact ⟨iha h.1, ihb h.2⟩
  | neg a iha | smul s a iha => exact iha h

theorem get_word {T : Type} (h1 : 1 ≤ N) (hN : N < 2 ^ 32) (v : Dense T) (w : List Nat) (hw : ValidWord N w) (hl : w.length ≤ maxDepth N) (k : TensorKey)
    (hk : fromLetters p N w = .ok k) : Dense.get (tensorBasis p N) v k = .ok (stored N v w) := by
  rw [fromLetters_ok p N h1 hN w hw hl] at hk
  cases hk
  unfold Dense.get
  rw [show (tensorBasis p N).keyToIndex (keyOf N w) = .ok (wordIndex N w) from keyToIndex_keyOf p N h1 hN w hw hl]
  rfl

theorem coef_img (hF : F.ExactFor φ P C) (r : Dense S) (w : List Nat) : φ ((stored N r w).getD F.zero) = coef C N (r.map φ) w := by
  unfold coef stored Dense.map
  rw [List.getElem?_map]
  cases r.data[wordIndex N w]? with
  | none => exact hF.zero
  | some x => rfl

/-- C103, values: whatever an evaluation with checked arithmetic returns is the value of the expression in the free associative algebra, truncated at `D`.
No condition on the expression is needed, and none on the size of the numbers. -/
theorem C103_values [CommRing S'] (hC : C.IsRing) (hF : F.ExactFor φ P C) (h2 : 2 ≤ N) (hN : N < 2 ^ 32) (D : Nat) (hD : 1 ≤ D) (hm : D ≤ maxDepth N)
    (hp : N ^ (D + 1) < 2 ^ 64) (e : TExpr S) (hw : e.Words N D) (r : Dense S) (hr : runExprF F p N D e = .ok r) :
    ∀ w k, ValidWord N w → w.length ≤ maxDepth N → fromLetters p N w = .ok k →
      ∃ x, Dense.get (tensorBasis p N) r k = .ok x ∧ φ (x.getD F.zero) = if w.length ≤ D then (e.map φ).value w else 0 := by
  intro w k hv hl hk
  have h := (C103_expressions p N hF D e).1 r hr
  have hw' := words_map φ hw
  by_cases hs : (e.map φ).NoConstProduct D
  · obtain ⟨r', h1, -, h3⟩ := C53_expressions_partial C p N hC h2 hN D hD hm hp (e.map φ) hw' hs
    cases h.symm.trans h1
    refine ⟨stored N r w, ?_, ?_⟩
    · exact get_word p N (by omega) hN r w hv hl k hk
    · rw [← h3 w hv]
      exact coef_img N hF r w
  · cases h.symm.trans (C53_const_product_ub C p N hC h2 hN D hD hm hp (e.map φ) hw' hs)

theorem stmtRel_within {D : Nat} {st : PStmt S R} {st' : PStmt S' R'} (h : StmtRel (Img φ) P st st') (hs : st.Within N D ∧ st.Algebraic) :
    st'.Within N D ∧ st'.Algebraic := by
  cases h with
  | terms i l l' hl =>
    rw [pairs_img] at hl
    subst hl
    refine ⟨fun e he => ?_, trivial⟩
    obtain ⟨e0, he0, rfl⟩ := List.mem_map.1 he
    exact hs.1 e0 he0
  | modify => exact hs.2.elim
  | div => exact hs.2.elim
  | _ => exact hs

/-- C103, values of programs: whatever a program of ring operations returns is its value in the free associative algebra. -/
theorem C103_program_values [CommRing S'] (hC : C.IsRing) (hF : F.ExactFor φ P C) (h2 : 2 ≤ N) (hN : N < 2 ^ 32) (D : Nat) (hm : D ≤ maxDepth N)
    (hp : N ^ (D + 1) < 2 ^ 64) (prog : List (PStmt S R)) (hs : ∀ s ∈ prog, s.Within N D ∧ s.Algebraic) (prog' : List (PStmt S' R'))
    (h : List.Forall₂ (StmtRel (Img φ) P) prog prog') (σ : Nat → Dense S) (hσ : runProgF F p N prog = .ok σ) :
    ∀ i w k, ValidWord N w → w.length ≤ maxDepth N → fromLetters p N w = .ok k →
      ∃ x, Dense.get (tensorBasis p N) (σ i) k = .ok x ∧ φ (x.getD F.zero) = valueProg prog' i w := by
  intro i w k hv hl hk
  have hx := (C103_programs p N hF prog prog' h).1 σ hσ
  have hs' : ∀ s ∈ prog', s.Within N D ∧ s.Algebraic := by
    clear hx hσ
    induction h with
    | nil => simp
    | cons h1 _ ih =>
      intro s hmem
      rcases List.mem_cons.1 hmem with rfl | hmem
      · exact stmtRel_within N h1 (hs _ (List.mem_cons_self ..))
      · exact ih (fun s h => hs s (List.mem_cons_of_mem _ h)) s hmem
  have ha : allowedProg (fun _ => 0) prog' = true := by
    by_contra hc
    cases hx.symm.trans ((C65_unsafe C p N h2 hN D hm hp prog' fun s h => (hs' s h).1).2 (by simpa using hc))
  obtain ⟨τ, h1, h3⟩ := C66_programs_exact C p N hC h2 hN D hm hp prog' hs' ha
  cases hx.symm.trans h1
  obtain ⟨y, y1, y2⟩ := h3 i w k hv hl hk
  refine ⟨stored N (σ i) w, get_word p N (by omega) hN (σ i) w hv hl k hk, ?_⟩
  have y3 := (C33_get C p N (by omega) hN ((σ i).map φ) w hv hl k hk).symm.trans y1
  cases y3
  rw [← y2, coef_img N hF, ← hC.zero]
  rfl

end

/-! ## Two kinds of checked arithmetic -/

/-- Integers, with the division of Rust's integers: it rounds towards zero. -/
def truncCoeff : Coeff Int Int := { intCoeff with div := Int.tdiv, inv := fun a => Int.tdiv 1 a }

theorem truncCoeff_isRing : truncCoeff.IsRing :=
  { zero := rfl, one := rfl, mone := rfl, uminus := fun _ => rfl, add := fun _ _ => rfl, sub := fun _ _ => rfl, mul := fun _ _ => rfl }

/-- A result, or a panic if it is not between `lo` and `hi`. -/
def inRange (lo hi x : Int) : Res Int := if lo ≤ x ∧ x ≤ hi then .ok x else .panic

/-- An operation in place; the operand stays as it is if the result is out of range. -/
def inRangeIn (lo hi old x : Int) : Res Unit × Int := if lo ≤ x ∧ x ≤ hi then (.ok (), x) else (.panic, old)

/-- Integers between `lo` and `hi` that panic when a result is out of range or a divisor is zero, like Rust's integers when overflow checks are on. -/
def rangeInt (lo hi : Int) : FCoeff Int Int :=
  { zero := 0, one := 1, mone := -1, eq := fun a b => .ok (decide (a = b)), uminus := fun a => inRange lo hi (-a), mul := fun a b => inRange lo hi (a * b)
    div := fun a b => if b = 0 then .panic else inRange lo hi (Int.tdiv a b)
    addIn := fun a b => inRangeIn lo hi a (a + b), subIn := fun a b => inRangeIn lo hi a (a - b), mulIn := fun a b => inRangeIn lo hi a (a * b)
    divIn := fun a b => if b = 0 then (.panic, a) else inRangeIn lo hi a (Int.tdiv a b) }

/-- 64-bit integers with overflow checks. -/
def checkedI64 : FCoeff Int Int := rangeInt (-2 ^ 63) (2 ^ 63 - 1)

theorem inRange_inv {lo hi x z : Int} (h : inRange lo hi x = .ok z) : z = x := by
  unfold inRange at h
  split at h
  · cases h; rfl
  · cases h

theorem inRangeIn_inv {lo hi x y : Int} (h : (inRangeIn lo hi x y).1 = .ok ()) : (inRangeIn lo hi x y).2 = y := by
  unfold inRangeIn at h ⊢
  split at h
  · rw [if_pos ‹_›]
  · cases h

/-- C103: the range-checked integers compute exactly or not at all. -/
theorem C103_integers (lo hi : Int) : (rangeInt lo hi).ExactFor id Eq truncCoeff where
  zero := rfl
  one := rfl
  mone := rfl
  eq := by rintro x y _ ⟨⟩; rfl
  uminus _ _ h := inRange_inv h
  mul _ _ _ h := inRange_inv h
  div := by
    rintro x r _ z rfl h
    change (if r = 0 then Res.panic else inRange lo hi (Int.tdiv x r)) = _ at h
    split at h
    · cases h
    · exact inRange_inv h
  addIn _ _ h := inRangeIn_inv h
  subIn _ _ h := inRangeIn_inv h
  mulIn _ _ h := inRangeIn_inv h
  divIn := by
    rintro x r _ rfl h
    change (if r = 0 then ((.panic, x) : Res Unit × Int) else inRangeIn lo hi x (Int.tdiv x r)).1 = _ at h
    change (if r = 0 then ((.panic, x) : Res Unit × Int) else inRangeIn lo hi x (Int.tdiv x r)).2 = _
    split at h
    · cases h
    · rw [if_neg ‹_›]
      exact inRangeIn_inv h

/-- Rational numbers that panic when dividing by zero. -/
def checkedRat : FCoeff Rat Rat :=
  { FCoeff.ofCoeff (fieldCoeff Rat) with
    div := fun a b => if b = 0 then .panic else .ok (a / b)
    divIn := fun a b => if b = 0 then (.panic, a) else (.ok (), a / b) }

/-- C103: rational numbers that refuse to divide by zero are exact. -/
theorem C103_rationals : checkedRat.ExactFor id Eq (fieldCoeff Rat) where
  zero := rfl
  one := rfl
  mone := rfl
  eq := by rintro x y _ ⟨⟩; rfl
  uminus := by rintro x _ ⟨⟩; rfl
  mul := by rintro x y _ ⟨⟩; rfl
  div := by
    rintro x r _ z rfl h
    change (if r = 0 then Res.panic else .ok (x / r)) = _ at h
    split at h
    · cases h
    · cases h; rfl
  addIn _ _ _ := rfl
  subIn _ _ _ := rfl
  mulIn _ _ _ := rfl
  divIn := by
    rintro x r _ rfl h
    change (if r = 0 then ((.panic, x) : Res Unit × Rat) else (.ok (), x / r)).1 = _ at h
    change (if r = 0 then ((.panic, x) : Res Unit × Rat) else (.ok (), x / r)).2 = _
    split at h
    · cases h
    · rw [if_neg ‹_›]; rfl

/-- C103: neither does anything worse than panic. -/
theorem C103_only_panics (lo hi : Int) : (rangeInt lo hi).OnlyPanics ∧ checkedRat.OnlyPanics := by
  have h1 : ∀ x : Int, (inRange lo hi x).ReturnsOrPanics := fun x => by unfold inRange; split_ifs <;> exact ⟨nofun, nofun⟩
  have h2 : ∀ x y : Int, (inRangeIn lo hi x y).1.ReturnsOrPanics := fun x y => by unfold inRangeIn; split_ifs <;> exact ⟨nofun, nofun⟩
  constructor
  · refine ⟨fun _ _ => ⟨nofun, nofun⟩, fun _ => h1 _, fun _ _ => h1 _, fun x r => ?_, fun _ _ => h2 _ _, fun _ _ => h2 _ _, fun _ _ => h2 _ _, fun x r => ?_⟩
    · change Res.ReturnsOrPanics (if r = 0 then _ else _)
      split_ifs
      exacts [⟨nofun, nofun⟩, h1 _]
    · change Res.ReturnsOrPanics (if r = 0 then _ else _ : Res Unit × Int).1
      split_ifs
      exacts [⟨nofun, nofun⟩, h2 _ _]
  · refine ⟨fun _ _ => ⟨nofun, nofun⟩, fun _ => ⟨nofun, nofun⟩, fun _ _ => ⟨nofun, nofun⟩, fun x r => ?_, fun _ _ => ⟨nofun, nofun⟩, fun _ _ => ⟨nofun, nofun⟩,
      fun _ _ => ⟨nofun, nofun⟩, fun x r => ?_⟩
    · change Res.ReturnsOrPanics (if r = 0 then _ else _)
      split_ifs <;> exact ⟨nofun, nofun⟩
    · change Res.ReturnsOrPanics (if r = 0 then _ else _ : Res Unit × Rat).1
      split_ifs <;> exact ⟨nofun, nofun⟩

/-! ## Examples -/

/-- `(3 a - b) [a, 2 b]` with 64-bit integers returns. -/
theorem checked_example (p : Profile) : runExprF checkedI64 p 2 3 (.mul (.sub (.term [1] 3) (.term [2] 1)) (.comm (.term [1] 1) (.term [2] 2))) =
    .ok (.ofVec [0, 0, 0, 0, 0, 0, 0, 0, 6, -6, 0, 0, -2, 2, 0]) := by cases p <;> decide +kernel

example (p : Profile) := C103_values p 2 truncCoeff_isRing (C103_integers _ _) (by omega) (by omega) 3 (by omega) (by decide +kernel) (by decide)
  (.mul (.sub (.term [1] 3) (.term [2] 1)) (.comm (.term [1] 1) (.term [2] 2)))
  ⟨⟨⟨by decide, by decide⟩, by decide, by decide⟩, ⟨by decide, by decide⟩, by decide, by decide⟩ _ (checked_example p)

example (p : Profile) : runExpr truncCoeff p 2 3 (.mul (.sub (.term [1] 3) (.term [2] 1)) (.comm (.term [1] 1) (.term [2] 2))) =
    .ok (.ofVec [0, 0, 0, 0, 0, 0, 0, 0, 6, -6, 0, 0, -2, 2, 0]) :=
  (C103_expressions p 2 (C103_integers _ _) 3 (.mul (.sub (.term [1] 3) (.term [2] 1)) (.comm (.term [1] 1) (.term [2] 2)))).1 _ (checked_example p)

/-- A product of two constants is undefined behaviour (C53), also with checked arithmetic. -/
example (p : Profile) : runExprF checkedI64 p 2 3 (.mul (.term [] 3) (.term [] 5)) = .ub ∧ runExpr truncCoeff p 2 3 (.mul (.term [] 3) (.term [] 5)) = .ub := by
  have h : runExprF checkedI64 p 2 3 (.mul (.term [] 3) (.term [] 5)) = .ub := by cases p <;> decide +kernel
  have h1 := (C103_expressions p 2 (C103_integers (-2 ^ 63) (2 ^ 63 - 1)) 3 (.mul (.term [] 3) (.term [] 5))).2 (C103_only_panics _ _).1
  change runExprF checkedI64 p 2 3 (.mul (.term [] 3) (.term [] 5)) = _ ∨ _ = _ <$> runExprF checkedI64 p 2 3 (.mul (.term [] 3) (.term [] 5)) at h1
  rw [h] at h1
  exact ⟨h, h1.resolve_left nofun⟩

/-- A coefficient that does not fit: the product panics. -/
example (p : Profile) : runExprF checkedI64 p 2 3 (.mul (.term [1] (2 ^ 62)) (.term [2] 2)) = .panic := by cases p <;> decide +kernel

/-- `x_0 = 7 a; x_1 = -5; x_0 = x_0 + x_1; x_0 = x_0 / 2; x_1 = x_0; x_1 = x_1 + x_0 x_0`: division rounds towards zero. -/
def checkedProg : List (PStmt Int Int) := [.word 0 [1] 7, .word 1 [] (-5), .add 0 1, .div 0 2, .copy 1 0, .addMul 1 0 0 2]

theorem checkedProg_run (p : Profile) : (fun σ => (σ 0, σ 1)) <$> runProgF checkedI64 p 2 checkedProg =
    .ok (.ofVec [-2, 3, 0], .ofVec [2, -9, 0, 9, 0, 0, 0]) := by cases p <;> decide +kernel

example (p : Profile) : (fun σ => (σ 0, σ 1)) <$> runProg truncCoeff p 2 checkedProg = .ok (.ofVec [-2, 3, 0], .ofVec [2, -9, 0, 9, 0, 0, 0]) := by
  have h := checkedProg_run p
  cases hr : runProgF checkedI64 p 2 checkedProg with
  | ok σ =>
    have hrel : List.Forall₂ (StmtRel (Img id) Eq) checkedProg checkedProg :=
      .cons (.word _ _ _ _ rfl) (.cons (.word _ _ _ _ rfl) (.cons (.add _ _) (.cons (.div _ _ _ rfl) (.cons (.copy _ _) (.cons (.addMul _ _ _ _) .nil)))))
    have h1 := (C103_programs p 2 (C103_integers _ _) checkedProg checkedProg hrel).1 σ hr
    rw [hr] at h
    rw [h1, ← h]
    show Res.ok (Dense.map id (σ 0), Dense.map id (σ 1)) = Res.ok (σ 0, σ 1)
    simp [Dense.map]
  | _ => rw [hr] at h; cases h

example (p : Profile) : (fun σ => σ 0) <$> runProgF checkedI64 p 2 [.word 0 [1] 7, .div 0 0] = .panic := by cases p <;> decide +kernel

/-- The exponential with rational coefficients, as the code computes it (C39 to C41). -/
example (p : Profile) (m : Nat) (a : Dense Rat) :
    ReturnsAs (checkedRat.OnlyPanics ∧ ∀ i : Nat, (.ok (i : Rat) : Res Rat).ReturnsOrPanics) (Dense.map id) (tExp checkedRat p 2 (fun i => .ok (i : Rat)) m a) (FreeTensor.exp (fieldCoeff Rat) (DenseAlg.ops (fieldCoeff Rat) p 2) m (a.map id)) :=
  (C103_algebra p 2 C103_rationals .new a a 1 1 1 rfl none m (fun i => .ok (i : Rat)) (by rintro i _ ⟨⟩; rfl) (fun i => .ok (i : Rat))
    (by rintro i _ ⟨⟩; rfl)).2.2.2.2.2.2.2.2.2.1

example (p : Profile) : tExp checkedI64 p 2 (fun i => .ok (i : Int)) 1 (.ofVec [0, 2, 0]) = .ok (.ofVec [1]) ∧
    tLog checkedI64 p 2 (fun i => .ok (i : Int)) 2 (.ofVec [1, 2, 0]) = .ok (.ofVec [1]) := by cases p <;> decide +kernel

/-- Sparse vectors: a sum that returns, and one that does not. -/
example : Fallible.temp (sAdd checkedI64 ⟨[(1, 5), (2, 90)]⟩ (⟨[(1, -5), (3, 4)]⟩ : Sparse Nat Int)) = .ok ⟨[(2, 90), (3, 4)]⟩ := by decide

example : (Sparse.ops truncCoeff).addInplace (⟨[(1, 5), (2, 90)]⟩ : Sparse Nat Int) ⟨[(1, -5), (3, 4)]⟩ = .ok ⟨[(2, 90), (3, 4)]⟩ :=
  (C103_sparse (C103_integers (-2 ^ 63) (2 ^ 63 - 1)) (⟨[(1, 5), (2, 90)]⟩ : Sparse Nat Int) ⟨[(1, -5), (3, 4)]⟩ (by unfold Sparse.NoDup; decide) 1 1 1 rfl 0).1.1 _
    (show Fallible.temp (sAdd checkedI64 ⟨[(1, 5), (2, 90)]⟩ (⟨[(1, -5), (3, 4)]⟩ : Sparse Nat Int)) = .ok ⟨[(2, 90), (3, 4)]⟩ by decide)

example : Fallible.temp (sAdd checkedI64 ⟨[(1, 2 ^ 62)]⟩ (⟨[(1, 2 ^ 62)]⟩ : Sparse Nat Int)) = .panic := by decide

/-- Dense vectors over the integers as a basis. -/
example : (Dense.ops truncCoeff integerBasis).addScalarLmultiply (.ofVec [1, 2]) (.ofVec [3, 4, 5]) 10 = .ok (.ofVec [31, 42, 50]) :=
  (C103_dense integerBasis (C103_integers (-2 ^ 63) (2 ^ 63 - 1)) (.ofVec [1, 2]) (.ofVec [3, 4, 5]) 10 1 1 rfl 0 []).2.2.2.2.2.2.2.2.2.2.1.1 _
    (show Fallible.temp (dAddMul checkedI64 (.ofVec [1, 2]) (.ofVec [3, 4, 5]) 10) = .ok (.ofVec [31, 42, 50]) by decide)

/-- Integers that never panic. -/
example (p : Profile) : tMultiply (.ofCoeff intCoeff) p 2 (.ofVec [1, 2, 3]) (.ofVec [0, 1, 0]) (some 2) = .ok (.ofVec [0, 1, 0, 2, 0, 3, 0]) :=
  (C103_total intCoeff p 2 .new (.ofVec [1, 2, 3]) (.ofVec [0, 1, 0]) 1 1 (some 2) 0).1.symm.trans (by cases p <;> decide +kernel)

example (p : Profile) := C103_run_total intCoeff p 2 checkedProg 3 (.mul (.term [1] 3) (.term [2] 5))

/-- `x_0 = 7 a; x_1 = b - a; x_2 = [x_0, x_1]`, and its value. -/
example (p : Profile) (σ : Nat → Dense Int) (hσ : runProgF checkedI64 p 2
      [.word 0 [1] 7, .terms 1 [([2], 1), ([1], -1)], .comm 2 0 1 2] = .ok σ) (k : TensorKey) (hk : fromLetters p 2 [1, 2] = .ok k) :
    ∃ x, Dense.get (tensorBasis p 2) (σ 2) k = .ok x ∧ x.getD 0 = 7 := by
  have hd : 2 ≤ maxDepth 2 := by decide +kernel
  obtain ⟨x, h1, h3⟩ := C103_program_values p 2 truncCoeff_isRing (C103_integers _ _) (by omega) (by omega) 2 hd (by decide)
    [.word 0 [1] 7, .terms 1 [([2], 1), ([1], -1)], .comm 2 0 1 2]
    (by
      intro s hs
      simp only [List.mem_cons, List.not_mem_nil, or_false] at hs
      rcases hs with rfl | rfl | rfl
      · exact ⟨⟨by decide, by decide⟩, trivial⟩
      · refine ⟨fun e he => ?_, trivial⟩
        simp only [List.mem_cons, List.not_mem_nil, or_false] at he
        rcases he with rfl | rfl <;> exact ⟨by decide, by decide⟩
      · exact ⟨le_rfl, trivial⟩)
    _ (.cons (.word _ _ _ _ rfl) (.cons (.terms _ _ _ (.cons ⟨rfl, rfl⟩ (.cons ⟨rfl, rfl⟩ .nil))) (.cons (.comm _ _ _ _) .nil))) σ hσ 2 [1, 2] k
    (by decide) hd hk
  exact ⟨x, h1, h3.trans (by decide)⟩

/-- The other comparisons with coefficients that never panic (C100, C101). -/
example : (sAdd (.ofCoeff intCoeff) ⟨[(1, 5), (2, 90)]⟩ (⟨[(1, -5), (3, 4)]⟩ : Sparse Nat Int)).2 = ⟨[(2, 90), (3, 4)]⟩ :=
  Res.ok.inj ((C100_sparse_total intCoeff ⟨[(1, 5), (2, 90)]⟩ ⟨[(1, -5), (3, 4)]⟩ (by unfold Sparse.NoDup; decide) 1 1).1.symm.trans (by decide))

example := C101_sparse_total intCoeff (⟨[(1, 5), (2, 90)]⟩ : Sparse Nat Int) (by unfold Sparse.NoDup; decide) 7 2 2

example : dAddNew (.ofCoeff intCoeff) (.ofVec [1, 2]) (.ofVec [3, 4, 5]) = .ok (.ofVec [4, 6, 5]) :=
  (C101_dense_total intCoeff integerBasis (.ofVec [1, 2]) (.ofVec [3, 4, 5]) 7 2 2 [(3, 4)]).1.symm.trans (by decide)

example (p : Profile) : DenseAlg.mulAddIntoU intCoeff p 2 (fun (t : Nat) x => (.ok x, t + 1)) (.ofVec [1, 2, 3]) (.ofVec [0, 1, 0]) (some 2) (.new, 0) =
    (.ok (), (.ofVec [0, 1, 0, 2, 0, 3, 0], 9)) :=
  (C100_product_total p 2 intCoeff (fun (t : Nat) x => (.ok x, t + 1)) .new (.ofVec [1, 2, 3]) (.ofVec [0, 1, 0]) (some 2) 0).symm.trans
    (by cases p <;> decide +kernel)

example (p : Profile) := C100_inplace_total p 2 intCoeff (fun (t : Nat) x => (.ok x, t + 1)) (.ofVec [1, 2, 3]) (.ofVec [0, 1, 0]) (some 2) 0

end RA
