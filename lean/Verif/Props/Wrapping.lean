import Verif.Props.NoOverflowProg
import Verif.Props.Profiles
import Mathlib.Data.BitVec

/-!
# Coefficients that wrap around (C107)

Machine integers of `b` bits without overflow checks, as in a release build or with the type `Wrapping` of the standard library.
-/

namespace RA
open Spec TensorKey TensorBasis DenseAlg

/-- Machine integers of `b` bits, signed or unsigned (the ring operations do not distinguish them), with wrapping arithmetic.  Division is that of the
signed type. -/
def wrapCoeff (b : Nat) : Coeff (BitVec b) (BitVec b) :=
  { zero := 0, one := 1, mone := -1, uminus := fun x => -x, inv := fun x => BitVec.sdiv 1 x, add := (· + ·), sub := (· - ·), mul := (· * ·),
    div := BitVec.sdiv, fromDegree := fun n => BitVec.ofNat b n, ratFromDegree := fun n => BitVec.ofNat b n, eq := fun x y => decide (x = y) }

theorem wrapCoeff_isRing (b : Nat) : (wrapCoeff b).IsRing where
  zero := rfl
  one := rfl
  mone := rfl
  uminus _ := rfl
  add _ _ := rfl
  sub _ _ := rfl
  mul _ _ := rfl

theorem wrapCoeff_eqLawful (b : Nat) : (wrapCoeff b).EqLawful := fun x y => by simp [wrapCoeff]

theorem wrap_map (b : Nat) : CoeffMap (BitVec.ofInt b) (fun _ _ => False) truncCoeff (wrapCoeff b) where
  zero := map_zero (Int.castRingHom (BitVec b))
  one := map_one (Int.castRingHom (BitVec b))
  mone := by
    show ((-1 : Int) : BitVec b) = -1
    rw [Int.cast_neg, Int.cast_one]
  uminus x := map_neg (Int.castRingHom (BitVec b)) x
  add x y := map_add (Int.castRingHom (BitVec b)) x y
  sub x y := map_sub (Int.castRingHom (BitVec b)) x y
  mul x y := map_mul (Int.castRingHom (BitVec b)) x y
  div _ _ _ h := h.elim

/-- The same statement with its coefficients as machine integers. -/
abbrev Wraps (b : Nat) (prog : List (PStmt Int Int)) (prog' : List (PStmt (BitVec b) (BitVec b))) : Prop :=
  List.Forall₂ (StmtRel (Img (BitVec.ofInt b)) fun _ _ => False) prog prog'

/-- A statement with its coefficients reduced (closures and divisions have no canonical reduction; here they become the identity and division by one). -/
def wrapStmt (b : Nat) : PStmt Int Int → PStmt (BitVec b) (BitVec b)
  | .zero i => .zero i
  | .word i w s => .word i w (BitVec.ofInt b s)
  | .terms i items => .terms i (items.map fun e => (e.1, BitVec.ofInt b e.2))
  | .copy i j => .copy i j
  | .swap i j => .swap i j
  | .clear i => .clear i
  | .modify i w _ => .modify i w id
  | .erase i w => .erase i w
  | .neg i => .neg i
  | .add i j => .add i j
  | .sub i j => .sub i j
  | .scale i s => .scale i (BitVec.ofInt b s)
  | .div i _ => .div i 1
  | .mul i j k D => .mul i j k D
  | .comm i j k D => .comm i j k D
  | .addMul i j k D => .addMul i j k D
  | .subMul i j k D => .subMul i j k D

/-- Every program without closures and divisions has its reduction. -/
theorem wraps_map (b : Nat) (prog : List (PStmt Int Int)) (hs : ∀ s ∈ prog, s.Algebraic) : Wraps b prog (prog.map (wrapStmt b)) := by
  rw [Wraps, List.forall₂_map_right_iff, List.forall₂_same]
  intro s hm
  have h := hs s hm
  cases s with
  | modify => exact h.elim
  | div => exact h.elim
  | terms i items =>
    refine .terms _ _ _ ?_
    rw [List.forall₂_map_right_iff, List.forall₂_same]
    exact fun _ _ => ⟨rfl, rfl⟩
  | word => exact .word _ _ _ _ rfl
  | scale => exact .scale _ _ _ rfl
  | _ => constructor

variable (p : Profile) (N b : Nat)

/-- C107.  Every program of ring operations (and of closures that respect reduction) over wrapping integers ends as the same program over the integers
does, with every coefficient reduced modulo `2 ^ b`. -/
theorem C107_outcome (prog : List (PStmt Int Int)) (prog' : List (PStmt (BitVec b) (BitVec b))) (h : Wraps b prog prog') :
    runProg (wrapCoeff b) p N prog' = (fun σ i => (σ i).map (BitVec.ofInt b)) <$> runProg truncCoeff p N prog :=
  C82_change_of_coefficients p N _ (wrap_map b) prog prog' h

/-- C107.  The numbers read from the registers are the exact coefficients modulo `2 ^ b`: the representative in `[-2^(b-1), 2^(b-1))` for signed
integers, in `[0, 2^b)` for unsigned ones. -/
theorem C107_programs (h2 : 2 ≤ N) (hN : N < 2 ^ 32) (D : Nat) (hm : D ≤ maxDepth N) (hp : N ^ (D + 1) < 2 ^ 64) (prog : List (PStmt Int Int))
    (hs : ∀ s ∈ prog, s.Within N D ∧ s.Algebraic) (ha : allowedProg (fun _ => 0) prog = true) (prog' : List (PStmt (BitVec b) (BitVec b)))
    (h : Wraps b prog prog') :
    ∃ σ, runProg (wrapCoeff b) p N prog' = .ok σ ∧ ∀ i w k, ValidWord N w → w.length ≤ maxDepth N → fromLetters p N w = .ok k →
      ∃ x, (DenseAlg.ops (wrapCoeff b) p N).get (σ i) k = .ok x ∧ (x.getD 0).toInt = (valueProg prog i w).bmod (2 ^ b) ∧
        ((x.getD 0).toNat : Int) = valueProg prog i w % 2 ^ b := by
  obtain ⟨σ, h1, h3⟩ := C66_programs_exact truncCoeff p N truncCoeff_isRing h2 hN D hm hp prog hs ha
  refine ⟨fun i => (σ i).map (BitVec.ofInt b), by rw [C107_outcome p N b prog prog' h, h1]; rfl, fun i w k hv hl hk => ?_⟩
  obtain ⟨x, y1, y2⟩ := h3 i w k hv hl hk
  have y3 := (C33_get truncCoeff p N (by omega) hN (σ i) w hv hl k hk).symm.trans y1
  have hx : ((stored N ((σ i).map (BitVec.ofInt b)) w).getD 0) = BitVec.ofInt b (valueProg prog i w) := by
    rw [← y2, ← Res.ok.inj y3]
    show (((σ i).data.map (BitVec.ofInt b))[wordIndex N w]?).getD 0 = _
    rw [List.getElem?_map]
    show _ = BitVec.ofInt b (((σ i).data[wordIndex N w]?).getD 0)
    cases (σ i).data[wordIndex N w]? <;> rfl
  refine ⟨_, C33_get (wrapCoeff b) p N (by omega) hN _ w hv hl k hk, ?_, ?_⟩
  · rw [hx, BitVec.toInt_ofInt]
  · rw [hx, BitVec.toNat_ofInt, Int.toNat_of_nonneg (Int.emod_nonneg _ (by positivity))]
    push_cast
    rfl

theorem bmod_self_iff (hb : 1 ≤ b) (v : Int) : v.bmod (2 ^ b) = v ↔ -2 ^ (b - 1) ≤ v ∧ v < 2 ^ (b - 1) := by
  obtain ⟨c, rfl⟩ : ∃ c, b = c + 1 := ⟨b - 1, by omega⟩
  have hpos : (0 : Int) < 2 ^ c := by positivity
  rw [Nat.add_sub_cancel]
  constructor
  · intro h
    have h1 := Int.le_bmod (x := v) (m := 2 ^ (c + 1)) (by positivity)
    have h2 := Int.bmod_lt (x := v) (m := 2 ^ (c + 1)) (by positivity)
    rw [h] at h1 h2
    push_cast at h1 h2
    rw [pow_succ] at h1 h2
    omega
  · rintro ⟨h1, h2⟩
    refine Int.bmod_eq_of_le (by push_cast; rw [pow_succ]; omega) (by push_cast; rw [pow_succ]; omega)

theorem emod_self_iff (v : Int) : v % 2 ^ b = v ↔ 0 ≤ v ∧ v < 2 ^ b :=
  ⟨fun h => by
    rw [← h]
    exact ⟨Int.emod_nonneg _ (by positivity), Int.emod_lt_of_pos _ (by positivity)⟩, fun h => Int.emod_eq_of_lt h.1 h.2⟩

/-- C107.  What a register holds is right exactly if the exact coefficient fits in `b` bits, whatever overflowed in between. -/
theorem C107_right_iff (hb : 1 ≤ b) (h2 : 2 ≤ N) (hN : N < 2 ^ 32) (D : Nat) (hm : D ≤ maxDepth N) (hp : N ^ (D + 1) < 2 ^ 64)
    (prog : List (PStmt Int Int)) (hs : ∀ s ∈ prog, s.Within N D ∧ s.Algebraic) (ha : allowedProg (fun _ => 0) prog = true)
    (prog' : List (PStmt (BitVec b) (BitVec b))) (h : Wraps b prog prog') :
    ∃ σ, runProg (wrapCoeff b) p N prog' = .ok σ ∧ ∀ i w k, ValidWord N w → w.length ≤ maxDepth N → fromLetters p N w = .ok k →
      ∃ x, (DenseAlg.ops (wrapCoeff b) p N).get (σ i) k = .ok x ∧
        ((x.getD 0).toInt = valueProg prog i w ↔ -2 ^ (b - 1) ≤ valueProg prog i w ∧ valueProg prog i w < 2 ^ (b - 1)) ∧
        (((x.getD 0).toNat : Int) = valueProg prog i w ↔ 0 ≤ valueProg prog i w ∧ valueProg prog i w < 2 ^ b) := by
  obtain ⟨σ, h1, h3⟩ := C107_programs p N b h2 hN D hm hp prog hs ha prog' h
  refine ⟨σ, h1, fun i w k hv hl hk => ?_⟩
  obtain ⟨x, e, e1, e2⟩ := h3 i w k hv hl hk
  exact ⟨x, e, by rw [e1]; exact bmod_self_iff b hb _, by rw [e2]; exact emod_self_iff b _⟩

/-- C107 for nested expressions. -/
theorem C107_expressions (h2 : 2 ≤ N) (hN : N < 2 ^ 32) (D : Nat) (hD : 1 ≤ D) (hm : D ≤ maxDepth N) (hp : N ^ (D + 1) < 2 ^ 64) (e : TExpr Int)
    (hw : e.Words N D) (hs : e.NoConstProduct D) :
    ∃ r, runExpr (wrapCoeff b) p N D (e.map (BitVec.ofInt b)) = .ok r ∧ ∀ w, ValidWord N w → w.length ≤ D →
      (coef (wrapCoeff b) N r w).toInt = (e.value w).bmod (2 ^ b) ∧ ((coef (wrapCoeff b) N r w).toNat : Int) = e.value w % 2 ^ b := by
  obtain ⟨r, h1, -, h3⟩ := C53_expressions_partial truncCoeff p N truncCoeff_isRing h2 hN D hD hm hp e hw hs
  refine ⟨r.map (BitVec.ofInt b), by rw [C82_expressions p N _ (wrap_map b), h1]; rfl, fun w hv hl => ?_⟩
  have hx : coef (wrapCoeff b) N (r.map (BitVec.ofInt b)) w = BitVec.ofInt b (e.value w) := by
    have := h3 w hv
    rw [if_pos hl] at this
    rw [← this]
    show ((r.data.map (BitVec.ofInt b))[wordIndex N w]?).getD 0 = BitVec.ofInt b ((r.data[wordIndex N w]?).getD 0)
    rw [List.getElem?_map]
    cases r.data[wordIndex N w]? <;> rfl
  refine ⟨by rw [hx, BitVec.toInt_ofInt], ?_⟩
  rw [hx, BitVec.toNat_ofInt, Int.toNat_of_nonneg (Int.emod_nonneg _ (by positivity))]
  push_cast
  rfl

/-- C107 for programs of linear operations on sparse vectors. -/
theorem C107_sparse (h1 : 1 ≤ N) (hN : N < 2 ^ 32) (D : Nat) (hm : D ≤ maxDepth N) (prog : List (PStmt Int Int))
    (hs : ∀ s ∈ prog, s.Within N D ∧ Linear s) (prog' : List (PStmt (BitVec b) (BitVec b))) (h : Wraps b prog prog') :
    ∃ σ, runSparseProg (wrapCoeff b) p N prog' = .ok σ ∧ ∀ i w k, ValidWord N w → w.length ≤ maxDepth N → fromLetters p N w = .ok k →
      ∃ x, (Sparse.ops (wrapCoeff b)).get (σ i) k = .ok x ∧ (x.getD 0).toInt = (valueProg prog i w).bmod (2 ^ b) ∧
        ((x.getD 0).toNat : Int) = valueProg prog i w % 2 ^ b := by
  have hE : truncCoeff.EqLawful := intCoeff_eqLawful
  obtain ⟨σ, σ', e1, e2, g⟩ := C82_sparse_homomorphism p N truncCoeff_isRing hE (wrapCoeff_isRing b) (wrapCoeff_eqLawful b)
    (Int.castRingHom (BitVec b)) h1 hN D hm prog prog' hs h
  obtain ⟨τ, t1, t3⟩ := C67_sparse_programs truncCoeff p N truncCoeff_isRing hE h1 hN D hm prog hs
  cases e1.symm.trans t1
  refine ⟨σ', e2, fun i w k hv hl hk => ?_⟩
  obtain ⟨x, x', g1, g2, g3⟩ := g i w k hv hl hk
  obtain ⟨y, y1, y2⟩ := (t3 i).2 w k hv hl hk
  cases g1.symm.trans y1
  have hx : x'.getD 0 = BitVec.ofInt b (valueProg prog i w) := by rw [g3, y2]; rfl
  refine ⟨x', g2, by rw [hx, BitVec.toInt_ofInt], ?_⟩
  rw [hx, BitVec.toNat_ofInt, Int.toNat_of_nonneg (Int.emod_nonneg _ (by positivity))]
  push_cast
  rfl

/-- C107.  Debug and release builds: if a program with signed integers of `b` bits returns in a debug build, where every overflow panics, then the release
build, where arithmetic wraps around, returns the same coefficients. -/
theorem C107_debug_release (hb : 2 ≤ b) (prog : List (PStmt Int Int)) (hs : ∀ s ∈ prog, s.Algebraic)
    (hr : ∀ s ∈ prog, s.Scalars fun x => -2 ^ (b - 1) ≤ x ∧ x ≤ 2 ^ (b - 1) - 1) (prog' : List (PStmt (BitVec b) (BitVec b))) (h : Wraps b prog prog')
    (σ : Nat → Dense Int) (hσ : runProgF (rangeInt (-2 ^ (b - 1)) (2 ^ (b - 1) - 1)) .debug N prog = .ok σ) :
    ∃ τ, runProg (wrapCoeff b) .release N prog' = .ok τ ∧ ∀ i, (τ i).map BitVec.toInt = σ i := by
  have hpow : (2 : Int) ≤ 2 ^ (b - 1) := by
    calc (2 : Int) = 2 ^ 1 := rfl
      _ ≤ 2 ^ (b - 1) := pow_le_pow_right₀ (by norm_num) (by omega)
  have hrel : List.Forall₂ (StmtRel (Img id) Eq) prog prog :=
    List.forall₂_same.2 fun s hm => stmtRel_same (hs s hm) (scalars_of (fun _ _ => rfl) (hr s hm))
  have hx := (C103_programs .debug N (C103_integers (-2 ^ (b - 1)) (2 ^ (b - 1) - 1)) prog prog hrel).1 σ hσ
  have hid : (fun i => (σ i).map id) = σ := by
    funext i
    unfold Dense.map
    rw [List.map_id, List.map_id]
  have hrelease := C79_debug_decides truncCoeff N prog σ (hx.trans (congrArg Res.ok hid))
  refine ⟨fun i => (σ i).map (BitVec.ofInt b), by rw [C107_outcome .release N b prog prog' h, hrelease]; rfl, fun i => ?_⟩
  obtain ⟨τ', -, r2⟩ := (runProgF_ref .debug N (rangeInt_ref (lo := -2 ^ (b - 1)) (hi := 2 ^ (b - 1) - 1) (by omega) (by omega))
    (List.forall₂_same.2 fun s' h' => stmtRel_same (hs s' h') (scalars_of (fun _ h => ⟨rfl, h⟩) (hr s' h')))).ret hσ
  have key : ∀ (l l' : List Int), List.Forall₂ (fun x y => x = y ∧ -2 ^ (b - 1) ≤ x ∧ x ≤ 2 ^ (b - 1) - 1) l l' →
      (l.map (BitVec.ofInt b)).map BitVec.toInt = l := by
    intro l l' hl
    induction hl with
    | nil => rfl
    | cons hx _ ih =>
      rw [List.map_cons, List.map_cons, ih, BitVec.toInt_ofInt, (bmod_self_iff b (by omega) _).2 ⟨hx.2.1, by omega⟩]
  have hd := key _ _ (r2 i).data
  have hl := key _ _ (r2 i).lent
  show (⟨(σ i).mode, ((σ i).data.map (BitVec.ofInt b)).map BitVec.toInt, ((σ i).lent.map (BitVec.ofInt b)).map BitVec.toInt⟩ : Dense Int) = σ i
  rw [hd, hl]

/-- With five bits, from -16 to 15, the products of `massProg` overflow.  The coefficient -3 at `aa` is right, the coefficient -24 at `ab` comes out as 8. -/
example (p : Profile) (k k' : TensorKey) (hk : fromLetters p 2 [1, 1] = .ok k) (hk' : fromLetters p 2 [1, 2] = .ok k') :
    ∃ σ x y, runProg (wrapCoeff 5) p 2 (massProg.map (wrapStmt 5)) = .ok σ ∧ (DenseAlg.ops (wrapCoeff 5) p 2).get (σ 2) k = .ok x ∧ (x.getD 0).toInt = -3 ∧
      (DenseAlg.ops (wrapCoeff 5) p 2).get (σ 2) k' = .ok y ∧ (y.getD 0).toInt = 8 := by
  have hw := wraps_map 5 massProg fun s h => (massProg_ok.1 s h).2
  obtain ⟨σ, h1, h3⟩ := C107_programs p 2 5 (by omega) (by omega) 2 (by decide +kernel) (by decide) massProg massProg_ok.1 massProg_ok.2 _ hw
  obtain ⟨x, x1, x2, -⟩ := h3 2 [1, 1] k (by decide) (by decide +kernel) hk
  obtain ⟨y, y1, y2, -⟩ := h3 2 [1, 2] k' (by decide) (by decide +kernel) hk'
  exact ⟨σ, x, y, h1, x1, x2.trans (by decide +kernel), y1, y2.trans (by decide +kernel)⟩

example (p : Profile) := C107_right_iff p 2 5 (by omega) (by omega) (by omega) 2 (by decide +kernel) (by decide) massProg massProg_ok.1 massProg_ok.2 _
  (wraps_map 5 massProg fun s h => (massProg_ok.1 s h).2)

/-- With eight bits the debug build returns, and so both builds agree. -/
example : ∃ σ τ, runProgF (rangeInt (-2 ^ 7) (2 ^ 7 - 1)) .debug 2 massProg = .ok σ ∧ runProg (wrapCoeff 8) .release 2 (massProg.map (wrapStmt 8)) = .ok τ ∧
    ∀ i, (τ i).map BitVec.toInt = σ i := by
  obtain ⟨σ, hσ⟩ := (C105_total .debug 2 (C104_integers (lo := -2 ^ 7) (hi := 2 ^ 7 - 1) (B := 99) (by norm_num) (by norm_num)) (by omega) (by omega) 2 (by decide +kernel) (by decide)
    massProg massProg_ok.1 massProg_ok.2 massProg_total).2
  obtain ⟨τ, h1, h2⟩ := C107_debug_release 2 8 (by omega) massProg (fun s h => (massProg_ok.1 s h).2) (fun s h => by
      simp only [massProg, List.mem_cons, List.not_mem_nil, or_false] at h
      rcases h with rfl | rfl | rfl | rfl | rfl
      · exact ⟨by omega, by omega⟩
      · simp [PStmt.Scalars]
      · trivial
      · exact ⟨by omega, by omega⟩
      · trivial) _ (wraps_map 8 massProg fun s h => (massProg_ok.1 s h).2) σ hσ
  exact ⟨σ, τ, hσ, h1, h2⟩

/-- `(100 a)(3 b) = 300 ab`, with eight bits 44. -/
example (p : Profile) : ∃ r, runExpr (wrapCoeff 8) p 2 2 (.mul (.term [1] 100) (.term [2] 3)) = .ok r ∧ (coef (wrapCoeff 8) 2 r [1, 2]).toInt = 44 := by
  obtain ⟨r, h1, h3⟩ := C107_expressions p 2 8 (by omega) (by omega) 2 (by omega) (by decide +kernel) (by decide) (.mul (.term [1] 100) (.term [2] 3))
    (by simp [TExpr.Words, ValidWord]) ⟨trivial, trivial, by decide⟩
  exact ⟨r, h1, (h3 [1, 2] (by decide) (by decide)).1.trans (by decide +kernel)⟩

/-- `x = 100 a`, `x = 3 x` on a sparse vector. -/
example (p : Profile) := C107_sparse p 2 8 (by omega) (by omega) 2 (by decide +kernel) [.word 0 [1] 100, .scale 0 3] (by
    intro s hs
    simp only [List.mem_cons, List.not_mem_nil, or_false] at hs
    rcases hs with rfl | rfl
    · exact ⟨⟨by decide, by decide⟩, trivial⟩
    · exact ⟨trivial, trivial⟩) _ (wraps_map 8 _ (by
    intro s hs
    simp only [List.mem_cons, List.not_mem_nil, or_false] at hs
    rcases hs with rfl | rfl <;> trivial))

/-- A program that leaves the algebra ends in the same way with wrapping coefficients. -/
example (p : Profile) := C107_outcome p 2 8 [.mul 1 0 0 2] _ (wraps_map 8 [.mul 1 0 0 2] (by simp [PStmt.Algebraic]))

end RA
