import Verif.SpecTensor
import Verif.Model.Coeff

/-!
# Reference semantics of programs over tensors

A program is a list of statements over numbered registers.  A register holds a tensor, described by how many degree levels it stores and by its stored
coefficients as a function of words.  Nothing here mentions vectors, keys, indices or memory.  The coefficients come with the operations of `Coeff`, and no
law about them is used, so the semantics also applies to floating-point numbers.
-/

namespace RA.Spec

/-- Statements; the registers named are `i` (the target), `j` and `k`. -/
inductive PStmt (S R : Type) where
  /-- `x_i = 0` -/
  | zero (i : Nat)
  /-- `x_i = s * w` -/
  | word (i : Nat) (w : List Nat) (s : S)
  /-- `x_i = sum of s * w over the list` -/
  | terms (i : Nat) (items : List (List Nat × S))
  /-- `x_i = x_j` -/
  | copy (i j : Nat)
  /-- exchange `x_i` and `x_j` -/
  | swap (i j : Nat)
  /-- `x_i` loses all its entries -/
  | clear (i : Nat)
  /-- apply `f` to the entry of `x_i` at `w`, if there is one -/
  | modify (i : Nat) (w : List Nat) (f : S → S)
  /-- set the entry of `x_i` at `w` to zero, if there is one -/
  | erase (i : Nat) (w : List Nat)
  /-- `x_i = -x_i` -/
  | neg (i : Nat)
  /-- `x_i = x_i + x_j` -/
  | add (i j : Nat)
  /-- `x_i = x_i - x_j` -/
  | sub (i j : Nat)
  /-- `x_i = x_i * s` -/
  | scale (i : Nat) (s : S)
  /-- `x_i = x_i / r` -/
  | div (i : Nat) (r : R)
  /-- `x_i = x_j x_k` up to degree `D` -/
  | mul (i j k D : Nat)
  /-- `x_i = x_j x_k - x_k x_j` up to degree `D` -/
  | comm (i j k D : Nat)
  /-- `x_i = x_i + x_j x_k` up to degree `D` -/
  | addMul (i j k D : Nat)
  /-- `x_i = x_i - x_j x_k` up to degree `D` -/
  | subMul (i j k D : Nat)

/-- Contents of a register: `levels = 0` stores nothing, `levels = d + 1` stores a coefficient for every word of length at most `d`. -/
structure TReg (S : Type) where
  levels : Nat
  coef : List Nat → Option S

/-- Writing a register. -/
def setReg {α : Type} (σ : Nat → α) (i : Nat) (v : α) : Nat → α := fun j => if j = i then v else σ j

/-- Entry of `a op b` from the entries of `a` and `b`: a missing left entry counts as zero, a missing right entry leaves the left one alone. -/
def mergeEntry {S : Type} (f : S → S → S) (z : S) : Option S → Option S → Option S
  | some x, some y => some (f x y)
  | some x, none => some x
  | none, some y => some (f z y)
  | none, none => none

/-- The degree of a product up to degree `D` of tensors with the given numbers of levels. -/
def prodDeg (D a b : Nat) : Nat := min D ((a - 1) + (b - 1))

/-- Number of levels needed to hold the listed words. -/
def itemLevels {S : Type} (items : List (List Nat × S)) : Nat := items.foldr (fun e m => max (e.1.length + 1) m) 0

/-- The values listed for a word, in list order. -/
def itemValues {S : Type} (items : List (List Nat × S)) (w : List Nat) : List S := (items.filter fun e => e.1 = w).map (·.2)

section
variable {S R : Type} (C : Coeff S R)

/-- Nothing stored. -/
def TReg.empty : TReg S := ⟨0, fun _ => none⟩

/-- `v + f(a b)`: to each entry the products `f(a_u b_v)` over the splittings of the word are added, longest left factor first. -/
def TReg.addProd (f : S → S) (v a b : TReg S) (D : Nat) : TReg S :=
  ⟨max v.levels (prodDeg D a.levels b.levels + 1), fun w =>
    if w.length ≤ prodDeg D a.levels b.levels then
      some ((splitProducts (fun x y => f (C.mul x y)) a.coef b.coef w).foldl C.add ((v.coef w).getD C.zero))
    else v.coef w⟩

/-- Effect of a statement on the registers. -/
def PStmt.eval (σ : Nat → TReg S) : PStmt S R → Nat → TReg S
  | .zero i => setReg σ i TReg.empty
  | .word i w s => setReg σ i ⟨w.length + 1, fun u => if u = w then some s else if u.length ≤ w.length then some C.zero else none⟩
  | .terms i items => setReg σ i ⟨itemLevels items, fun u =>
      if u.length < itemLevels items then some ((itemValues items u).foldl C.add C.zero) else none⟩
  | .copy i j => setReg σ i (σ j)
  | .swap i j => setReg (setReg σ i (σ j)) j (σ i)
  | .clear i => setReg σ i TReg.empty
  | .modify i w f => setReg σ i ⟨(σ i).levels, fun u => if u = w then ((σ i).coef u).map f else (σ i).coef u⟩
  | .erase i w => setReg σ i ⟨(σ i).levels, fun u => if u = w then ((σ i).coef u).map (fun _ => C.zero) else (σ i).coef u⟩
  | .neg i => setReg σ i ⟨(σ i).levels, fun u => ((σ i).coef u).map C.uminus⟩
  | .add i j => setReg σ i ⟨max (σ i).levels (σ j).levels, fun u => mergeEntry C.add C.zero ((σ i).coef u) ((σ j).coef u)⟩
  | .sub i j => setReg σ i ⟨max (σ i).levels (σ j).levels, fun u => mergeEntry C.sub C.zero ((σ i).coef u) ((σ j).coef u)⟩
  | .scale i s => setReg σ i ⟨(σ i).levels, fun u => ((σ i).coef u).map (fun x => C.mul x s)⟩
  | .div i r => setReg σ i ⟨(σ i).levels, fun u => ((σ i).coef u).map (fun x => C.div x r)⟩
  | .mul i j k D => setReg σ i (.addProd C id .empty (σ j) (σ k) D)
  | .comm i j k D => setReg σ i (.addProd C C.uminus (.addProd C id .empty (σ j) (σ k) D) (σ k) (σ j) D)
  | .addMul i j k D => setReg σ i (.addProd C id (σ i) (σ j) (σ k) D)
  | .subMul i j k D => setReg σ i (.addProd C C.uminus (σ i) (σ j) (σ k) D)

/-- Effect of a program on the registers. -/
def evalProg (σ : Nat → TReg S) (prog : List (PStmt S R)) : Nat → TReg S := prog.foldl (PStmt.eval C) σ

end

section
variable {S R : Type}

/-- Effect of a statement on the numbers of levels alone. -/
def PStmt.levels (l : Nat → Nat) : PStmt S R → Nat → Nat
  | .zero i | .clear i => setReg l i 0
  | .word i w _ => setReg l i (w.length + 1)
  | .terms i items => setReg l i (itemLevels items)
  | .copy i j => setReg l i (l j)
  | .swap i j => setReg (setReg l i (l j)) j (l i)
  | .modify _ _ _ | .erase _ _ | .neg _ | .scale _ _ | .div _ _ => l
  | .add i j | .sub i j => setReg l i (max (l i) (l j))
  | .mul i j k D | .comm i j k D => setReg l i (prodDeg D (l j) (l k) + 1)
  | .addMul i j k D | .subMul i j k D => setReg l i (max (l i) (prodDeg D (l j) (l k) + 1))

/-- Whether a statement may be run: products need two non-empty factors, and a product of degree 0 needs a target that is not empty. -/
def PStmt.allowed (l : Nat → Nat) : PStmt S R → Bool
  | .mul _ j k D | .comm _ j k D => decide (1 ≤ l j ∧ 1 ≤ l k ∧ 1 ≤ prodDeg D (l j) (l k))
  | .addMul i j k D | .subMul i j k D => decide (1 ≤ l j ∧ 1 ≤ l k ∧ (1 ≤ l i ∨ 1 ≤ prodDeg D (l j) (l k)))
  | _ => true

/-- Whether every statement of a program may be run when its turn comes.  This looks at word lengths and truncation degrees only. -/
def allowedProg (l : Nat → Nat) : List (PStmt S R) → Bool
  | [] => true
  | s :: prog => s.allowed l && allowedProg (s.levels l) prog

/-- The words of the statement are words over `N` letters of length at most `D`, and its product goes up to degree `D` at most. -/
def PStmt.Within (N D : Nat) : PStmt S R → Prop
  | .word _ w _ | .modify _ w _ | .erase _ w => ValidWord N w ∧ w.length ≤ D
  | .terms _ items => ∀ e ∈ items, ValidWord N e.1 ∧ e.1.length ≤ D
  | .mul _ _ _ D' | .comm _ _ _ D' | .addMul _ _ _ D' | .subMul _ _ _ D' => D' ≤ D
  | _ => True

/-- The statement only uses the ring operations. -/
def PStmt.Algebraic : PStmt S R → Prop
  | .modify _ _ _ | .div _ _ => False
  | _ => True

/-- A product of coefficient functions, cut off beyond degree `D`. -/
def cutProd [CommRing S] (D : Nat) (f g : List Nat → S) : List Nat → S := fun w => if w.length ≤ D then conv f g w else 0

/-- Effect of a statement on elements of the free associative algebra, given as coefficient functions.  (`modify` and `div` are not covered.) -/
def PStmt.value [CommRing S] (ρ : Nat → List Nat → S) : PStmt S R → Nat → List Nat → S
  | .zero i | .clear i => setReg ρ i fun _ => 0
  | .word i w s => setReg ρ i fun u => if u = w then s else 0
  | .terms i items => setReg ρ i fun u => (itemValues items u).sum
  | .copy i j => setReg ρ i (ρ j)
  | .swap i j => setReg (setReg ρ i (ρ j)) j (ρ i)
  | .erase i w => setReg ρ i fun u => if u = w then 0 else ρ i u
  | .neg i => setReg ρ i fun u => - ρ i u
  | .add i j => setReg ρ i fun u => ρ i u + ρ j u
  | .sub i j => setReg ρ i fun u => ρ i u - ρ j u
  | .scale i s => setReg ρ i fun u => ρ i u * s
  | .mul i j k D => setReg ρ i (cutProd D (ρ j) (ρ k))
  | .comm i j k D => setReg ρ i fun u => cutProd D (ρ j) (ρ k) u - cutProd D (ρ k) (ρ j) u
  | .addMul i j k D => setReg ρ i fun u => ρ i u + cutProd D (ρ j) (ρ k) u
  | .subMul i j k D => setReg ρ i fun u => ρ i u - cutProd D (ρ j) (ρ k) u
  | .modify _ _ _ | .div _ _ => ρ

/-- Effect of a program on elements of the free associative algebra. -/
def valueProg [CommRing S] (prog : List (PStmt S R)) : Nat → List Nat → S := prog.foldl PStmt.value fun _ _ => 0

end
end RA.Spec
