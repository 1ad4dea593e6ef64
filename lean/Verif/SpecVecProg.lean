import Verif.SpecProg
import Mathlib.Algebra.Module.Pi
import Mathlib.Algebra.BigOperators.Group.List.Basic

/-!
# Programs on vectors over any basis

Unlike the programs of `SpecProg.lean`, whose keys are words, these work over any type of keys.  `VStmt.eval` runs them on functions from keys to coefficients.
-/

namespace RA
namespace Spec

/-- A statement on registers `0, 1, 2, …` that hold vectors with keys in `K`. -/
inductive VStmt (K S R : Type) where
  /-- `v_i = V::new()` -/
  | zero (i : Nat)
  /-- `v_i = V::from_key_scalar(k, s)` -/
  | key (i : Nat) (k : K) (s : S)
  /-- `v_i = V::from_iterator(items)` -/
  | terms (i : Nat) (items : List (K × S))
  /-- `v_i = v_j.to_owned()` -/
  | copy (i j : Nat)
  /-- `v_i.swap(&mut v_j)` -/
  | swap (i j : Nat)
  /-- `v_i.clear()` -/
  | clear (i : Nat)
  /-- `if let Some(x) = v_i.get_mut(k) { *x = f(*x) }` -/
  | modify (i : Nat) (k : K) (f : S → S)
  /-- `v_i.erase(k)` -/
  | erase (i : Nat) (k : K)
  /-- `v_i.uminus_inplace()` -/
  | neg (i : Nat)
  /-- `v_i.add_inplace(v_j)` -/
  | add (i j : Nat)
  /-- `v_i.sub_inplace(v_j)` -/
  | sub (i j : Nat)
  /-- `v_i.scalar_rmultiply_inplace(s)` -/
  | scale (i : Nat) (s : S)
  /-- `v_i.scalar_rdivide_inplace(r)` -/
  | div (i : Nat) (r : R)
  /-- `v_i.add_scalar_rmultiply(v_j, s)` -/
  | addScaled (i j : Nat) (s : S)
  /-- `v_i.sub_scalar_rmultiply(v_j, s)` -/
  | subScaled (i j : Nat) (s : S)
  /-- `v_i.add_scalar_rdivide(v_j, r)` -/
  | addDivided (i j : Nat) (r : R)
  /-- `v_i.sub_scalar_rdivide(v_j, r)` -/
  | subDivided (i j : Nat) (r : R)
  /-- `v_i.add_scalar_multiply(k, s)` of the extension trait for keys -/
  | addKey (i : Nat) (k : K) (s : S)
  /-- `v_i.sub_scalar_multiply(k, s)` of the extension trait for keys -/
  | subKey (i : Nat) (k : K) (s : S)
  /-- `v_i.insert_single(k, s)` -/
  | put (i : Nat) (k : K) (s : S)

namespace VStmt
variable {K S R : Type} [DecidableEq K] (C : Coeff S R)

/-- What a statement does to the functions from keys to coefficients in the registers. -/
def eval (a : Nat → K → S) : VStmt K S R → Nat → K → S
  | .zero i => setReg a i fun _ => C.zero
  | .key i k s => setReg a i fun u => if u = k then s else C.zero
  | .terms i items => setReg a i fun u => ((items.filter fun e => e.1 = u).map (·.2)).foldl C.add C.zero
  | .copy i j => setReg a i (a j)
  | .swap i j => setReg (setReg a i (a j)) j (a i)
  | .clear i => setReg a i fun _ => C.zero
  | .modify i k f => setReg a i fun u => if u = k then f (a i u) else a i u
  | .erase i k => setReg a i fun u => if u = k then C.zero else a i u
  | .neg i => setReg a i fun u => C.uminus (a i u)
  | .add i j => setReg a i fun u => C.add (a i u) (a j u)
  | .sub i j => setReg a i fun u => C.sub (a i u) (a j u)
  | .scale i s => setReg a i fun u => C.mul (a i u) s
  | .div i r => setReg a i fun u => C.div (a i u) r
  | .addScaled i j s => setReg a i fun u => C.add (a i u) (C.mul (a j u) s)
  | .subScaled i j s => setReg a i fun u => C.sub (a i u) (C.mul (a j u) s)
  | .addDivided i j r => setReg a i fun u => C.add (a i u) (C.div (a j u) r)
  | .subDivided i j r => setReg a i fun u => C.sub (a i u) (C.div (a j u) r)
  | .addKey i k s => setReg a i fun u => if u = k then C.add (a i u) s else a i u
  | .subKey i k s => setReg a i fun u => if u = k then C.sub (a i u) s else a i u
  | .put i k s => setReg a i fun u => if u = k then s else a i u

/-- The keys in a statement. -/
def keys : VStmt K S R → List K
  | .key _ k _ | .modify _ k _ | .erase _ k | .addKey _ k _ | .subKey _ k _ | .put _ k _ => [k]
  | .terms _ items => items.map (·.1)
  | _ => []

end VStmt

/-- A program, all registers zero at the start. -/
def evalVProg {K S R : Type} [DecidableEq K] (C : Coeff S R) (prog : List (VStmt K S R)) : Nat → K → S :=
  prog.foldl (VStmt.eval C) fun _ _ => C.zero

/-- What a statement does to elements of the vector space of functions from keys to a field. -/
def VStmt.linear {K S : Type} [DecidableEq K] [Field S] (a : Nat → K → S) : VStmt K S S → Nat → K → S
  | .zero i => setReg a i 0
  | .key i k s => setReg a i (Pi.single k s)
  | .terms i items => setReg a i (items.map fun e => (Pi.single e.1 e.2 : K → S)).sum
  | .copy i j => setReg a i (a j)
  | .swap i j => setReg (setReg a i (a j)) j (a i)
  | .clear i => setReg a i 0
  | .modify i k f => setReg a i (Function.update (a i) k (f (a i k)))
  | .erase i k => setReg a i (Function.update (a i) k 0)
  | .neg i => setReg a i (-a i)
  | .add i j => setReg a i (a i + a j)
  | .sub i j => setReg a i (a i - a j)
  | .scale i s => setReg a i (s • a i)
  | .div i r => setReg a i (r⁻¹ • a i)
  | .addScaled i j s => setReg a i (a i + s • a j)
  | .subScaled i j s => setReg a i (a i - s • a j)
  | .addDivided i j r => setReg a i (a i + r⁻¹ • a j)
  | .subDivided i j r => setReg a i (a i - r⁻¹ • a j)
  | .addKey i k s => setReg a i (a i + Pi.single k s)
  | .subKey i k s => setReg a i (a i - Pi.single k s)
  | .put i k s => setReg a i (Function.update (a i) k s)

/-- A program over a field, all registers zero at the start. -/
def linearVProg {K S : Type} [DecidableEq K] [Field S] (prog : List (VStmt K S S)) : Nat → K → S := prog.foldl VStmt.linear 0

end Spec
end RA
