import Mathlib.Algebra.Order.Field.Rat
import Mathlib.Algebra.Ring.Int.Parity

/-!
# Rounding to a binary floating-point format (IEEE 754, round to nearest, ties to even), independently of any algorithm
-/

namespace RA.Spec

/-- The finite numbers of a binary format: `m · 2^e` with `|m| < 2^prec` and `eMin ≤ e ≤ eMax`. -/
def Binary (prec : Nat) (eMin eMax : Int) (q : Rat) : Prop := ∃ m e : Int, |m| < 2 ^ prec ∧ eMin ≤ e ∧ e ≤ eMax ∧ q = m * 2 ^ e

/-- The numbers of `f32`. -/
def IsF32 : Rat → Prop := Binary 24 (-149) 104

/-- The numbers of `f64`. -/
def IsF64 : Rat → Prop := Binary 53 (-1074) 971

/-- `r` is a number of the format nearest to `q`, and if there is another one equally near then the significand of `r` (normalised unless `r` is
subnormal) is even. -/
def Rounds (prec : Nat) (eMin eMax : Int) (q r : Rat) : Prop :=
  Binary prec eMin eMax r ∧ (∀ v, Binary prec eMin eMax v → |r - q| ≤ |v - q|) ∧
    ∀ v, Binary prec eMin eMax v → v ≠ r → |v - q| = |r - q| →
      ∃ m e : Int, r = m * 2 ^ e ∧ Even m ∧ |m| ≤ 2 ^ prec ∧ eMin ≤ e ∧ (2 ^ (prec - 1) ≤ |m| ∨ e = eMin)

end RA.Spec
