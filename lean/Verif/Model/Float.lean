import Verif.Model.Coeff
import Mathlib.Data.Int.Log
import Mathlib.Data.Rat.Floor

/-!
# `f32` and `f64` as coefficients: `src/coefficients/floating_point_fields.rs`

The operations of the two floating-point types are those of IEEE 754 (which Rust prescribes for `+ - * /` and for `as` from integers): the exact result
rounded to nearest, ties to even, with signed zeros, infinities and NaN.  NaN payloads are not modelled.
-/

namespace RA

/-- A binary format: `prec` bits of significand; finite values are `m · 2^e` with `|m| < 2^prec` and `eMin ≤ e ≤ eMax`. -/
structure FloatFmt where
  prec : Nat
  eMin : Int
  eMax : Int

/-- `f32`: IEEE 754 binary32. -/
def FloatFmt.f32 : FloatFmt := ⟨24, -149, 104⟩

/-- `f64`: IEEE 754 binary64. -/
def FloatFmt.f64 : FloatFmt := ⟨53, -1074, 971⟩

/-- A floating-point value; `fin q` is for non-zero finite values. -/
inductive Fl where
  | nan
  | inf (neg : Bool)
  | zero (neg : Bool)
  | fin (q : Rat)
deriving DecidableEq

namespace Fl

/-- The integer nearest to `x`, ties to even. -/
def roundEven (x : Rat) : Int :=
  let f := ⌊x⌋
  if x - f < 1 / 2 then f else if 1 / 2 < x - f then f + 1 else if f % 2 = 0 then f else f + 1

/-- The exponent of the unit in the last place for magnitude `a`. -/
def ulpExp (F : FloatFmt) (a : Rat) : Int := max (Int.log 2 a - (F.prec - 1)) F.eMin

/-- The magnitude `a` rounded, before overflow is considered. -/
def roundMag (F : FloatFmt) (a : Rat) : Rat := roundEven (a / 2 ^ ulpExp F a) * 2 ^ ulpExp F a

/-- Round an exact result; `neg0` is the sign of an exact zero. -/
def round (F : FloatFmt) (neg0 : Bool) (q : Rat) : Fl :=
  if q = 0 then .zero neg0
  else
    let r := roundMag F |q|
    let s := decide (q < 0)
    if (2 : Rat) ^ (F.eMax + F.prec) ≤ r then .inf s else if r = 0 then .zero s else .fin (if q < 0 then -r else r)

/-- Unary minus. -/
def neg : Fl → Fl
  | .nan => .nan
  | .inf s => .inf (!s)
  | .zero s => .zero (!s)
  | .fin q => .fin (-q)

/-- The sign bit (of a value that is not NaN). -/
def sign : Fl → Bool
  | .nan => false
  | .inf s => s
  | .zero s => s
  | .fin q => decide (q < 0)

/-- The number a finite value stands for. -/
def val : Fl → Rat
  | .fin q => q
  | _ => 0

/-- Finite values. -/
def isFin : Fl → Bool
  | .fin _ => true
  | .zero _ => true
  | _ => false

/-- `+` -/
def add (F : FloatFmt) : Fl → Fl → Fl
  | .nan, _ => .nan
  | _, .nan => .nan
  | .inf s, .inf t => if s = t then .inf s else .nan
  | .inf s, _ => .inf s
  | _, .inf t => .inf t
  | .zero s, .zero t => .zero (s && t)
  | x, y => round F false (x.val + y.val)

/-- `-` -/
def sub (F : FloatFmt) (x y : Fl) : Fl := add F x (neg y)

/-- `*` -/
def mul (F : FloatFmt) : Fl → Fl → Fl
  | .nan, _ => .nan
  | _, .nan => .nan
  | .inf _, .zero _ => .nan
  | .zero _, .inf _ => .nan
  | .inf s, y => .inf (xor s y.sign)
  | x, .inf t => .inf (xor x.sign t)
  | x, y => round F (xor x.sign y.sign) (x.val * y.val)

/-- `/` -/
def div (F : FloatFmt) : Fl → Fl → Fl
  | .nan, _ => .nan
  | _, .nan => .nan
  | .inf _, .inf _ => .nan
  | .zero _, .zero _ => .nan
  | .inf s, y => .inf (xor s y.sign)
  | x, .inf t => .zero (xor x.sign t)
  | x, .zero t => .inf (xor x.sign t)
  | x, y => round F (xor x.sign y.sign) (x.val / y.val)

/-- `==`: NaN differs from itself and the two zeros are equal. -/
def eq : Fl → Fl → Bool
  | .nan, _ => false
  | .zero _, .zero _ => true
  | x, y => decide (x = y)

/-- floating_point_fields.rs:14-24 `from_degree`: `*deg as Self`. -/
def ofDegree (F : FloatFmt) (n : Nat) : Fl := round F false n

/-- floating_point_fields.rs:30-31 and 87-88, the constants `ONE` and (negated) `MONE`. -/
def one : Fl := .fin 1

end Fl

/-- floating_point_fields.rs:26-79 (`f32`) and 82-135 (`f64`): the operations of the trait for a floating-point type. -/
def floatCoeff (F : FloatFmt) : Coeff Fl Fl :=
  { zero := .zero false, one := .one, mone := .fin (-1), uminus := Fl.neg, inv := fun a => Fl.div F .one a, add := Fl.add F, sub := Fl.sub F,
    mul := Fl.mul F, div := Fl.div F, fromDegree := Fl.ofDegree F, ratFromDegree := Fl.ofDegree F, eq := Fl.eq }

end RA
