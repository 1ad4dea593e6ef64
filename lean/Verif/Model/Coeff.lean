import Verif.Model.Base

/-!
# Coefficients: `src/coefficients/mod.rs`, `src/coefficients/floating_point_fields.rs`
-/

namespace RA

/-- coefficients/mod.rs:23-50 trait `CoefficientField` together with its supertraits (`PartialEq`, `FromDegreeType`), as a record of operations with
no laws at all; `S` is `Self`, `R` is `RationalType`.

Simplification: the `*_inplace` methods are separate trait methods; here they are the same function as the returning ones, which is what both
implementations in the crate do (floating_point_fields.rs:43-78 and 99-134).  `From<i8>`, `From<i16>` are not used by the crate. -/
structure Coeff (S R : Type) where
  zero : S
  one : S
  mone : S
  uminus : S → S
  inv : R → S
  add : S → S → S
  sub : S → S → S
  mul : S → S → S
  div : S → R → S
  /-- `FromDegreeType::from_degree` for `Self`. -/
  fromDegree : Nat → S
  /-- `FromDegreeType::from_degree` for `RationalType`. -/
  ratFromDegree : Nat → R
  /-- `PartialEq::eq`; not assumed reflexive (NaN). -/
  eq : S → S → Bool

/-- coefficients/mod.rs:32-35, provided method `from_rational` (the `Into` conversions are identities here). -/
def Coeff.fromRational {S R : Type} (C : Coeff S R) (num : S) (denom : R) : S := C.div num denom

end RA
