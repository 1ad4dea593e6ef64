import Verif.Model.Vector

/-!
# `src/vector/wrapper.rs`: `VectorWrapper`, operators for a vector type

The module is commented out of `src/vector/mod.rs:48` and written against an earlier form of the trait; it is modelled as written, over the methods of
the same names in the present trait.  The impls for `VectorWrapper` and `&VectorWrapper` have the same bodies.
-/

namespace RA

/-- wrapper.rs:10-12. -/
structure VectorWrapper (V : Type) where
  inner : V
deriving DecidableEq, Repr

namespace VectorWrapper
variable {V K S R : Type} (T : VecOps V K S R)

/-- wrapper.rs:10, derived `PartialEq`. -/
def eq (a b : VectorWrapper V) : Bool := T.eq a.inner b.inner

/-- wrapper.rs:19-22. -/
def new : VectorWrapper V := ⟨T.new⟩

/-- wrapper.rs:24-27. -/
def fromInner (v : V) : VectorWrapper V := ⟨v⟩

/-- wrapper.rs:32-52 `ops::Add`. -/
def add (a b : VectorWrapper V) : Res (VectorWrapper V) := do return ⟨← T.add a.inner b.inner⟩

/-- wrapper.rs:54-74 `ops::Sub`. -/
def sub (a b : VectorWrapper V) : Res (VectorWrapper V) := do return ⟨← T.sub a.inner b.inner⟩

/-- wrapper.rs:76-96 `ops::Mul`. -/
def mul (a : VectorWrapper V) (s : S) : Res (VectorWrapper V) := do return ⟨← T.scalarRmultiply a.inner s⟩

/-- wrapper.rs:100-107 `From`. -/
def «from» (items : List (K × S)) : Res (VectorWrapper V) := do return ⟨← T.fromIterator items⟩

end VectorWrapper
end RA
