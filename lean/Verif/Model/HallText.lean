import Verif.Model.Hall

/-!
# Texts of Hall keys and errors: `src/lie/lie_basis/{hall_key,degree_range_map,hall_set}.rs`
-/

namespace RA
namespace Hall

namespace Key

/-- A piece as text; numbers in decimal. -/
def Piece.toText : Piece → String
  | .text s => s
  | .num n => toString n

/-- hall_key.rs:111-119 `Display`, as text. -/
def displayText (p : Profile) (k : Nat) : Res String := do
  let l ← display p k
  return l.foldl (fun acc x => acc ++ x.toText) ""

/-- hall_key.rs:103-108 `Debug`. -/
def debugText (p : Profile) (k : Nat) : Res String := do
  let key ← getKey p k
  let l ← getLparent p k
  let r ← getRparent p k
  let sz ← size p k
  return "HallKey(key=" ++ toString key ++ ", lparent=" ++ toString l ++ ", rparent=" ++ toString r ++ ", size=" ++ toString sz ++ ")"

end Key

/-- degree_range_map.rs:130-138 `Display` (the last arm is unreachable). -/
def MapError.toText : MapError → String
  | .mapIsEmpty => "degree range map is empty"
  | .degreeOutOfBounds => "requested degree is out of bounds"

/-- hall_set.rs:23-30 `HallSetError` with all its cases; a boxed error is represented by its text. -/
inductive AnyError where
  | set (e : SetError)
  | other (inner : String)
deriving DecidableEq, Repr

/-- hall_set.rs:34-43 `Display`. -/
def AnyError.toText : AnyError → String
  | .set .tooSmall => "the hall set is not sufficiently large"
  | .other inner => "another error occurred: " ++ inner
  | .set .readError => "an unknown error occured"
  | .set .writeError => "an unknown error occured"

/-- hall_set.rs:45-52 `cause`. -/
def AnyError.cause : AnyError → Option String
  | .other inner => some inner
  | .set _ => none

end Hall
end RA
