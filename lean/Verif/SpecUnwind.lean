import Verif.Model.Unwind

/-!
# Calls until one does not return, stated without the model
-/

namespace RA.Spec

/-- Call the closure on every element, in order, handing on its state, until a call does not return: how that ended, the values returned up to then, and the
state of the closure. -/
def callUntil {S T : Type} (func : DenseAlg.ClosureU S T) : T → List S → Res Unit × List S × T
  | t, [] => (.ok (), [], t)
  | t, x :: xs =>
    match func t x with
    | (.ok y, t) => ((callUntil func t xs).1, y :: (callUntil func t xs).2.1, (callUntil func t xs).2.2)
    | (.panic, t) => (.panic, [], t)
    | (.ub, t) => (.ub, [], t)
    | (.diverge, t) => (.diverge, [], t)

end RA.Spec
