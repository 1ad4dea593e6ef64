import Verif.SpecClosure

/-!
# A computation that calls a closure, stated without the model
-/

namespace RA.Spec
open DenseAlg

/-- A computation that is over, or that calls a closure on an argument and goes on with the value. -/
inductive Calls (S α : Type) where
  | done (r : Res α)
  | call (x : S) (k : S → Calls S α)

/-- Run it with a closure, handing on the state of the closure; stop when a call does not return. -/
def Calls.run {S α T : Type} (func : Closure S T) : Calls S α → T → Res (α × T)
  | .done r, t => r >>= fun a => .ok (a, t)
  | .call x k, t => func t x >>= fun r => (k r.1).run func r.2

/-- Whatever the closure returns, there are exactly `n` calls, and after them the computation ends with `v` (returns, panics, ...). -/
inductive Calls.Uniform {S α : Type} : Nat → Res Unit → Calls S α → Prop
  | done (r : Res α) : Uniform 0 (r >>= fun _ => .ok ()) (.done r)
  | call (x : S) (k : S → Calls S α) (n : Nat) (v : Res Unit) : (∀ y, Uniform n v (k y)) → Uniform (n + 1) v (.call x k)

end RA.Spec
