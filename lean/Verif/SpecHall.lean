import Mathlib.NumberTheory.ArithmeticFunction.Moebius

/-!
# Dimensions of the free Lie algebra (Witt's formula)
-/

namespace RA.Spec
open ArithmeticFunction

/-- `∑_{d ∣ n} μ(d) w^(n/d)`: `n` times the dimension of the degree `n` part of the free Lie algebra on `w` letters. -/
def wittSum (w n : Nat) : Int := ∑ d ∈ n.divisors, moebius d * (w : Int) ^ (n / d)

/-- `x` is Witt's number for width `w` and degree `n`. -/
def IsWitt (w n : Nat) (x : Nat) : Prop := (n : Int) * x = wittSum w n

end RA.Spec
