/-!
# Outcomes and machine arithmetic

Shared by every model file.  `Res` is the result of running a piece of Rust code; the arithmetic functions give the
semantics of Rust's built-in integer operators in the two build profiles.
-/

namespace RA

/-- Outcome of running a Rust function.
* `ok a`    – returns `a`;
* `panic`   – panics (`panic!`, `todo!`, `expect`, failed overflow check, division by zero, failed bounds check);
* `ub`      – reaches undefined behaviour (unchecked access outside the slice);
* `diverge` – never returns (unbounded recursion). -/
inductive Res (α : Type u) where
  | ok (a : α)
  | panic
  | ub
  | diverge
deriving DecidableEq, Repr

namespace Res

/-- Sequencing: the first abnormal outcome wins. -/
def bind {α : Type u} {β : Type v} (x : Res α) (f : α → Res β) : Res β :=
  match x with
  | ok a => f a
  | panic => panic
  | ub => ub
  | diverge => diverge

instance : Monad Res where
  pure := ok
  bind := Res.bind

@[simp] theorem pure_eq {α : Type u} (a : α) : (pure a : Res α) = ok a := rfl
@[simp] theorem bind_ok {α β : Type u} (a : α) (f : α → Res β) : (ok a >>= f) = f a := rfl
@[simp] theorem bind_panic {α β : Type u} (f : α → Res β) : (panic >>= f) = panic := rfl
@[simp] theorem bind_ub {α β : Type u} (f : α → Res β) : (ub >>= f) = ub := rfl
@[simp] theorem bind_diverge {α β : Type u} (f : α → Res β) : (diverge >>= f) = diverge := rfl
@[simp] theorem map_ok {α β : Type u} (a : α) (f : α → β) : (f <$> (ok a)) = ok (f a) := rfl
@[simp] theorem map_panic {α β : Type u} (f : α → β) : (f <$> (panic : Res α)) = panic := rfl
@[simp] theorem map_ub {α β : Type u} (f : α → β) : (f <$> (ub : Res α)) = ub := rfl
@[simp] theorem map_diverge {α β : Type u} (f : α → β) : (f <$> (diverge : Res α)) = diverge := rfl

instance : LawfulMonad Res := LawfulMonad.mk'
  (id_map := by intro α x; cases x <;> rfl)
  (pure_bind := by intros; rfl)
  (bind_assoc := by intro α β γ x f g; cases x <;> rfl)
  (bind_pure_comp := by intro α β f x; cases x <;> rfl)

end Res

/-- Cargo build profile.  `debug`: overflow checks and `debug_assert!` on.  `release`: both off. -/
inductive Profile where
  | debug
  | release
deriving DecidableEq, Repr

/-- `debug_assert!(c)`. -/
def debugAssert (p : Profile) (c : Bool) : Res Unit :=
  match p with
  | .debug => if c then .ok () else .panic
  | .release => .ok ()

/-- An arithmetic result `exact` that must fit in `w` bits; on overflow the debug profile panics and the release
profile delivers `wrapped`. -/
def fitW (p : Profile) (w exact wrapped : Nat) : Res Nat :=
  if exact < 2 ^ w then .ok exact
  else match p with
    | .debug => .panic
    | .release => .ok wrapped

/-- Unsigned `a + b` at width `w`. -/
def addW (p : Profile) (w a b : Nat) : Res Nat := fitW p w (a + b) ((a + b) % 2 ^ w)

/-- Unsigned `a * b` at width `w`. -/
def mulW (p : Profile) (w a b : Nat) : Res Nat := fitW p w (a * b) ((a * b) % 2 ^ w)

/-- Unsigned `a.pow(b)` at width `w`. -/
def powW (p : Profile) (w a b : Nat) : Res Nat := fitW p w (a ^ b) ((a ^ b) % 2 ^ w)

/-- Unsigned `a - b` at width `w` (operands below `2 ^ w`). -/
def subW (p : Profile) (w a b : Nat) : Res Nat :=
  if b ≤ a then .ok (a - b)
  else match p with
    | .debug => .panic
    | .release => .ok (a + 2 ^ w - b)

/-- `a << s` at width `w`: bits shifted out are lost silently; a shift amount `≥ w` panics in debug and is reduced
modulo `w` in release. -/
def shlW (p : Profile) (w a s : Nat) : Res Nat :=
  if s < w then .ok ((a <<< s) % 2 ^ w)
  else match p with
    | .debug => .panic
    | .release => .ok ((a <<< (s % w)) % 2 ^ w)

/-- `a >> s` at width `w`. -/
def shrW (p : Profile) (w a s : Nat) : Res Nat :=
  if s < w then .ok (a >>> s)
  else match p with
    | .debug => .panic
    | .release => .ok (a >>> (s % w))

/-- `!a` at width `w`. -/
def notW (w a : Nat) : Nat := 2 ^ w - 1 - a

/-- Unsigned `a / b`: dividing by zero panics in both profiles. -/
def divW (a b : Nat) : Res Nat := if b = 0 then .panic else .ok (a / b)

/-- Unsigned `a % b`: panics on zero in both profiles. -/
def remW (a b : Nat) : Res Nat := if b = 0 then .panic else .ok (a % b)

section lemmas
variable {p : Profile} {w a b : Nat}

theorem addW_ok (h : a + b < 2 ^ w) : addW p w a b = .ok (a + b) := by simp [addW, fitW, h]
theorem mulW_ok (h : a * b < 2 ^ w) : mulW p w a b = .ok (a * b) := by simp [mulW, fitW, h]
theorem powW_ok (h : a ^ b < 2 ^ w) : powW p w a b = .ok (a ^ b) := by simp [powW, fitW, h]
theorem subW_ok (h : b ≤ a) : subW p w a b = .ok (a - b) := by simp [subW, h]
theorem shlW_ok (h : b < w) : shlW p w a b = .ok ((a <<< b) % 2 ^ w) := by simp [shlW, h]
theorem shlW_ok' (h : b < w) (h2 : a * 2 ^ b < 2 ^ w) : shlW p w a b = .ok (a * 2 ^ b) := by
  rw [shlW_ok h, Nat.shiftLeft_eq, Nat.mod_eq_of_lt h2]
theorem shrW_ok (h : b < w) : shrW p w a b = .ok (a >>> b) := by simp [shrW, h]
theorem divW_ok (h : b ≠ 0) : divW a b = .ok (a / b) := by simp [divW, h]
theorem remW_ok (h : b ≠ 0) : remW a b = .ok (a % b) := by simp [remW, h]
theorem debugAssert_true : debugAssert p true = .ok () := by cases p <;> rfl

end lemmas

end RA
