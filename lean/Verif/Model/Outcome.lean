import Mathlib.Order.Defs.LinearOrder

/-!
# Outcomes of C++ calls

Undefined behaviour, exceptions and non-finite floating point results are distinct outcomes.
-/

namespace Tulip

/-- Exceptions the modelled code can raise (by type; `runtimeError` carries `what()`). -/
inductive Err where
  /-- `throw std::runtime_error(msg)` written in the repo. -/
  | runtimeError (msg : String)
  /-- `std::out_of_range` from `std::map::at` / `std::vector::at`. -/
  | outOfRange
  /-- any `nlohmann::json::exception` (`type_error`, `out_of_range`, `parse_error`). -/
  | json
  /-- `std::length_error` from `std::vector(n)`. -/
  | lengthError
  /-- `MFEM_VERIFY` failure (MFEM aborts or throws, depending on its build). -/
  | mfemVerify
  deriving DecidableEq, Repr

/-- Result of running a modelled C++ function. -/
inductive Outcome (α : Type _) where
  /-- normal return -/
  | ok (a : α)
  /-- a C++ exception propagates to the caller -/
  | throw (e : Err)
  /-- undefined behaviour (out-of-range access, read of an uninitialised object, ...) -/
  | ub
  /-- a floating-point division by zero: the C++ result contains inf/NaN -/
  | nonfinite
  deriving DecidableEq, Repr

namespace Outcome

/-- Sequencing: the first abnormal outcome wins. (`nonfinite` is treated as terminal: the C++ code
would continue with inf/NaN values; nothing is claimed about those runs.) -/
def bind {α β : Type _} (x : Outcome α) (f : α → Outcome β) : Outcome β :=
  match x with
  | ok a => f a
  | throw e => throw e
  | ub => ub
  | nonfinite => nonfinite

instance : Monad Outcome where
  pure := ok
  bind := bind

@[simp] theorem pure_eq {α : Type _} (a : α) : (pure a : Outcome α) = ok a := rfl
@[simp] theorem ok_bind {α β : Type _} (a : α) (f : α → Outcome β) : (ok a >>= f) = f a := rfl
@[simp] theorem throw_bind {α β : Type _} (e : Err) (f : α → Outcome β) :
    ((throw e : Outcome α) >>= f) = throw e := rfl
@[simp] theorem ub_bind {α β : Type _} (f : α → Outcome β) : ((ub : Outcome α) >>= f) = ub := rfl
@[simp] theorem nonfinite_bind {α β : Type _} (f : α → Outcome β) :
    ((nonfinite : Outcome α) >>= f) = nonfinite := rfl
@[simp] theorem map_ok {α β : Type _} (g : α → β) (a : α) : g <$> (ok a) = ok (g a) := rfl
@[simp] theorem map_throw {α β : Type _} (g : α → β) (e : Err) :
    g <$> (throw e : Outcome α) = throw e := rfl
@[simp] theorem map_ub {α β : Type _} (g : α → β) : g <$> (ub : Outcome α) = ub := rfl
@[simp] theorem map_nonfinite {α β : Type _} (g : α → β) :
    g <$> (nonfinite : Outcome α) = nonfinite := rfl

instance : LawfulMonad Outcome := LawfulMonad.mk'
  (id_map := by intro α x; cases x <;> rfl)
  (pure_bind := by intros; rfl)
  (bind_assoc := by intro α β γ x f g; cases x <;> rfl)

theorem bind_eq_ok {α β : Type _} {x : Outcome α} {f : α → Outcome β} {b : β} :
    (x >>= f) = ok b ↔ ∃ a, x = ok a ∧ f a = ok b := by
  cases x <;> simp

/-- `opt` present, or throw. -/
def ofOption {α : Type _} (e : Err) : Option α → Outcome α
  | some a => ok a
  | none => throw e

@[simp] theorem ofOption_some {α : Type _} (e : Err) (a : α) : ofOption e (some a) = ok a := rfl
@[simp] theorem ofOption_none {α : Type _} (e : Err) : ofOption e (none : Option α) = throw e := rfl

@[simp] theorem ofOption_eq_ok {α : Type _} {e : Err} {o : Option α} {a : α} :
    ofOption e o = ok a ↔ o = some a := by cases o <;> simp [ofOption]

/-- The call returned normally. -/
def isOk {α : Type _} : Outcome α → Bool
  | ok _ => true
  | _ => false

theorem isOk_iff {α : Type _} {x : Outcome α} : x.isOk = true ↔ ∃ a, x = ok a := by
  cases x <;> simp [isOk]

end Outcome
end Tulip
