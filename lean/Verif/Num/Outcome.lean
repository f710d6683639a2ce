/-!
# Outcomes of C++ operations

A C++ operation either returns, throws an exception, stops the process through GMP's
division-by-zero handler, or has undefined behaviour.  Undefined behaviour is a separate outcome of
the model; nothing may be concluded about what a compiled program does after it.
-/

namespace CLPoly

/-- Result of a modelled C++ operation. -/
inductive Out (α : Type _) where
  | ok (a : α)
  /-- a C++ exception is thrown -/
  | throws
  /-- the process is stopped by GMP's division-by-zero handler (SIGFPE) -/
  | trap
  /-- undefined behaviour -/
  | ub
  deriving DecidableEq, Repr

namespace Out

@[simp] def bind {α β} : Out α → (α → Out β) → Out β
  | ok a, f => f a
  | throws, _ => throws
  | trap, _ => trap
  | ub, _ => ub

instance : Monad Out where
  pure := ok
  bind := bind

@[simp] theorem bind_ok {α β} (a : α) (f : α → Out β) : (Out.ok a >>= f) = f a := rfl
@[simp] theorem bind_throws {α β} (f : α → Out β) : ((Out.throws : Out α) >>= f) = Out.throws := rfl
@[simp] theorem bind_trap {α β} (f : α → Out β) : ((Out.trap : Out α) >>= f) = Out.trap := rfl
@[simp] theorem bind_ub {α β} (f : α → Out β) : ((Out.ub : Out α) >>= f) = Out.ub := rfl
@[simp] theorem pure_eq {α} (a : α) : (pure a : Out α) = Out.ok a := rfl

end Out
end CLPoly
