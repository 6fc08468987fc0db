/-!
# Outcomes and machine arithmetic shared by the whole model
-/
namespace Verif

/-- Outcome of a modelled C++ call.
`ub` stands for undefined behaviour (out-of-range shift, out-of-bounds access,
null dereference, division by zero ...); `abort` for a failed `assert`.
It is not code of /repo: it says how a C++ execution may end. -/
inductive Res (α : Type u) where
  | ok (a : α)
  | abort
  | ub
  deriving Repr, DecidableEq

namespace Res
/-- Sequencing: undefined behaviour and aborts are final. Not code of /repo. -/
def bind {α : Type u} {β : Type v} : Res α → (α → Res β) → Res β
  | ok a, f => f a
  | abort, _ => abort
  | ub, _ => ub

instance : Monad Res where
  pure := ok
  bind := bind

@[simp] theorem ok_bind {α β : Type u} (a : α) (f : α → Res β) : (ok a >>= f) = f a := rfl
@[simp] theorem ub_bind {α β : Type u} (f : α → Res β) : ((ub : Res α) >>= f) = ub := rfl
@[simp] theorem abort_bind {α β : Type u} (f : α → Res β) : ((abort : Res α) >>= f) = abort := rfl
@[simp] theorem pure_eq {α : Type u} (a : α) : (pure a : Res α) = ok a := rfl

end Res

/-- `size_t` addition on a 64-bit target: reduction modulo `2^64`. C++ arithmetic, not code of /repo. -/
def add64 (a b : Nat) : Nat := (a + b) % 2 ^ 64
/-- `size_t` multiplication on a 64-bit target: reduction modulo `2^64`. C++ arithmetic, not code of /repo. -/
def mul64 (a b : Nat) : Nat := (a * b) % 2 ^ 64
/-- `size_t` subtraction on a 64-bit target: reduction modulo `2^64`. C++ arithmetic, not code of /repo. -/
def sub64 (a b : Nat) : Nat := (a + 2 ^ 64 - b % 2 ^ 64) % 2 ^ 64

theorem add64_eq {a b : Nat} (h : a + b < 2 ^ 64) : add64 a b = a + b := Nat.mod_eq_of_lt h
theorem mul64_eq {a b : Nat} (h : a * b < 2 ^ 64) : mul64 a b = a * b := Nat.mod_eq_of_lt h
theorem sub64_eq {a b : Nat} (h : b ≤ a) (ha : a < 2 ^ 64) : sub64 a b = a - b := by
  unfold sub64
  rw [Nat.mod_eq_of_lt (by omega : b < 2 ^ 64)]
  omega
/-- A wrapped subtraction is huge. -/
theorem sub64_wrap {a b : Nat} (h : a < b) (hb : b < 2 ^ 64) : sub64 a b = 2 ^ 64 - (b - a) := by
  unfold sub64
  rw [Nat.mod_eq_of_lt hb]
  omega

end Verif
