/-!
# Outcomes shared by all models

`Res α` is the outcome of running a piece of the modelled C code:

* `ok a`     – normal completion with result `a`;
* `raise e`  – the Acton exception `e` is raised (`$RAISE` in the C code);
* `ub`       – undefined behaviour of the C code: access outside a buffer, null
  dereference, use of an uninitialised variable, arithmetic trap, overflow that
  is not covered by `-fwrapv`;
* `diverge`  – the loop never terminates.

These are modelling devices; they correspond to no single definition in /repo.
-/
namespace Verif

/-- The Acton exception classes that the modelled code raises
(base/builtin/exceptions.c). Payloads (messages) are not modelled. `assertFail` is no exception: a C
`assert` fails and the process aborts. -/
inductive Exn
  | valueError | indexError | keyError | zeroDivision | stopIteration
  | memoryError | notImplemented | assertFail
  deriving DecidableEq, Repr

/-- Outcome of a piece of C code, see the module comment. -/
inductive Res (α : Type u)
  | ok (a : α)
  | raise (e : Exn)
  | ub
  | diverge
  deriving DecidableEq, Repr

namespace Res

/-- Sequencing: everything but a normal completion aborts. -/
protected def bind {α β} : Res α → (α → Res β) → Res β
  | ok a, f => f a
  | raise e, _ => raise e
  | ub, _ => ub
  | diverge, _ => diverge

instance : Monad Res where
  pure := Res.ok
  bind := Res.bind

@[simp] theorem pure_eq {α : Type u} (a : α) : (pure a : Res α) = ok a := rfl
@[simp] theorem ok_bind {α β : Type u} (a : α) (f : α → Res β) : (ok a >>= f) = f a := rfl
@[simp] theorem raise_bind {α β : Type u} (e) (f : α → Res β) : (raise e >>= f) = raise e := rfl
@[simp] theorem ub_bind {α β : Type u} (f : α → Res β) : (ub >>= f) = ub := rfl
@[simp] theorem diverge_bind {α β : Type u} (f : α → Res β) : (diverge >>= f) = diverge := rfl

end Res

/-- The C type `int64_t` holds the integers in `[-2^63, 2^63)`. -/
def InI64 (n : Int) : Prop := -2^63 ≤ n ∧ n < 2^63

/-- The C type `int` (32 bit on all supported targets). -/
def InI32 (n : Int) : Prop := -2^31 ≤ n ∧ n < 2^31

instance (n : Int) : Decidable (InI64 n) := by unfold InI64; infer_instance
instance (n : Int) : Decidable (InI32 n) := by unfold InI32; infer_instance

/-- Conversion to `int64_t` / wrap-around of `int64_t` arithmetic (`-fwrapv`). -/
def wrap64 (n : Int) : Int := n.bmod (2^64)

/-- Conversion to C `int`: implementation-defined modulo reduction on all supported compilers. -/
def wrap32 (n : Int) : Int := n.bmod (2^32)

theorem wrap64_of_in {n : Int} (h : InI64 n) : wrap64 n = n := by
  unfold wrap64 InI64 at *; unfold Int.bmod; simp only [Nat.reducePow]; split <;> omega

theorem wrap32_of_in {n : Int} (h : InI32 n) : wrap32 n = n := by
  unfold wrap32 InI32 at *; unfold Int.bmod; simp only [Nat.reducePow]; split <;> omega

theorem wrap64_in (n : Int) : InI64 (wrap64 n) := by
  unfold wrap64 InI64 Int.bmod; simp only [Nat.reducePow]; split <;> omega

theorem wrap32_in (n : Int) : InI32 (wrap32 n) := by
  unfold wrap32 InI32 Int.bmod; simp only [Nat.reducePow]; split <;> omega

end Verif
