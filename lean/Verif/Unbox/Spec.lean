import Verif.Unbox.Model
/-!
# Specification of arithmetic on numbers

What an expression means: every operand is evaluated once, in some order, and then the operator is
applied as the method of the boxed type applies it.
-/
namespace Verif.Unbox
open Verif.IntT

/-- Evaluation of an expression of the source program. -/
def eval {S} (W : World S) : Expr → S → Outs S
  | .lit _ n, s => [(.ok n, s)]
  | .var _ x, s => [(.ok (W.get x s), s)]
  | .call _ f, s => [W.call f s]
  | .bin t o a b, s =>
    ((eval W a s).flatMap fun p => match p with
      | (.ok x, s1) => (eval W b s1).map fun q => match q with
        | (.ok y, s2) => (method t o x y, s2)
        | (r, s2) => (r, s2)
      | (r, s1) => [(r, s1)]) ++
    ((eval W b s).flatMap fun q => match q with
      | (.ok y, s1) => (eval W a s1).map fun p => match p with
        | (.ok x, s2) => (method t o x y, s2)
        | (r, s2) => (r, s2)
      | (r, s1) => [(r, s1)])
  | .un t o a, s => (eval W a s).map fun p => match p with
      | (.ok x, s1) => (.ok (methodU t o x), s1)
      | (r, s1) => (r, s1)

/-- The assignment `x = x op e` of the source program. -/
def exec {S} (W : World S) (t : Ty) (x : Nat) (o : BinOp) (e : Expr) (s : S) : Outs S :=
  (eval W (.bin t o (.var t x) e) s).map fun p => match p with
    | (.ok v, s1) => (.ok v, W.set x v s1)
    | (r, s1) => (r, s1)

/-- The generated code does what the source program may do. If the source program runs into
undefined behaviour of the methods, nothing is demanded. -/
def Refines {S} (c l : Outs S) : Prop := ∀ o ∈ c, o ∈ l ∨ ∃ s, (Res.ub, s) ∈ l

/-- The integer types. -/
def IsNum (t : Ty) : Prop := t ∈ [i8, i16, i32, i64, u8, u16, u32, u64, u1]

instance (t : Ty) : Decidable (IsNum t) := by unfold IsNum; infer_instance

/-- The numbers that a type holds. -/
def Fits (t : Ty) (x : Int) : Prop :=
  if t.signed then -(2 ^ (t.bits - 1) : Int) ≤ x ∧ x < 2 ^ (t.bits - 1) else 0 ≤ x ∧ x < 2 ^ t.bits

instance (t : Ty) (x : Int) : Decidable (Fits t x) := by unfold Fits; infer_instance

/-- Well typed expressions: both operands have the type of the operator, except that shifts take an
`int` on the right; literals, variables and results of calls hold numbers of their type. -/
def Typed {S} (W : World S) : Expr → Prop
  | .lit t n => IsNum t ∧ Fits t n
  | .var t x => IsNum t ∧ ∀ s, Fits t (W.get x s)
  | .call t f => IsNum t ∧ ∀ s v s', W.call f s = (.ok v, s') → Fits t v
  | .bin t o a b => Typed W a ∧ Typed W b ∧ a.ty = t ∧
      b.ty = (if o = .shl ∨ o = .shr then i64 else t)
  | .un t _ a => Typed W a ∧ a.ty = t

/-- A call that has no effect and always returns. -/
def Quiet {S} (W : World S) (f : Nat) : Prop := ∀ s, ∃ v, W.call f s = (.ok v, s)

/-- All calls in the expression are quiet. -/
def Still {S} (W : World S) : Expr → Prop
  | .call _ f => Quiet W f
  | .bin _ _ a b => Still W a ∧ Still W b
  | .un _ _ a => Still W a
  | _ => True

/-- A literal that satisfies the condition. -/
def IsLit (p : Int → Prop) : Expr → Prop
  | .lit _ n => p n
  | _ => False

/-- The expressions without the constructs that go wrong: no effects in the operands of `//` and `%`,
except in the dividend if the divisor is a literal other than zero; no `//` on `i8` and `i16` unless
the divisor is a literal other than `-1`; no power with an exponent that may be negative, or beyond
`int` for `u64`. -/
def Safe {S} (W : World S) : Expr → Prop
  | .bin t o a b => Safe W a ∧ Safe W b ∧
      ((o = .fdiv ∨ o = .mod) → (Still W a ∧ Still W b) ∨ IsLit (· ≠ 0) b) ∧
      (o = .fdiv → (t ≠ i8 ∧ t ≠ i16) ∨ IsLit (· ≠ -1) b) ∧
      (o = .pow → (t.signed = false ∧ t ≠ u64) ∨ IsLit (fun n => 0 ≤ n ∧ n < 2 ^ 63) b)
  | .un _ _ a => Safe W a
  | _ => True

end Verif.Unbox
