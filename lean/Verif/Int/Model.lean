import Verif.Common
/-!
# Model of the fixed-width integer types (base/builtin/int.c, i8.c, i16.c, i32.c, u8.c, u16.c, u32.c, u64.c)

Values are mathematical integers in the range of the type. `base/` is compiled with `-fwrapv`.
Division by zero and a quotient outside of the type of the C division are undefined (they trap).
-/
namespace Verif.IntT
open Verif

/-- An integer type: `int` is `⟨64, true⟩`, `u8` is `⟨8, false⟩`. -/
structure Ty where
  bits : Nat
  signed : Bool
  deriving DecidableEq, Repr

def i8 : Ty := ⟨8, true⟩
def i16 : Ty := ⟨16, true⟩
def i32 : Ty := ⟨32, true⟩
def i64 : Ty := ⟨64, true⟩
def u8 : Ty := ⟨8, false⟩
def u16 : Ty := ⟨16, false⟩
def u32 : Ty := ⟨32, false⟩
def u64 : Ty := ⟨64, false⟩

/-- Conversion of a value to the type (C conversion with wrap-around). -/
def Ty.wrap (t : Ty) (x : Int) : Int := if t.signed then Int.bmod x (2 ^ t.bits) else x % 2 ^ t.bits

/-- The values of a type. -/
def Ty.In (t : Ty) (x : Int) : Prop := t.wrap x = x

/-- The signed power functions `int_pow` (int.c:18-23), `i8_pow` (i8.c:18-23), `i16_pow`
(i16.c:18-23), `i32_pow` (i32.c:18-23). `e / 2` and `e % 2` truncate. The products of the small
types are calculated in `int` and converted at the call and at the return, which amounts to
`wrap`. The recursion is cut after `f` levels. -/
def powT (t : Ty) : Nat → Int → Int → Res Int
  | 0, _, _ => .diverge
  | f + 1, a, e =>
    if e = 0 then .ok 1
    else if e = 1 then .ok a
    else if e.tmod 2 = 0 then powT t f (t.wrap (a * a)) (e.tdiv 2)
    else do
      let r ← powT t f (t.wrap (a * a)) (e.tdiv 2)
      return t.wrap (a * r)

/-- `int_pow` (int.c:18-23): called directly for `a ** e` on unboxed values
(CodeGen.hs:1624-1626), with any `e`. -/
def intPow (a e : Int) : Res Int := powT i64 65 a e

/-- The product `a*a` in `u8_pow` … `u64_pow` (u8.c:21, u16.c:21, u32.c:21, u64.c:21) as it is
passed to the `long` parameter of `int_pow`: the small types are promoted to `int`. -/
def uSquare (t : Ty) (a : Int) : Int :=
  if t.bits ≤ 16 then wrap32 (a * a) else wrap64 (a * a % 2 ^ t.bits)

/-- `u8_pow`, `u16_pow`, `u32_pow`, `u64_pow` (u8.c:18-23 …), used for unboxed values. -/
def uPow (t : Ty) (a e : Int) : Res Int :=
  if e = 0 then .ok 1
  else if e = 1 then .ok a
  else if e % 2 = 0 then do
    let r ← intPow (uSquare t a) (e / 2)
    return t.wrap r
  else do
    let r ← intPow (uSquare t a) (e / 2)
    return t.wrap (a * r)

/-- `__pow__` of the signed types: int.c:104-113, i8.c:101-110, i16.c:101-110, i32.c:101-110. -/
def pow (t : Ty) (a b : Int) : Res Int := if b < 0 then .raise .valueError else powT t 65 a b

/-- `__pow__` of `u8`, `u16`, `u32`, `u64` (u8.c:101-105, …): `int_pow(aval, bval)`; both arguments
are converted to `long`, the result to the type. -/
def uPowBoxed (t : Ty) (a b : Int) : Res Int := do
  let r ← intPow (wrap64 a) (wrap64 b)
  return t.wrap r

/-- Width of the type in which C calculates `a / b`: at least `int`. -/
def Ty.arith (t : Ty) : Ty := if t.bits < 32 then i32 else t

/-- `a / b` and `a % b` are undefined if `b` is zero or the quotient does not fit. -/
def divOk (t : Ty) (a b : Int) : Bool := b ≠ 0 && t.arith.wrap (a.tdiv b) = a.tdiv b

/-- `__floordiv__` (int.c:191-195, i8.c:188-192, u8.c:181-185, …) and `int_FLOORDIV` (int.h:17, …). -/
def floordiv (t : Ty) (a b : Int) : Res Int :=
  if b = 0 then .raise .zeroDivision
  else if divOk t a b then .ok (t.wrap (a.tdiv b)) else .ub

/-- `__mod__` (int.c:197-199, i8.c:194-196, u8.c:187-189, …): no test for zero. -/
def mod (t : Ty) (a b : Int) : Res Int := if divOk t a b then .ok (t.wrap (a.tmod b)) else .ub

/-- `int_MOD`, `u8_MOD`, … (int.h:18, …), used for unboxed values. -/
def modUnboxed (t : Ty) (a b : Int) : Res Int :=
  if b = 0 then .raise .zeroDivision else mod t a b

/-- `__divmod__` (int.c:185-189, i8.c:182-186, u8.c:175-179, …). -/
def divmod (t : Ty) (a b : Int) : Res (Int × Int) :=
  if divOk t a b then .ok (t.wrap (a.tdiv b), t.wrap (a.tmod b)) else .ub

/-- `__round__` of `int` (int.c:155-167) for a number `n` that is not negative. -/
def roundNonneg (n p : Int) : Res Int :=
  if p ≥ 0 then .ok n
  else do
    let p10 ← intPow 10 (wrap64 (-p))
    if divOk i64 n p10 then
      let r := if wrap64 (n.tmod p10 * 2) > p10 then n.tdiv p10 + 1 else n.tdiv p10
      return wrap64 (r * p10)
    else .ub

/-- `B_IntegralD_intD___round__` (int.c:155-167). The recursive call for a negative number gets
`-nval`; for the least `int` this is the same number again, without end. -/
def round (n p : Int) : Res Int :=
  if n < 0 then
    if wrap64 (-n) < 0 then .diverge
    else do
      let r ← roundNonneg (wrap64 (-n)) p
      return wrap64 (-r)
  else roundNonneg n p

end Verif.IntT
