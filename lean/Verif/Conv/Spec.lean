import Verif.Conv.Model
import Verif.Int.Spec
/-! # What conversions and hashing should do -/
namespace Verif.Conv
open Verif Verif.IntT Verif.Big

/-- All integer types of fixed width. -/
def IsTy1 (t : Ty) : Prop := IsTy t ∨ t = u1

/-- `r` is the number `m * 2^x` without its fraction. -/
def IsTrunc (m x r : Int) : Prop :=
  if 0 ≤ x then r = m * 2 ^ x.toNat
  else 0 ≤ r * m ∧ r.natAbs * 2 ^ (-x).toNat ≤ m.natAbs ∧ m.natAbs < (r.natAbs + 1) * 2 ^ (-x).toNat

/-- Integers that are doubles (but for the exponent range): at most 53 digits, apart from zeros at the end. -/
def IsDouble (r : Int) : Prop := ∃ (m : Int) (k : Nat), m.natAbs ≤ 2 ^ 53 ∧ r = m * 2 ^ k

/-- `r` is a double, and none is nearer to `x`. -/
def IsNearestDouble (x r : Int) : Prop := IsDouble r ∧ ∀ y, IsDouble y → (x - r).natAbs ≤ (x - y).natAbs

/-- The equality of doubles, given by their bits, other than NaN: the same bits, or both zero. -/
def flEq (a b : Nat) : Prop := a = b ∨ (a % 2 ^ 63 = 0 ∧ b % 2 ^ 63 = 0)

/-- The methods `__eq__` of values of the same type. Texts are compared up to a NUL. -/
inductive Equal : Obj → Obj → Prop where
  | num (t p q x) : Equal (.num t p x) (.num t q x)
  | bool (b) : Equal (.bool b) (.bool b)
  | big (y z) : y.Ok → z.Ok → y.val = z.val → Equal (.big y) (.big z)
  | float (p q a b) : flEq a b → Equal (.float p a) (.float q b)
  | complex (a b c d) : flEq a c → flEq b d → Equal (.complex a b) (.complex c d)
  | str (s t) : s.takeWhile (· ≠ 0) = t.takeWhile (· ≠ 0) → Equal (.str s) (.str t)
  | bytes (s) : Equal (.bytes s) (.bytes s)
  | nil : Equal .nil .nil
  | cons (a b r s) : Equal a b → Equal r s → Equal (.cons a r) (.cons b s)

/-- Values without numbers of small signed types, floats and complex numbers. -/
def plain : Obj → Bool
  | .num t _ _ => !t.signed || t = i64
  | .float _ _ => false
  | .complex _ _ => false
  | .cons a r => plain a && plain r
  | _ => true

end Verif.Conv
