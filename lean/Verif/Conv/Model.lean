import Verif.Common
import Verif.Int.Model
import Verif.Big.Model
/-!
# Model of the conversions between number types, and of the bytes that are hashed

* The constructors of the integer types: `B_bigintG_new` (bigint.c:38-143) makes a bigint of any number, `B_intG_new`
  (int.c:27-37), `B_i32G_new` (i32.c:27-37), `B_i16G_new` (i16.c:27-37), `B_i8G_new` (i8.c:27-37), `B_u64G_new`
  (u64.c:28-38), …, `B_u1G_new` (u1.c:43-53) convert it. Texts are modelled in `Verif.Big.Text`.
* `B_floatG_new` (float.c:18-55) for numbers.
* The `hash` methods of the builtin types: which bytes they feed to the hasher.

Simplifications: a finite double is `m * 2^x` with integers `m`, `x`; the operations on doubles are the exact ones,
rounded to the nearest double, ties to even. A box of a number is zeroed before its value is written (`acton_malloc` is
`calloc`), bytes are in little-endian order.
-/
namespace Verif.Conv
open Verif Verif.IntT Verif.Big

def u1 : Ty := ⟨1, false⟩

/-- A double. -/
inductive Fl where
  | fin (m x : Int)
  | inf
  | nan
  deriving DecidableEq

/-- The number of binary digits. -/
def bitlen (n : Nat) : Nat := if n = 0 then 0 else n.log2 + 1

/-- The exponent that `frexp` yields for `m * 2^x`. -/
def frexpE (m x : Int) : Int := if m = 0 then 0 else bitlen m.natAbs + x

/-- `(long)` of a double: towards zero. -/
def toLong (m x : Int) : Int := if 0 ≤ x then m * 2 ^ x.toNat else m.tdiv (2 ^ (-x).toNat)

/-- bigint.c:120-133: the conversion of a double. `g` is the content of the block of the result. `m*4503599627370496.0`
has the same digits as the double. For infinities and NaN the exponent of `frexp` is not specified (0 in practice), the
conversion to `long` undefined. -/
def bigOfFloat (g : Nat → Nat) : Fl → Res Z
  | .fin m x =>
    let e := frexpE m x
    if e > 52 then lshift g (ofInt (toLong m (52 - bitlen m.natAbs))) (e - 52)
    else .ok (ofInt (toLong m x))
  | _ => .ub

/-- bigint.c:54-119, 134: the conversion of a number of type `t`. -/
def bigOf (t : Ty) (x : Int) : Z :=
  if t.signed then ofInt x
  else if x = 0 then ofInt 0
  else ⟨1, 1, fun _ => x.toNat⟩

/-- The limits in the test of the constructor of a signed type: int.c:31, i32.c:31, i16.c:31, i8.c:31. -/
def limit (t : Ty) : Nat := if t = i64 then 0x7fffffffffffffff else 0x7fffffff

/-- `sz` in the constructors: an `int` for `int` and the unsigned types (int.c:30, u64.c:31, …), a `long` for the
others. -/
def sizeIn (t : Ty) (z : Z) : Int := if t.signed ∧ t ≠ i64 then z.size else wrap32 z.size

/-- The test of a signed type. -/
def badSigned (t : Ty) (sz : Int) (k : Nat) : Bool :=
  decide (sz.natAbs > 1 ∨ (sz = 1 ∧ k > limit t) ∨ (sz = -1 ∧ k > limit t + 1))

/-- The test of an unsigned type; that of `u64` has no upper bound, which amounts to the same. -/
def badUnsigned (t : Ty) (sz : Int) (k : Nat) : Bool :=
  decide (sz > 1 ∨ sz < 0 ∨ (sz = 1 ∧ k > 2 ^ t.bits - 1))

/-- The constructors: the product `n*sz` of the word and the size is converted. -/
def new (t : Ty) (z : Z) : Res Int :=
  if (if t.signed then badSigned t (sizeIn t z) (z.n 0) else badUnsigned t (sizeIn t z) (z.n 0)) then .raise .valueError
  else .ok (t.wrap (z.n 0 * sizeIn t z))

/-! ### Doubles -/

/-- The nearest double of a natural number (53 digits), ties to even; the exponent range is not considered. -/
def rndNat (n : Nat) : Nat :=
  if bitlen n ≤ 53 then n
  else
    let k := bitlen n - 53
    let q := n / 2 ^ k
    let r := n % 2 ^ k
    if 2 * r > 2 ^ k ∨ (2 * r = 2 ^ k ∧ q % 2 = 1) then (q + 1) * 2 ^ k else q * 2 ^ k

def rnd (x : Int) : Int := if x < 0 then -(rndNat x.natAbs : Int) else rndNat x.natAbs

/-- `B_floatG_new`, float.c:19-27, for the integer types: an `i16` is read as `i8` and vice versa. -/
def floatOf (t : Ty) (x : Int) : Int :=
  if t = i16 then rnd (i8.wrap x)
  else if t = i8 then rnd (i16.wrap (x % 256))
  else rnd x

/-- The loop of float.c:36-39 for the words from `i`, `k` of them. -/
def floatLoop (n : Nat → Nat) : Nat → Nat → Nat → Nat
  | 0, _, res => res
  | k + 1, i, res => floatLoop n k (i + 1) (rndNat (res + rndNat (n i) * 2 ^ (64 * i)))

/-- float.c:28-41: a bigint. Doubles of at least `2^1024` (infinity) are not considered: the result is taken as it is. -/
def floatOfBig (z : Z) : Res Int :=
  if z.size = 0 then .ok 0
  else if z.size.natAbs > 16 then .raise .valueError
  else .ok (if z.size < 0 then -(floatLoop z.n z.size.natAbs 0 0 : Int) else floatLoop z.n z.size.natAbs 0 0)

/-! ### Hashing -/

/-- `k` bytes of a number, least significant first. -/
def le : Nat → Nat → List Nat
  | 0, _ => []
  | k + 1, n => n % 256 :: le k (n / 256)

/-- A value of a hashable builtin type, with the address of its box where it matters. -/
inductive Obj where
  | num (t : Ty) (addr : Nat) (x : Int)
  | bool (b : Bool)
  | big (z : Z)
  /-- A double, by its 64 bits. -/
  | float (addr bits : Nat)
  | complex (re im : Nat)
  | str (s : List Nat)
  | bytes (s : List Nat)
  /-- Tuples, component by component. -/
  | nil
  | cons (a : Obj) (r : Obj)

/-- The bytes that the `hash` methods feed to the hasher: int.c:272-275, i32.c:269-272, i16.c:269-272, i8.c:269-272 (four
bytes of the address of the box), u64.c:262-265, …, u1.c:273-276, bool.c:83-86, bigint.c:651-660, float.c:224-227 (the
address of the box), complex.c:145-148, str.c:1602-1605 (up to a NUL), str.c:3884-3887, builtin_functions.c:638-651
(`H` is the hash function, a new hasher for each component). -/
def fed (H : List Nat → Nat) : Obj → List Nat
  | .num t addr x =>
    if t.signed ∧ t ≠ i64 then le 4 addr
    else le 8 (x % 2 ^ t.bits).toNat
  | .bool b => le 8 (if b then 1 else 0)
  | .big z => le 8 (if z.size = 0 then 0 else z.n 0)
  | .float addr _ => le 8 addr
  | .complex re im => le 8 re ++ le 8 im
  | .str s => s.takeWhile (· ≠ 0)
  | .bytes s => s
  | .nil => []
  | .cons a r => le 8 (H (fed H a)) ++ fed H r

end Verif.Conv
