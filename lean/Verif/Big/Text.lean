import Verif.Big.Model
/-!
# Model of the conversions between `bigint` and text (base/builtin/bigint.c:692-904)

The arithmetic of the library bsdnt (`zz_divrem` of numbers that are not negative, `zz_powi`, `zz_mul`, `zz_muli`,
`zz_add`, `zz_seti`) is that of the integers. Texts are lists of bytes; the byte behind the end is zero.
-/
namespace Verif.Big
open Verif

/-- `"%lu"`. -/
def dec (n : Nat) : List Nat := if n < 10 then [48 + n] else dec (n / 10) ++ [48 + n % 10]

/-- `memcpy(&res[pos], buf, len)`. -/
def store (res : List Nat) (pos : Nat) (buf : List Nat) : Res (List Nat) :=
  if pos + buf.length ≤ res.length then .ok (res.take pos ++ buf ++ res.drop (pos + buf.length)) else .ub

/-- The end of the recursion, bigint.c:736-745: `buf` has room for 18 digits and the terminating zero. The word of a
number that is zero is taken to be zero. -/
def leaf (ishead : Bool) (n : Nat) (res : List Nat) (pos : Nat) : Res (List Nat × Nat) :=
  let buf := dec n
  if buf.length + 1 > 19 then .ub
  else if ishead then do
    let res ← store res pos buf
    return (res, pos + buf.length)
  else do
    let res ← store res (pos + 18 - buf.length) buf
    return (res, pos + 18)

/-- `get_str0`, bigint.c:722-747, with `d + 1` as first argument; `dens[d]` is `10^(18*2^d)`. -/
def getStr0 : Nat → Bool → Nat → List Nat → Nat → Res (List Nat × Nat)
  | 0, ishead, n, res, pos => leaf ishead n res pos
  | d + 1, ishead, n, res, pos =>
    let hi := n / 10 ^ (18 * 2 ^ d)
    let lo := n % 10 ^ (18 * 2 ^ d)
    if hi = 0 ∧ ishead then getStr0 d ishead lo res pos
    else do
      let r ← getStr0 d ishead hi res pos
      getStr0 d false lo r.1 r.2

/-- The text of a block up to the terminating zero. -/
def cText (res : List Nat) : List Nat := res.takeWhile (· ≠ 0)

/-- bigint.c:783-786. -/
def sign (neg : Bool) (res : List Nat) : Res (List Nat × Nat) :=
  if neg then do
    let res ← store res 0 [45]
    return (res, 1)
  else .ok (res, 0)

/-- `get_str`, bigint.c:750-790. The number of squarings `sq` and the length of the block `cap` are calculated with
floating point logarithms and are parameters here. -/
def getStr (sq : Nat → Nat) (cap : Nat) (a : Z) : Res (List Nat) :=
  if a.size = 0 then .ok [48]
  else do
    let nlen := a.size.natAbs
    let d := if nlen = 1 then 0 else sq nlen
    let s ← sign (decide (a.size < 0)) (List.replicate cap 48)
    let r ← getStr0 d true (words a.n nlen) s.1 s.2
    let res ← store r.1 r.2 [0]
    return cText res

/-! ### Reading -/

/-- `POWINWORD`, bigint.c:697. -/
def powInWord : List Nat := [0,0,62,39,31,27,24,22,20,19,18,18,17,17,16,16,15,15,15,14,14,14,14,13,13,13,13,13,13,12,12,12,12,12,12,12,12]

def P (base : Nat) : Nat := powInWord.getD base 0

/-- `digvalue`, bigint.c:702-719. -/
def digvalue (c : Nat) : Nat :=
  if 48 ≤ c ∧ c ≤ 57 then c - 48
  else if 65 ≤ c ∧ c ≤ 90 then c - 55
  else if 97 ≤ c ∧ c ≤ 122 then c - 87
  else 99

/-- The loops bigint.c:798-799 and 888-889 over `k` digits, on `unsigned long`. -/
def chunk (base : Nat) : Nat → List Nat → Nat → Nat
  | 0, _, val => val
  | k + 1, s, val => chunk base k s.tail ((val * base + digvalue (s.headD 0)) % B)

/-- `set_str0`, bigint.c:793-817; `zz_seti` takes a `long`. -/
def setStr0 (base : Nat) (s : List Nat) (parts : Nat) : Res Int :=
  if parts = 0 then .diverge
  else if parts = 1 then .ok (wrap64 (chunk base (P base) s 0))
  else do
    let hi ← setStr0 base s (parts / 2)
    let lo ← setStr0 base (s.drop (parts / 2 * P base)) (parts - parts / 2)
    return (base : Int) ^ (P base * (parts - parts / 2)) * hi + lo
termination_by parts

/-- bigint.c:878-903 on the digits; the result of the first branch does not get the sign. -/
def convert (base : Nat) (neg : Bool) (len : Nat) (s : List Nat) : Res Int :=
  let parts := len / P base
  let offset := len % P base
  if offset = 0 then setStr0 base s parts
  else
    let headval : Int := wrap64 (chunk base offset s 0)
    if parts > 0 then do
      let res0 ← setStr0 base (s.drop offset) parts
      return (if neg then -1 else 1) * ((base : Int) ^ (P base * parts) * headval + res0)
    else .ok ((if neg then -1 else 1) * headval)

/-- `isspace` in the C locale. -/
def isSpace (c : Nat) : Bool := decide (c = 32 ∨ (9 ≤ c ∧ c ≤ 13))

/-- What is known after the prefix: the base, the first digit, digits already counted, and where to go on. -/
structure Pre where
  base : Nat
  start : List Nat
  len : Nat
  rest : List Nat

/-- bigint.c:830-843. -/
def prefixOf (s : List Nat) : Pre :=
  if s.headD 0 = 48 then
    let t := s.tail
    let c := t.headD 0
    if c = 120 ∨ c = 88 then ⟨16, t.tail, 0, t.tail⟩
    else if c = 111 ∨ c = 79 then ⟨8, t.tail, 0, t.tail⟩
    else if c = 98 ∨ c = 66 then ⟨2, t.tail, 0, t.tail⟩
    else ⟨0, s, 1, t⟩
  else ⟨0, s, 0, s⟩

/-- bigint.c:844-866: the base; `intbase` is the argument of the constructor. -/
def baseOf (fromstr : Nat) : Option Int → Res Nat
  | none => .ok (if fromstr ≠ 0 then fromstr else 10)
  | some b =>
    if b < 2 ∨ b > 36 then .raise .valueError
    else if fromstr = 0 then .ok b.toNat
    else if fromstr ≠ b.toNat then .raise .valueError
    else .ok fromstr

/-- bigint.c:867-903. -/
def digits (neg : Bool) (p : Pre) (base : Nat) : Res Int :=
  let k := (p.rest.takeWhile (fun c => digvalue c < base)).length
  if p.len + k = 0 ∨ (p.rest.drop k).headD 0 ≠ 0 then .raise .valueError
  else convert base neg (p.len + k) p.start

/-- bigint.c:824-829. -/
def signOf (s : List Nat) : Bool × List Nat :=
  if s.headD 0 = 43 then (false, s.tail) else if s.headD 0 = 45 then (true, s.tail) else (false, s)

/-- `set_str`, bigint.c:820-904. -/
def setStr (s : List Nat) (intbase : Option Int) : Res Int := do
  let s := signOf (s.dropWhile isSpace)
  let p := prefixOf s.2
  let base ← baseOf p.base intbase
  digits s.1 p base

end Verif.Big
