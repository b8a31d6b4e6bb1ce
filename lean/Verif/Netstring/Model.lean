import Verif.Common
/-!
# Model of netstring framing (base/rts/netstring.c)

A byte is a natural number (nothing depends on it being below 256); a buffer is the list
of its bytes.
-/
namespace Verif.Netstring
open Verif

/-- Read `buffer[i]`. -/
def rd (b : List Nat) (i : Nat) : Res Nat :=
  match b[i]? with | some x => .ok x | none => .ub

/-- `isdigit` in the "C" locale. -/
def isDigit (c : Nat) : Bool := 48 ≤ c && c ≤ 57

/-- Error codes, base/rts/netstring.h. -/
inductive Err
  | tooLong | noColon | tooShort | noComma | leadingZero | noLength
  deriving DecidableEq, Repr

/-- Outputs of a successful `netstring_read`: offset and length of the string
(`*netstring_start`, `*netstring_length`), and how `*pbuffer`, `*pbuffer_length` are
updated (offset of the rest, length of the rest). -/
structure Msg where
  start : Nat
  len : Nat
  restStart : Nat
  restLen : Nat
  deriving DecidableEq, Repr

/-- The digit loop, base/rts/netstring.c:53-58; result (`i`, `len`). -/
def digitLoop (b : List Nat) (i len : Nat) : Res (Except Err (Nat × Nat)) :=
  if _h : i < b.length then do
    let c ← rd b i
    if isDigit c then
      if i ≥ 9 then return .error .tooLong
      else digitLoop b (i + 1) (len * 10 + (c - 48))
    else return .ok (i, len)
  else return .ok (i, len)
termination_by b.length - i

/-- `netstring_read`, base/rts/netstring.c:32-78. An error leaves `*pbuffer` and
`*pbuffer_length` as they are (there is no assignment on these paths). -/
def read (b : List Nat) : Res (Except Err Msg) := do
  if b.length < 3 then return .error .tooShort
  let c0 ← rd b 0
  -- `buffer[0] == '0' && isdigit(buffer[1])`, line 46
  let lead ← (if c0 = 48 then do let c1 ← rd b 1; return isDigit c1 else return false)
  if lead then return .error .leadingZero
  if !isDigit c0 then return .error .noLength
  match ← digitLoop b 0 0 with
  | .error e => return .error e
  | .ok (i, len) =>
    if i + len + 1 ≥ b.length then return .error .tooShort
    let c ← rd b i
    if c ≠ 58 then return .error .noColon
    let i := i + 1
    let c ← rd b (i + len)
    if c ≠ 44 then return .error .noComma
    return .ok ⟨i, len, i + len + 1, b.length - (i + len + 1)⟩

/-- `numdigits`, base/rts/netstring.c:110-117. -/
def numdigits (len : Nat) : Nat :=
  let (n, len) := if len ≥ 100000000 then (1 + 8, len / 100000000) else (1, len)
  let (n, len) := if len ≥ 10000 then (n + 4, len / 10000) else (n, len)
  let (n, len) := if len ≥ 100 then (n + 2, len / 100) else (n, len)
  if len ≥ 10 then n + 1 else n

/-- Decimal digits as written by `sprintf("%lu")` (C library, assumed). -/
def sprintLu (n : Nat) : List Nat := (Nat.toDigits 10 n).map Char.toNat

/-- A write of several bytes at an offset of a heap block; `none` cells are
uninitialised. -/
def put (b : List (Option Nat)) (off : Nat) (xs : List Nat) : Res (List (Option Nat)) :=
  if off + xs.length ≤ b.length then
    .ok (b.take off ++ xs.map some ++ b.drop (off + xs.length))
  else .ub

/-- `strlen` of a heap block: needs a terminator. -/
def strlen : List (Option Nat) → Res Nat
  | [] => .ub
  | none :: _ => .ub
  | some 0 :: _ => .ok 0
  | some _ :: r => do let n ← strlen r; return n + 1

/-- `netstring_add_ex`, base/rts/netstring.c:129-160, with `data` non-null and
allocation succeeding. The argument is the previous block `*netstring` (`none` for
null); the result is the new block and the returned size. -/
def addEx (prev : Option (List (Option Nat))) (data : List Nat) : Res (List (Option Nat) × Nat) := do
  let numLen := numdigits data.length
  let sizeNext := numLen + data.length + 2
  let sizePrev ← (match prev with | none => .ok 0 | some p => strlen p)
  -- acton_malloc / acton_realloc keep the first `min(old, new)` bytes
  let old : List (Option Nat) := prev.getD []
  let size := sizePrev + sizeNext + 1
  let blk := old.take size ++ List.replicate (size - old.length) none
  if data.length = 0 then do
    let blk ← put blk sizePrev [48, 58, 44, 0]
    return (blk, sizePrev + sizeNext)
  else do
    let blk ← put blk sizePrev (sprintLu data.length ++ [58, 0])
    let ptr := sizePrev + (numLen + 1)
    let blk ← put blk ptr data
    let ptr := ptr + data.length
    let blk ← put blk ptr [44]
    let blk ← put blk (ptr + 1) [0]
    return (blk, sizePrev + sizeNext)

end Verif.Netstring
