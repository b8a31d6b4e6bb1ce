import Verif.Common
/-!
# Model of the byte encoding of serialized rows (base/builtin/serialize.c)

Bytes are natural numbers below 256.
-/
namespace Verif.Serial
open Verif

/-- `struct $ROW` (base/builtin/serialize.h): class id and blob size are C `int`s, the
blob is an array of `blob_size` 8-byte words, here as raw bytes. -/
structure Row where
  classId : Int
  blobSize : Int
  blob : List Nat
  deriving DecidableEq, Repr

/-- The four bytes of a C `int` in memory (little endian targets). -/
def encInt (n : Int) : List Nat :=
  let u := (n % 2^32).toNat
  [u % 256, u / 256 % 256, u / 65536 % 256, u / 16777216 % 256]

/-- Reading a C `int` back from memory. -/
def decInt (b0 b1 b2 b3 : Nat) : Int :=
  let u : Int := b0 + 256 * b1 + 65536 * b2 + 16777216 * b3
  if u < 2^31 then u else u - 2^32

/-- Copy `n` bytes starting at `p` out of a buffer. -/
def copyOut (b : List Nat) (p n : Nat) : Res (List Nat) :=
  if p + n ≤ b.length then .ok ((b.drop p).take n) else .ub

/-- The summation loop of `$rows_to_bytes`, base/builtin/serialize.c:295-297 (`long`
arithmetic; a sum of fewer than 2^28 rows cannot overflow, not modelled). -/
def totalSize : List Row → Int
  | [] => 0
  | r :: rs => 8 + r.blobSize * 8 + totalSize rs

/-- The copying loop of `$rows_to_bytes`, base/builtin/serialize.c:303-308. A negative
size passed to `memcpy` or a blob shorter than announced is undefined. -/
def emit : List Row → Res (List Nat)
  | [] => .ok []
  | r :: rs =>
    if r.blobSize < 0 then .ub else do
      let blob ← copyOut r.blob 0 (r.blobSize * 8).toNat
      let rest ← emit rs
      return encInt r.classId ++ encInt r.blobSize ++ blob ++ rest

/-- `$rows_to_bytes`, base/builtin/serialize.c:294-310. -/
def toBytes (rows : List Row) : Res (List Nat) :=
  let size := totalSize rows
  if size > 2^31 - 1 then .raise .valueError
  else do
    let out ← emit rows
    if out.length ≤ size then return out else .ub

/-- Read of a C `int` at offset `p`. -/
def rdInt (b : List Nat) (p : Nat) : Res Int := do
  match ← copyOut b p 4 with
  | [b0, b1, b2, b3] => return decInt b0 b1 b2 b3
  | _ => .ub

/-- The loop of `$bytes_to_rows`, base/builtin/serialize.c:316-336; delivers the rows in
the order in which they are enqueued. -/
def parseLoop (b : List Nat) (p remaining : Nat) : Res (List Row) :=
  if _h0 : remaining > 0 then
    if _h8 : remaining < 8 then .raise .valueError
    else do
      let classId ← rdInt b p
      let blobSize ← rdInt b (p + 4)
      if blobSize < 0 then .raise .valueError
      else
        let blobBytes := (blobSize * 8).toNat
        if remaining - 8 < blobBytes then .raise .valueError
        else do
          let blob ← copyOut b (p + 8) blobBytes
          let rest ← parseLoop b (p + 8 + blobBytes) (remaining - 8 - blobBytes)
          return ⟨classId, blobSize, blob⟩ :: rest
  else .ok []
termination_by remaining

/-- `$bytes_to_rows`, base/builtin/serialize.c:312-340. -/
def fromBytes (b : List Nat) : Res (List Row) := do
  let rows ← parseLoop b 0 b.length
  match rows with
  | [] => .raise .valueError
  | r :: rs => return r :: rs

end Verif.Serial
