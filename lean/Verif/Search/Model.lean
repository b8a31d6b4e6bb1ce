import Verif.Common
/-!
# Model of the Boyer-Moore-Horspool searches (base/builtin/str.c:610-653)

Indices are C `int`s with wrapping arithmetic (`-fwrapv`, base/build.zig).
-/
namespace Verif.Search
open Verif

/-- Read byte `i` of a buffer. -/
def getB (b : List Nat) (i : Int) : Res Nat :=
  if i < 0 then .ub else
  match b[i.toNat]? with
  | some x => .ok x
  | none => .ub

/-- The table `skip` of `bmh` after the second loop has run for the indices below `n`,
base/builtin/str.c:616-619. -/
def skipTab (p : List Nat) : Nat → Nat → Int
  | 0 => fun _ => p.length
  | n + 1 => fun c => if p[n]? = some c then (p.length : Int) - n - 1 else skipTab p n c

/-- Inner loop of `bmh`, base/builtin/str.c:625-627, with `j = j1 - 1`: delivers the final
`i` if the loop ends with `j = -1`, `none` otherwise. -/
def cmpBack (t p : List Nat) : Nat → Int → Res (Option Int)
  | 0, i => .ok (some i)
  | j + 1, i => do
    let a ← getB t i
    let b ← getB p j
    if a = b then cmpBack t p j (i - 1) else return none

/-- Outer loop of `bmh`, base/builtin/str.c:622-630. -/
def bmhLoop (t p : List Nat) : Nat → Int → Res Int
  | 0, _ => .diverge
  | f + 1, k =>
    if k < t.length then do
      match ← cmpBack t p p.length k with
      | some i => return i + 1
      | none =>
        let c ← getB t k
        bmhLoop t p f (wrap32 (k + skipTab p (p.length - 1) c))
    else .ok (-1)

/-- `bmh`, base/builtin/str.c:614-632; `t` and `p` hold `tbytes` and `pbytes` bytes. -/
def bmh (t p : List Nat) : Res Int :=
  if p.length > t.length then .ok (-1)
  else bmhLoop t p (t.length + 2) ((p.length : Int) - 1)

/-- The table `skip` of `rbmh` after `n` rounds of the second loop, which runs from
`pbytes-1` down to 1, base/builtin/str.c:638-640. -/
def rskipTab (p : List Nat) : Nat → Nat → Int
  | 0 => fun _ => p.length
  | n + 1 => fun c => if p[p.length - 1 - n]? = some c then (p.length : Int) - 1 - n else rskipTab p n c

/-- Inner loop of `rbmh`, base/builtin/str.c:646-648: `n` bytes are left to compare. -/
def cmpFwd (t p : List Nat) : Nat → Int → Int → Res (Option Int)
  | 0, _, i => .ok (some i)
  | n + 1, j, i => do
    let a ← getB t i
    let b ← getB p j
    if a = b then cmpFwd t p n (j + 1) (i + 1) else return none

/-- Outer loop of `rbmh`, base/builtin/str.c:643-651. -/
def rbmhLoop (t p : List Nat) : Nat → Int → Res Int
  | 0, _ => .diverge
  | f + 1, k =>
    if k ≥ 0 then do
      match ← cmpFwd t p p.length 0 k with
      | some i => return i - p.length
      | none =>
        let c ← getB t k
        rbmhLoop t p f (wrap32 (k - rskipTab p (p.length - 1) c))
    else .ok (-1)

/-- `rbmh`, base/builtin/str.c:635-653. -/
def rbmh (t p : List Nat) : Res Int :=
  if p.length > t.length then .ok (-1)
  else rbmhLoop t p (t.length + 2) ((t.length : Int) - p.length)

end Verif.Search
