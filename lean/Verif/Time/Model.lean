import Verif.Int.Model
/-!
# Model of `Instant` and `Duration` (base/src/time.act)

`int` values are `int64_t`; `+`, `-` and `*` of unboxed values are the C operators, which wrap
around (`-fwrapv`); `//`, `%` and `**` are those of `Verif.IntT`. The clock, which the methods only
pass on, is left out.
-/
namespace Verif.Time
open Verif Verif.IntT

/-- `Instant` (time.act:406-508) and `Duration` (time.act:519-587) have the same attributes. -/
structure T where
  second : Int
  attosecond : Int
  deriving DecidableEq, Repr

/-- `Instant.add`, time.act:461-463. -/
def add (t d : T) : Res T := do
  let s := wrap64 (t.attosecond + d.attosecond)
  let p ← intPow 10 18
  let q ← floordiv i64 s p
  let p ← intPow 10 18
  let r ← modUnboxed i64 s p
  return ⟨wrap64 (wrap64 (t.second + d.second) + q), r⟩

/-- The common part of `sub` and `since`: the underflow, time.act:468-470 and 481-483. -/
def borrow (s a : Int) : Res T :=
  if a < 0 then do
    let p ← intPow 10 18
    return ⟨wrap64 (s - 1), wrap64 (a + p)⟩
  else .ok ⟨s, a⟩

/-- `Instant.sub`, time.act:465-471. -/
def sub (t d : T) : Res T := borrow (wrap64 (t.second - d.second)) (wrap64 (t.attosecond - d.attosecond))

/-- `Instant.since`, time.act:473-485. -/
def since (t u : T) : Res T := borrow (wrap64 (t.second - u.second)) (wrap64 (t.attosecond - u.attosecond))

/-- `Instant.unix_s`, time.act:490-493. -/
def unixS (t : T) : Res Int := .ok t.second

/-- `Instant.unix_ms`, `unix_us`, `unix_ns`, time.act:495-508, with `m = 1000, 10**6, 10**9` and
`e = 15, 12, 9`. -/
def unixScaled (m e : Int) (t : T) : Res Int := do
  let p ← intPow 10 e
  let q ← floordiv i64 t.attosecond p
  return wrap64 (wrap64 (t.second * m) + q)

def unixMs : T → Res Int := unixScaled 1000 15
def unixUs : T → Res Int := unixScaled 1000000 12
def unixNs : T → Res Int := unixScaled 1000000000 9

/-- `__eq__`, time.act:511-512. -/
def eq (t u : T) : Bool := t.second = u.second && t.attosecond = u.attosecond

/-- `__lt__`, time.act:514-515. -/
def lt (t u : T) : Bool := t.second < u.second || t.second = u.second && t.attosecond < u.attosecond

/-- `__ne__`, `__le__`, `__gt__`, `__ge__` of the protocols `Eq` and `Ord`, base/src/__builtin__.act:466-467
and 479-484. -/
def ne (t u : T) : Bool := !eq t u
def gt (t u : T) : Bool := lt u t
def le (t u : T) : Bool := lt t u || eq t u
def ge (t u : T) : Bool := le u t

/-- `Duration.from_parts`, time.act:543-550. -/
def fromParts (week day hour minute second attosecond : Int) : T :=
  ⟨wrap64 (wrap64 (wrap64 (wrap64 (wrap64 (wrap64 (wrap64 (wrap64 (week * 7) * 24) * 60) * 60)
    + wrap64 (wrap64 (wrap64 (day * 24) * 60) * 60))
    + wrap64 (wrap64 (hour * 60) * 60))
    + wrap64 (minute * 60))
    + second), attosecond⟩

/-- The numbers that `Duration.str_human` (time.act:552-570) prints. -/
structure Parts where
  weeks : Int
  days : Int
  hours : Int
  minutes : Int
  seconds : Int
  ns : Int
  deriving DecidableEq, Repr

def strHuman (d : T) : Res Parts := do
  let weeks ← floordiv i64 d.second (7 * 24 * 60 * 60)
  let r1 ← modUnboxed i64 d.second (7 * 24 * 60 * 60)
  let days ← floordiv i64 r1 (24 * 60 * 60)
  let r2 ← modUnboxed i64 d.second (24 * 60 * 60)
  let hours ← floordiv i64 r2 (60 * 60)
  let r3 ← modUnboxed i64 d.second (60 * 60)
  let minutes ← floordiv i64 r3 60
  let seconds ← modUnboxed i64 d.second 60
  let p ← intPow 10 9
  let ns ← floordiv i64 d.attosecond p
  return ⟨weeks, days, hours, minutes, seconds, ns⟩

end Verif.Time
