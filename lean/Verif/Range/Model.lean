import Verif.Common
/-!
# Model of `range` (base/builtin/range.c)

A range object is its own iterator.
-/
namespace Verif.Range
open Verif

/-- The fields of a `B_range` object (set in base/builtin/range.c:39-42). -/
structure State where
  nxt : Int
  step : Int
  remaining : Int
  deriving DecidableEq, Repr

/-- `B_rangeD___init__`, base/builtin/range.c:20-44. `stop`/`step` are optional
boxed ints. `base/` is compiled with `-fwrapv`, so the subtraction on lines 40 and
41 wraps; the division on line 42 truncates and traps on `INT64_MIN / -1`.
The final addition cannot overflow (when the remainder is non-zero, `|stp| ≥ 2`). -/
def init (start : Int) (stop step : Option Int) : Res State :=
  let ustart := match stop with | some _ => start | none => 0
  let ustop := match stop with | some x => x | none => start
  let stp := step.getD 1
  if stp = 0 then .raise .valueError
  else
    let r := wrap64 (ustop - ustart)
    if r = -2^63 ∧ stp = -1 then .ub
    else .ok {
      nxt := wrap64 (ustart - stp)
      step := stp
      remaining := r.tdiv stp + (if r.tmod stp ≠ 0 then 1 else 0) }

/-- `$rangeD_U__next__`, base/builtin/range.c:79-83 (`remaining--` happens also
when the exception is raised). -/
def next (s : State) : Res Int × State :=
  let s' := { s with remaining := wrap64 (s.remaining - 1) }
  if s.remaining ≤ 0 then (.raise .stopIteration, s')
  else
    let v := wrap64 (s'.nxt + s'.step)
    (.ok v, { s' with nxt := v })

/-- State after `k` calls of `__next__`. -/
def after (s : State) : Nat → State
  | 0 => s
  | k + 1 => (next (after s k)).2

/-- Outcome of the `(k+1)`-th call of `__next__`. -/
def call (s : State) (k : Nat) : Res Int := (next (after s k)).1

end Verif.Range
