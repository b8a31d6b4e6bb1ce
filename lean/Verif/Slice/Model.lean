import Verif.Common
/-!
# Model of slicing (base/builtin/slice.c, base/builtin/list.c)
-/
namespace Verif.Slice
open Verif

/-- A `B_slice` object: three optional 64-bit bounds (base/builtin/slice.h:2-7,
`B_sliceD___init__` base/builtin/slice.c:61-78). -/
structure Slc where
  start : Option Int
  stop : Option Int
  step : Option Int
  deriving DecidableEq, Repr

/-- All bounds are `int64_t` values. -/
def Slc.I64 (s : Slc) : Prop :=
  (∀ x ∈ s.start, InI64 x) ∧ (∀ x ∈ s.stop, InI64 x) ∧ (∀ x ∈ s.step, InI64 x)

/-- Result of `normalize_slice` (its four out-parameters). -/
structure Norm where
  slen : Int
  start : Int
  stop : Int
  step : Int
  deriving DecidableEq, Repr

/-- One bound, base/builtin/slice.c:39-41 and 46-48 (identical expressions). -/
def normBound (len step x : Int) : Int :=
  if x ≥ 0 then (if x < len then x else len - 1 + (if step > 0 then 1 else 0))
  else (if x > -len then len + x else 0)

/-- The start bound, base/builtin/slice.c:36-42. -/
def normStart (len step : Int) : Option Int → Int
  | none => if step > 0 then 0 else len - 1
  | some x => normBound len step x

/-- The stop bound, base/builtin/slice.c:43-49. -/
def normStop (len step : Int) : Option Int → Int
  | none => if step > 0 then len else -1
  | some x => normBound len step x

/-- `normalize_slice`, base/builtin/slice.c:28-55. C `/` and `%` truncate
(`Int.tdiv`, `Int.tmod`). No intermediate result can overflow because
`0 ≤ len < 2^31` at every call site, so mathematical integers are used. -/
def normalizeSlice (s : Slc) (len : Int) : Res Norm :=
  let step := s.step.getD 1
  if step = 0 then .raise .valueError
  else
    let start := normStart len step s.start
    let stop := normStop len step s.stop
    let slen :=
      if (step > 0 ∧ start ≥ stop) ∨ (step < 0 ∧ start ≤ stop) then 0
      else (stop - start).tdiv step + (if (stop - start).tmod step ≠ 0 then 1 else 0)
    .ok ⟨slen, start, stop, step⟩

/-- The access `lst->data[t]`; outside of the list it is undefined behaviour.
(Cells between length and capacity hold no list element, reading them is
counted as undefined too.) -/
def rd (l : List α) (t : Int) : Res α :=
  if t < 0 then .ub else match l[t.toNat]? with
    | some a => .ok a
    | none => .ub

/-- The copying loop of `__getslice__`, base/builtin/list.c:443-447; `n` is the
number of remaining iterations. The result list has capacity `slen`, so the
`append` never reallocates; the value of `t` after the last iteration is dead. -/
def sliceLoop (l : List α) (step : Int) : Int → Nat → Res (List α)
  | _, 0 => .ok []
  | t, n + 1 => do
    let a ← rd l t
    let r ← sliceLoop l step (t + step) n
    return a :: r

/-- `B_SequenceD_listD___getslice__`, base/builtin/list.c:436-449.
`B_SliceableD_bytesD___getslice__` (base/builtin/str.c:3829) has the same loop. -/
def getslice (l : List α) (s : Slc) : Res (List α) := do
  let n ← normalizeSlice s l.length
  sliceLoop l n.step n.start n.slen.toNat

end Verif.Slice
