import Mathlib.Data.List.Basic
/-!
# Model of how the results of tests are added up; C184, C185

`TestInfo.update`, base/src/testing.act:730-796, with the calls in `_report_result` (1164-1236), and
what `acton test` makes of the reports of a test process: `pickFinalTestInfo`, the end of
`runModuleTestStreaming`, `formatTestStatus` and `testExitCode`, compiler/acton/TestRunner.hs and
TestFormat.hs.

Simplifications: no stress mode, no `--snapshot-update`; durations, memory and output are left out;
which of the iterations are reported (every 50 ms) is arbitrary, except that the complete one is.
-/
namespace Verif.TestExit

abbrev Text := List Char

/-- How one iteration of a test ends, testing.act:476-493 and 1185-1192. -/
inductive Outcome
  | ok
  | skip (why : Text)
  | fail (e : Option Text)
  | err (e : Option Text)

/-- `TestResult` in testing.act: `success`, `exception`, `skipped`, as `_report_result` makes them. -/
def Outcome.success : Outcome → Option Bool
  | .ok => some true
  | .skip _ => some true
  | .fail _ => some false
  | .err _ => none

def Outcome.exc : Outcome → Option Text
  | .ok => none
  | .skip _ => none
  | .fail e => e
  | .err e => e

def Outcome.skipped : Outcome → Bool
  | .skip _ => true
  | _ => false

/-- `TestInfo`, testing.act:653-728; `TestResult` in Testing.hs. -/
structure Info where
  complete : Bool
  success : Option Bool
  skipped : Bool
  exc : Option Text
  flaky : Bool
  iters : Nat
  nskip : Nat
  nfail : Nat
  nerr : Nat

/-- A new `TestInfo`. -/
def Info.new : Info := ⟨false, none, false, none, false, 0, 0, 0, 0⟩

/-- The counters, testing.act:754-760. -/
def count (i : Info) (o : Outcome) : Info :=
  let i := { i with iters := i.iters + 1 }
  if o.skipped then { i with nskip := i.nskip + 1 }
  else if o.success = some false then { i with nfail := i.nfail + 1 }
  else if o.success = none then { i with nerr := i.nerr + 1 }
  else i

/-- `success`, `skipped` and `flaky`, testing.act:785-796. -/
def judge (i : Info) : Info :=
  { i with
    success := if i.nfail > 0 then some false else if i.nerr > 0 then none else some true
    skipped := decide (i.nskip > 0) && decide (i.nfail = 0) && decide (i.nerr = 0)
    flaky := !((decide (i.nfail = 0) && decide (i.nerr = 0)) || decide (i.nfail = i.iters) || decide (i.nerr = i.iters)) }

/-- `update`, testing.act:730-796. -/
def update (i : Info) (complete : Bool) (o : Outcome) : Info :=
  judge (count { i with complete := complete, exc := if i.exc.isNone then o.exc else i.exc } o)

/-- An iteration: how it ends, whether it is the last, whether it is reported. -/
structure Step where
  out : Outcome
  complete : Bool
  reported : Bool

/-- The reports of a test process, testing.act:1211-1219. -/
def reports : Info → List Step → List Info
  | _, [] => []
  | i, s :: ss =>
    if s.reported || s.complete then update i s.complete s.out :: reports (update i s.complete s.out) ss
    else reports (update i s.complete s.out) ss

/-- `pickFinalTestInfo`, TestRunner.hs:1121-1128. -/
def pickFinal (infos : List Info) : Option Info :=
  match infos.reverse with
  | [] => none
  | x :: xs =>
    match (x :: xs).find? (fun i => i.complete) with
    | some i => some i
    | none => some x

/-- `fallback`, TestRunner.hs:664-684. -/
def fallback : Info := ⟨false, none, false, some "No test result received".toList, false, 0, 0, 0, 1⟩

/-- A test process: its iterations, and its exit code. -/
structure Proc where
  steps : List Step
  code : Int

/-- The result of a test process, TestRunner.hs:660-708. -/
def result (p : Proc) : Info :=
  let r := (pickFinal (reports .new p.steps)).getD fallback
  if p.code = 0 then r else { r with exc := some "Test process exited with code".toList }

/-- The labels of `formatTestStatus`. -/
inductive Label
  | skip | ok | errFail | err | fail
  deriving DecidableEq

/-- `ok` in `formatTestStatus`. -/
def isOk (r : Info) : Bool := decide (r.success = some true) && r.exc.isNone && !r.skipped

/-- `base` in `formatTestStatus`, TestFormat.hs:30-43; the prefix `FLAKY` is left out. -/
def label (r : Info) : Label :=
  if r.skipped then .skip
  else if isOk r then .ok
  else if r.nerr > 0 ∧ r.nfail > 0 then .errFail
  else if r.nerr > 0 then .err
  else if r.nfail > 0 then .fail
  else if r.success = some false then .fail
  else .err

/-- `testExitCode`, TestRunner.hs:394-398; the summary (1143-1178) says "All tests passed" iff it is 0. -/
def exitCode (rs : List Info) : Nat :=
  if (rs.filter (fun r => r.success = none)).length > 0 then 2
  else if (rs.filter (fun r => r.success = some false)).length > 0 then 1
  else 0

/-! ## Specification -/

/-- The iteration went well. -/
def Fine : Outcome → Prop
  | .ok => True
  | .skip _ => True
  | .fail _ => False
  | .err _ => False

def Fails (o : Outcome) : Prop := ∃ e, o = .fail e
def Errs (o : Outcome) : Prop := ∃ e, o = .err e
def Skips (o : Outcome) : Prop := ∃ e, o = .skip e

/-- The process ends as it should: after the last iteration of the test, with exit code 0. -/
def Ended (p : Proc) : Prop :=
  p.code = 0 ∧ ∃ ss s, p.steps = ss ++ [s] ∧ s.complete = true ∧ ∀ x ∈ ss, x.complete = false

end Verif.TestExit
