import Mathlib.Data.List.Basic
/-!
# Model of how many iterations a test is run for; C191, C192

`effectiveTestTiming` and `testCmdArgs`, compiler/acton/TestRunner.hs:993-1042, the options in
CommandLineParser.hs:523-550, the configuration in base/src/testing.act:982-993 and the end of a test
in `_report_result` (1194-1209).

Simplifications: numbers are natural ones; time is in microseconds; no stress mode.
-/
namespace Verif.TestIter

/-- `TestMode` without stress mode. -/
inductive Mode
  | run | perf | list
  deriving DecidableEq

/-- The options of `acton test`, CommandLineParser.hs:522-526; `none` is an option that is not given. -/
structure Opts where
  iter : Nat
  maxIter : Option Nat
  minIter : Nat
  maxTime : Option Nat
  minTime : Option Nat

/-- The defaults, CommandLineParser.hs:524. -/
def Opts.default : Opts := ⟨0, none, 3, none, none⟩

/-- `minTime`, TestRunner.hs:995-1006, CommandLineParser.hs:545. -/
def minTime (m : Mode) (o : Opts) : Nat :=
  match o.minTime with
  | some t => t
  | none => if m = .perf then 1000 else 50

/-- `maxTime`, TestRunner.hs:1007-1017. -/
def maxTime (m : Mode) (o : Opts) : Nat :=
  match o.maxTime with
  | some t => if t = 0 then 0 else max t (minTime m o)
  | none => if m = .run then minTime m o else 1000

/-- The arguments of a test process. -/
structure Args where
  maxIter : Nat
  minIter : Nat
  maxTime : Nat
  minTime : Nat

/-- `testCmdArgs`, TestRunner.hs:1021-1042. -/
def args (m : Mode) (o : Opts) : Args :=
  if o.iter > 0 then ⟨o.iter, o.iter, 10 ^ 6, 1⟩
  else ⟨o.maxIter.getD (10 ^ 6), o.minIter, maxTime m o, minTime m o⟩

/-- The configuration of a test process, testing.act:982-993, times in microseconds. -/
def config (a : Args) : Args :=
  ⟨if a.maxIter = 0 then 0 else max a.maxIter a.minIter, a.minIter,
    if a.maxTime = 0 then 0 else max (a.maxTime * 1000) (a.minTime * 1000), a.minTime * 1000⟩

/-- `complete`, testing.act:1194-1209: after `n` iterations and the time `t`. -/
def complete (c : Args) (n t : Nat) (skipped : Bool) : Bool :=
  skipped || (decide (t > c.minTime) && decide (n > c.minIter)) || (decide (c.maxTime > 0) && decide (t > c.maxTime)) ||
    (decide (c.maxIter > 0) && decide (n ≥ c.maxIter))

/-- A test: the time after its `n`-th iteration, and whether that is skipped. -/
structure Test where
  time : Nat → Nat
  skips : Nat → Bool

/-- The loop of `_run_fn` and `_report_result`: `n` iterations are done; at most `fuel` are looked at. -/
def loop (c : Args) (t : Test) : Nat → Nat → Option Nat
  | 0, _ => none
  | fuel + 1, n => if complete c (n + 1) (t.time (n + 1)) (t.skips (n + 1)) then some (n + 1) else loop c t fuel (n + 1)

/-- The test is run for `n` iterations. -/
def Runs (m : Mode) (o : Opts) (t : Test) (n : Nat) : Prop := ∃ fuel, loop (config (args m o)) t fuel 0 = some n

end Verif.TestIter
