import Mathlib.Data.List.Dedup
import Mathlib.Data.List.Sort

/-!
# The scheduler of the build graph

Model of the coordinator loop of `compileTasks` in
`/repo/compiler/lib/src/Acton/Compile.hs` (lines 3122-4290): the dependency graph over the tasks,
the stages of each task, the ready, running and pending stages, what happens when a worker returns,
and the deferred back jobs.

What a worker does (`runParseStage`, `doOne`) is not modelled here: when it is waited for, it
returns an arbitrary outcome of the kind its stage returns.  The order in which workers return is
arbitrary.

Simplifications, common to the whole file:

* A `Data.Map` is an association list whose first entry for a key counts, a `Data.Set` a list.
* The three maps `res`, `implRes` and `nameRes` always have the same keys and are one map here.
* The callbacks, the timing and the list of running workers kept for cancellation on exit
  (`runningRef`) are left out; instead the model records what happened in `trace`, newest event
  first.
* A worker that throws, and a deferred back job whose preparation throws, end the build; such
  builds are not modelled.
-/

namespace Verif.Build

variable {κ : Type} [DecidableEq κ] {π η ι : Type} [DecidableEq ι]

/-- `StageKey` (Compile.hs line 1500). -/
inductive Stage (κ : Type) where
  | parse (k : κ)
  | front (k : κ)
  deriving DecidableEq

/-- `stageTaskKey` (Compile.hs lines 4112-4116). -/
def Stage.key : Stage κ → κ
  | .parse k => k
  | .front k => k

/-- What the scheduler looks at in a `GlobalTask`: its key, the values of `gtImportProviders`,
whether it is `__builtin__`, and whether `needsParseStage` holds (Compile.hs lines 3189-3218). -/
structure Task (κ : Type) where
  key : κ
  providers : List κ
  builtin : Bool
  parse : Bool
deriving DecidableEq

/-- `nonBuiltinTasks` (Compile.hs line 3192). -/
def nonBuiltin (tasks : List (Task κ)) : List (Task κ) := tasks.filter (fun t => !t.builtin)

/-- `depsOf` (Compile.hs line 3194): the providers among the tasks other than `__builtin__`,
each once. -/
def depsOf (tasks : List (Task κ)) (t : Task κ) : List κ :=
  (t.providers.filter (fun d => (nonBuiltin tasks).any (fun u => u.key == d))).dedup

/-- The build graph: all tasks, and `order` (Compile.hs line 3198), the tasks other than
`__builtin__` in the order in which `stronglyConnComp` returns them. -/
structure Graph (κ : Type) where
  tasks : List (Task κ)
  order : List (Task κ)

/-- The dependencies of a task in the graph. -/
def Graph.deps (g : Graph κ) (t : Task κ) : List κ := depsOf g.tasks t

/-- `revMap` at `k` (Compile.hs lines 3204-3207): the tasks that depend on `k`.  The order of the
list, which nothing depends on, is that of `order`. -/
def Graph.rev (g : Graph κ) (k : κ) : List κ :=
  (g.order.filter (fun t => k ∈ g.deps t)).map Task.key

/-- The `go` of `dependentClosure` (Compile.hs lines 3273-3278), with a bound on the number of
rounds. -/
def closeGo (rev : κ → List κ) : Nat → List κ → List κ → List κ
  | 0, seen, _ => seen
  | _ + 1, seen, [] => seen
  | n + 1, seen, x :: xs =>
      let new := (rev x).filter (fun d => !decide (d ∈ seen))
      closeGo rev n (new.reverse ++ seen) (new ++ xs)

/-- `dependentClosure` (Compile.hs lines 3270-3278).  Every task enters the work list at most once,
so one round more than there are tasks, and one for the start, are enough. -/
def Graph.closure (g : Graph κ) (k : κ) : List κ := closeGo g.rev (g.order.length + 2) [] [k]

/-- `stageDepsOf` and `stageDepMap` (Compile.hs lines 3220-3235): each stage with the stages it
waits for. -/
def Graph.stageDeps (g : Graph κ) : List (Stage κ × List (Stage κ)) :=
  (g.order.filter Task.parse).map (fun t => (.parse t.key, [])) ++
  g.order.map (fun t => (.front t.key,
    (if t.parse then [.parse t.key] else []) ++ (g.deps t).map .front))

/-- The keys of `stageDepMap`, `stageIndeg` and the set `stagePending0`
(Compile.hs lines 3226-3251). -/
def Graph.stages (g : Graph κ) : List (Stage κ) := g.stageDeps.map Prod.fst

/-- `M.lookup stageDone stageRevMap` (Compile.hs lines 3237-3242). -/
def Graph.stageRev (g : Graph κ) (x : Stage κ) : List (Stage κ) :=
  g.stageDeps.flatMap (fun e => (e.2.filter (fun d => d == x)).map (fun _ => e.1))

/-- A lookup in `stageIndeg` with the default 0 (Compile.hs lines 3244-3245, 4258). -/
def Graph.indeg (g : Graph κ) (sk : Stage κ) : Int :=
  match g.stageDeps.find? (fun e => e.1 == sk) with
  | some e => e.2.length
  | none => 0

/-- What the scheduler looks at in a `FrontResult` (Compile.hs lines 4272-4283): the three hashes
it hands on, `frInterestDeps`, and whether `frDeferredBackJob` is there. -/
structure Result (η ι : Type) where
  hashes : η
  interest : List ι
  deferred : Bool

/-- What waiting for a worker gives (Compile.hs lines 1502, 4223): diagnostics, a parsed task or
the result of the front passes. -/
inductive Outcome (π η ι : Type) where
  | failed
  | parsed (p : π)
  | fronted (r : Result η ι)

/-- What happened, for the statement of properties: a worker was started and given the results and
parsed tasks there were; it returned well or with diagnostics; it was cancelled; a deferred back job
was prepared with the interests known. -/
inductive Event (κ π η ι : Type) where
  | start (sk : Stage κ) (res : List (κ × Result η ι)) (parsed : List (κ × π))
  | done (sk : Stage κ) (o : Outcome π η ι)
  | fail (sk : Stage κ)
  | cancel (sk : Stage κ)
  | back (k : κ) (interest : List ι)

/-- The state of `loop` (Compile.hs lines 4194-4211).  `running` holds the workers with the stages
they run; `next` is the handle of the next worker. -/
structure St (κ π η ι : Type) where
  ready : List (Stage κ)
  running : List (Nat × Stage κ)
  next : Nat
  res : List (κ × Result η ι)
  parsed : List (κ × π)
  interest : List ι
  frontDone : List κ
  deferred : List (κ × List κ)
  ind : Stage κ → Int
  pend : List (Stage κ)
  errors : Bool
  trace : List (Event κ π η ι)

/-- The state in which `continue` enters the loop (Compile.hs lines 3183, 3244-3251). -/
def initial (g : Graph κ) : St κ π η ι where
  ready := g.stages.filter (fun sk => g.indeg sk == 0)
  running := []
  next := 0
  res := []
  parsed := []
  interest := []
  frontDone := []
  deferred := []
  ind := g.indeg
  pend := g.stages
  errors := false
  trace := []

/-- `stagePriority` (Compile.hs lines 4118-4123), as the order in which `sortOn Down` puts stages:
front stages first, then by weight. -/
def before (cw : κ → Nat) : Stage κ → Stage κ → Bool
  | .front a, .front b => decide (cw b ≤ cw a)
  | .front _, .parse _ => true
  | .parse _, .front _ => false
  | .parse a, .parse b => decide (cw b ≤ cw a)

/-- `forM toStart` (Compile.hs lines 4177-4191): start a worker for each stage. -/
def startAll : List (Stage κ) → St κ π η ι → St κ π η ι
  | [], s => s
  | sk :: l, s => startAll l { s with
      running := (s.next, sk) :: s.running
      next := s.next + 1
      trace := .start sk s.res s.parsed :: s.trace }

/-- `scheduleMore` (Compile.hs lines 4163-4192).  The way of sorting is not that of the library. -/
def schedule (cw : κ → Nat) (maxPar : Nat) (s : St κ π η ι) : St κ π η ι :=
  let sorted := s.ready.insertionSort (fun a b => before cw a b = true)
  let k := maxPar - s.running.length
  startAll (sorted.take k) { s with ready := sorted.drop k }

/-- The branch of the loop for diagnostics (Compile.hs lines 4231-4248): everything that depends on
the task is dropped. -/
def onFail (g : Graph κ) (s : St κ π η ι) (sk : Stage κ) : St κ π η ι :=
  let blocked := g.closure sk.key
  let isBlocked := fun x : Stage κ => decide (x.key ∈ blocked)
  { s with
    ready := s.ready.filter (fun x => !isBlocked x)
    running := s.running.filter (fun x => !isBlocked x.2)
    parsed := s.parsed.filter (fun e => !decide (e.1 ∈ sk.key :: blocked))
    pend := (s.pend.filter (fun x => !isBlocked x)).filter (fun x => !decide (x = sk))
    errors := true
    trace := (s.running.filter (fun x => isBlocked x.2)).map (fun x => .cancel x.2) ++
      .fail sk :: s.trace }

/-- The part of the loop common to both kinds of success (Compile.hs lines 4249-4262): count down
the stages that waited and find those that wait no more. -/
def onDone (g : Graph κ) (s : St κ π η ι) (sk : Stage κ) (o : Outcome π η ι) : St κ π η ι :=
  let pend := s.pend.filter (fun x => !decide (x = sk))
  let ind := fun x => s.ind x - ((g.stageRev sk).count x : Int)
  { s with
    ready := s.ready ++ pend.filter (fun x => decide (ind x = 0) && !decide (x ∈ s.ready)
      && !decide (x ∈ s.running.map Prod.snd))
    ind := ind
    pend := pend
    trace := .done sk o :: s.trace }

/-- Whether a deferred back job can be prepared (Compile.hs lines 3286-3289). -/
def isReady (frontDone : List κ) (e : κ × List κ) : Bool := e.2.all (fun k => decide (k ∈ frontDone))

/-- `flushReadyDeferredBacks` (Compile.hs lines 3280-3307): prepare the deferred back jobs for
which everything that depends on them is done. -/
def flush (s : St κ π η ι) : St κ π η ι :=
  { s with
    deferred := s.deferred.filter (fun e => !isReady s.frontDone e)
    trace := ((s.deferred.filter (isReady s.frontDone)).map
      (fun e => .back e.1 s.interest)).reverse ++ s.trace }

/-- A parsed task (Compile.hs lines 4264-4267). -/
def onParsed (g : Graph κ) (s : St κ π η ι) (sk : Stage κ) (p : π) : St κ π η ι :=
  let s := onDone g s sk (.parsed p)
  { s with parsed := (sk.key, p) :: s.parsed }

/-- The result of the front passes (Compile.hs lines 4268-4290). -/
def onFronted (g : Graph κ) (s : St κ π η ι) (sk : Stage κ) (r : Result η ι) : St κ π η ι :=
  let s := onDone g s sk (.fronted r)
  flush { s with
    res := (sk.key, r) :: s.res
    parsed := s.parsed.filter (fun e => !decide (e.1 = sk.key))
    interest := r.interest ++ s.interest
    frontDone := sk.key :: s.frontDone
    deferred := if r.deferred
      then (sk.key, g.closure sk.key) :: s.deferred.filter (fun e => !decide (e.1 = sk.key))
      else s.deferred }

/-- What follows the wait (Compile.hs lines 4223-4290): the worker with this handle has returned
this outcome. -/
def react (g : Graph κ) (s : St κ π η ι) (h : Nat) (sk : Stage κ) (o : Outcome π η ι) :
    St κ π η ι :=
  let s := { s with running := s.running.filter (fun x => !decide (x.1 = h)) }
  match o with
  | .failed => onFail g s sk
  | .parsed p => onParsed g s sk p
  | .fronted r => onFronted g s sk r

/-- The outcomes a stage can have (Compile.hs lines 4125-4161): a parse stage gives a parsed task
and a front stage a front result, unless they fail. -/
def Fits : Stage κ → Outcome π η ι → Prop
  | .parse _, .parsed _ => True
  | .front _, .fronted _ => True
  | _, .failed => True
  | _, _ => False

/-- One turn of the loop: start workers, wait for any of them, react. -/
inductive Turn (g : Graph κ) (cw : κ → Nat) (maxPar : Nat) : St κ π η ι → St κ π η ι → Prop where
  | mk (s : St κ π η ι) (h : Nat) (sk : Stage κ) (o : Outcome π η ι)
      (hr : (h, sk) ∈ (schedule cw maxPar s).running) (hf : Fits sk o) :
      Turn g cw maxPar s (react g (schedule cw maxPar s) h sk o)

/-- The states in which the loop can be. -/
inductive Reach (g : Graph κ) (cw : κ → Nat) (maxPar : Nat) : St κ π η ι → Prop where
  | init : Reach g cw maxPar (initial g)
  | turn {s s' : St κ π η ι} : Reach g cw maxPar s → Turn g cw maxPar s s' → Reach g cw maxPar s'

/-- The end of the loop (Compile.hs lines 4213-4222): nothing runs and nothing is ready; the result
is the last state and whether the build had errors. -/
def result (cw : κ → Nat) (maxPar : Nat) (s : St κ π η ι) : Option (St κ π η ι × Bool) :=
  let s := schedule cw maxPar s
  if s.running = [] ∧ s.ready = [] then
    if s.pend = [] then
      let s := flush s
      some (s, s.errors || !s.deferred.isEmpty)
    else some (s, true)
  else none

end Verif.Build
