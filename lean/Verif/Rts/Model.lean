import Verif.Common
/-!
# Model of the actor run-time system (base/rts/rts.c, base/rts/q.c)

Any number of worker threads, actors and messages. The memory is modelled with its pointers: the same
field `$next` links an actor into a ready queue or into the waiters of a message, and a message into
the queue of an actor, the outgoing messages of an actor or the timer queue. A pointer is an address
(`Nat`), `none` is `NULL`.

Each step of a worker ends with one section under a spin lock; the accesses before it, to the fields of
the actor that the worker runs and of messages that only it can reach, belong to the same step. The
steps of all workers interleave freely. Simplifications:

* The code of the actors is arbitrary: in state `run` a worker may call `$ASYNC`, `$AFTER`, push and pop
  catchers, change the affinity, and return anything.
* Actors are never created: the blank object of each actor exists from the start.
* The database (`ACTON_DB`), statistics, the pausing of workers and the waking of sleeping workers
  (`wake_wt`) are not modelled: an idle worker may look for work at any time.
* Memory is sequentially consistent, and nothing is reclaimed.
* `log` records what happens; no step reads it.
-/
namespace Verif.Rts
open Verif

def upd {β : Type} (f : Nat → β) (a : Nat) (v : β) : Nat → β := fun b => if b = a then v else f b

/-- Marks in the field `$cont`, rts.c:698-699, and the address of `$Fail$instance`, rts.c:855. -/
def MARK_RESULT : Nat := 0
def MARK_EXCEPTION : Nat := 1
def failInst : Nat := 2

/-- The values `&$Done$instance` (rts.c:817) and `B_False`. -/
def doneInst : Nat := 0
def vFalse : Nat := 1

/-- `struct B_Msg`, rts.h:130-140; `$cont` as an address. -/
structure Msg where
  next : Option Nat
  to : Nat
  cont : Nat
  waiting : Option Nat
  baseline : Int
  value : Nat
  deriving DecidableEq

/-- `struct $Actor`, rts.h:155-167. The catchers are a stack of (continuation, exception). -/
structure Actor where
  next : Option Nat
  msg : Option Nat
  tail : Option Nat
  affinity : Nat
  outgoing : Option Nat
  waitsfor : Option Nat
  catcher : List (Nat × Nat)
  deriving DecidableEq

/-- `struct mpmcq`, q.h:11-16 (`count` is only reported). -/
structure Rq where
  head : Option Nat
  tail : Option Nat
  deriving DecidableEq

/-- What follows the flush of the outgoing messages: the completion of the message, rts.c:1727-1728 and
1761-1762, or the end of an await, rts.c:1818-1829. -/
inductive After where
  | done (mark v : Nat)
  | added
  | frozen (x : Nat)
  deriving DecidableEq

/-- Where a worker is in `wt_work_cb`, rts.c:1664-1865 (`a` is `current`, `m` the local `m`), in
`handle_timeout` or in `$ASYNC` called by the event loop. -/
inductive Phase where
  /-- Outside of `wt_work_cb`, or before `DEQ_ready`. -/
  | idle
  /-- `DEQ_ready` returned `a`, l. 1677. -/
  | got (a : Nat)
  /-- The continuation is running, l. 1697. -/
  | run (a m : Nat)
  /-- Before `ADD_waiting(current, x)`, l. 1815. -/
  | addWait (a m x : Nat)
  /-- At the start of `FLUSH_outgoing_local`, l. 1108. -/
  | flush (a m : Nat) (k : After)
  /-- In the loop of `FLUSH_outgoing_local`, l. 1112, with the next message. -/
  | loop (a m : Nat) (p : Nat) (k : After)
  /-- After the flush in an await for the frozen message `x`, l. 1820-1829. -/
  | resume (a m x : Nat)
  /-- Before `m->value = r.value` and `FREEZE_waiting`, l. 1727-1728, 1761-1762. -/
  | freeze (a m mark v : Nat)
  /-- In the loop over the waiting actors, l. 1729, 1770. -/
  | wake (a m mark v : Nat) (b : Nat)
  /-- Before `DEQ_msg(current)`, l. 1738, 1779. -/
  | deq (a m : Nat)
  /-- Before `ENQ_ready(b)`; then `k`. -/
  | rdy (b : Nat) (k : Phase)
  /-- In `handle_timeout`, l. 1140, with the message dequeued. -/
  | timed (x : Nat)
  deriving DecidableEq

/-- The record of what happened. -/
inductive Event where
  /-- Actor `s` called asynchronously `r` with message `m` (or `after` with delay 0). -/
  | sent (s r m : Nat)
  /-- Actor `s` called `after`, due at `due`. -/
  | delayed (s m : Nat) (due : Int)
  /-- The event loop called `r` asynchronously. -/
  | ext (r m : Nat)
  /-- The delayed message went to the timer queue. -/
  | queued (m : Nat) (due : Int)
  /-- The timer handling at time `now` took `m` from the timer queue, or found nothing to deliver. -/
  | fired (m : Nat) (now : Int)
  | notFired (now : Int)
  /-- The timer handling put `m` in the queue of its receiver. -/
  | delivered (m : Nat)
  /-- The continuation `cont` was called with `v` to process `m`. -/
  | ran (a m cont v : Nat)
  /-- The continuation returned an await for message `x` with continuation `c`. -/
  | awaits (a m c x : Nat)
  /-- `m` was completed with a result or an exception. -/
  | completed (m mark v : Nat)
  /-- `m` was removed from the queue of `a`. -/
  | finished (a m : Nat)
  deriving DecidableEq

structure State where
  msgs : Nat → Msg
  actors : Nat → Actor
  /-- The address of the next message. -/
  nmsg : Nat
  rqs : Nat → Rq
  timerQ : Option Nat
  wk : Nat → Phase
  log : List Event

def blankActor (sharedRq : Nat) : Actor := ⟨none, none, none, sharedRq, none, none, []⟩
def blankMsg : Msg := ⟨none, 0, 0, none, 0, 0⟩

/-- The start, before `BOOTSTRAP`. `SHARED_RQ` is 256, rts.h:25-28. -/
def sharedRq : Nat := 256

def init : State :=
  ⟨fun _ => blankMsg, fun _ => blankActor sharedRq, 0, fun _ => ⟨none, none⟩, none, fun _ => .idle, []⟩

def State.setMsg (s : State) (m : Nat) (x : Msg) : State := { s with msgs := upd s.msgs m x }
def State.setActor (s : State) (a : Nat) (x : Actor) : State := { s with actors := upd s.actors a x }
def State.setWk (s : State) (w : Nat) (p : Phase) : State := { s with wk := upd s.wk w p }
def State.setNext (s : State) (m : Nat) (p : Option Nat) : State := s.setMsg m { s.msgs m with next := p }
def State.setRq (s : State) (i : Nat) (q : Rq) : State := { s with rqs := upd s.rqs i q }
def State.emit (s : State) (e : Event) : State := { s with log := s.log ++ [e] }

/-- `FROZEN`, rts.c:702. -/
def State.frozen (s : State) (m : Nat) : Prop :=
  (s.msgs m).cont = MARK_RESULT ∨ (s.msgs m).cont = MARK_EXCEPTION

instance (s : State) (m : Nat) : Decidable (s.frozen m) := by unfold State.frozen; infer_instance

/-- `B_MsgG_newXX`, rts.c:458-470: the new message has the address `nmsg`. -/
def newMsg (s : State) (to cont : Nat) (baseline : Int) (v : Nat) : State :=
  { s.setMsg s.nmsg ⟨none, to, cont, none, baseline, v⟩ with nmsg := s.nmsg + 1 }

/-- `ENQ_msg`, q.c:137-151. -/
def enqMsg (s : State) (m a : Nat) : State × Bool :=
  let s := s.setNext m none
  match (s.actors a).tail with
  | some t =>
    let s := s.setNext t (some m)
    (s.setActor a { s.actors a with tail := some m }, false)
  | none => (s.setActor a { s.actors a with msg := some m, tail := some m }, true)

/-- `DEQ_msg`, q.c:155-171. -/
def deqMsg (s : State) (a : Nat) : State × Bool :=
  match (s.actors a).msg with
  | some x =>
    let p := (s.msgs x).next
    let s := s.setNext x none
    (s.setActor a { s.actors a with msg := p, tail := if p = none then none else (s.actors a).tail }, p ≠ none)
  | none => (s.setActor a { s.actors a with tail := none }, false)

/-- `ENQ_ready`, q.c:18-40 (`MPMC` is 2). -/
def enqReady (s : State) (a : Nat) : Res State :=
  let i := (s.actors a).affinity
  if (s.actors a).waitsfor ≠ none then .raise .assertFail
  else
    match (s.rqs i).tail with
    | some t =>
      let s := s.setActor t { s.actors t with next := some a }
      let s := s.setRq i ⟨(s.rqs i).head, some a⟩
      .ok (s.setActor a { s.actors a with next := none })
    | none =>
      let s := s.setRq i ⟨some a, some a⟩
      .ok (s.setActor a { s.actors a with next := none })

/-- `_DEQ_ready`, q.c:77-98. -/
def deqReady (s : State) (i : Nat) : Res (State × Option Nat) :=
  match (s.rqs i).head with
  | none => .ok (s, none)
  | some r =>
    let p := (s.actors r).next
    let s := s.setRq i ⟨p, if p = none then none else (s.rqs i).tail⟩
    let s := s.setActor r { s.actors r with next := none }
    if (s.actors r).waitsfor ≠ none then .raise .assertFail else .ok (s, some r)

/-- `ADD_waiting`, rts.c:706-721. -/
def addWaiting (s : State) (a m : Nat) : State × Bool :=
  if s.frozen m then (s, false)
  else
    let s := s.setActor a { s.actors a with next := (s.msgs m).waiting, waitsfor := some m }
    (s.setMsg m { s.msgs m with waiting := some a }, true)

/-- `FREEZE_waiting`, rts.c:723-731. -/
def freezeWaiting (s : State) (m mark : Nat) : State × Option Nat :=
  (s.setMsg m { s.msgs m with cont := mark, waiting := none }, (s.msgs m).waiting)

/-- The loop of `ENQ_timed`, rts.c:741-744: the last message due no later than `b`. -/
def timedLoop (msgs : Nat → Msg) (b : Int) : Nat → Nat → Res Nat
  | 0, _ => .diverge
  | f + 1, x =>
    match (msgs x).next with
    | none => .ok x
    | some y => if (msgs y).baseline ≤ b then timedLoop msgs b f y else .ok x

/-- `ENQ_timed`, rts.c:734-754. -/
def enqTimed (s : State) (m : Nat) : Res State :=
  match s.timerQ with
  | none => .ok { s.setNext m none with timerQ := some m }
  | some x =>
    if (s.msgs x).baseline ≤ (s.msgs m).baseline then do
      let y ← timedLoop s.msgs (s.msgs m).baseline (s.nmsg + 1) x
      let p := (s.msgs y).next
      return (s.setNext y (some m)).setNext m p
    else .ok { s.setNext m (some x) with timerQ := some m }

/-- `DEQ_timed`, rts.c:758-771. -/
def deqTimed (s : State) (now : Int) : State × Option Nat :=
  match s.timerQ with
  | none => (s, none)
  | some x =>
    if (s.msgs x).baseline ≤ now then
      ({ s.setNext x none with timerQ := (s.msgs x).next }, some x)
    else (s, none)

/-- The loop of `reverse_outgoing_queue`, rts.c:1072-1077. -/
def reverseLoop : Nat → (Nat → Msg) → Option Nat → Option Nat → Res ((Nat → Msg) × Option Nat)
  | _, msgs, none, prev => .ok (msgs, prev)
  | 0, _, some _, _ => .diverge
  | f + 1, msgs, some m, prev =>
    reverseLoop f (upd msgs m { msgs m with next := prev }) (msgs m).next (some m)

/-- `reverse_outgoing_queue`, rts.c:1069-1079. -/
def reverseOutgoing (s : State) (a : Nat) : Res State := do
  let r ← reverseLoop s.nmsg s.msgs (s.actors a).outgoing none
  return { s with msgs := r.1 }.setActor a { s.actors a with outgoing := r.2 }

/-- `PUSH_outgoing`, rts.c:914-917. -/
def pushOutgoing (s : State) (a m : Nat) : State :=
  let s := s.setNext m (s.actors a).outgoing
  s.setActor a { s.actors a with outgoing := some m }

/-- What happens after the flush, see `After`. -/
def afterFlush (s : State) (w a m : Nat) : After → State
  | .done mark v => s.setWk w (.freeze a m mark v)
  | .added => s.setWk w .idle
  | .frozen x => s.setWk w (.resume a m x)

/-- The head of the loop of `FLUSH_outgoing_local`. -/
def contFlush (s : State) (w a m : Nat) (p : Option Nat) (k : After) : State :=
  match p with
  | none => afterFlush s w a m k
  | some x => s.setWk w (.loop a m x k)

/-- The phase after `ENQ_msg`: if the queue was empty the receiver has to be made ready. -/
def thenReady (s : State) (w : Nat) (b : Nat) (r : Bool) : State :=
  if r then s.setWk w (.rdy b (s.wk w)) else s

/-- One round of the loop of `FLUSH_outgoing_local`, rts.c:1112-1129, up to `ENQ_ready`. -/
def flushOne (s : State) (w a m x : Nat) (k : After) : Res State :=
  let p := (s.msgs x).next
  let s := s.setNext x none
  match (s.actors a).msg with
  | none => .ub
  | some cur =>
    if (s.msgs x).baseline = (s.msgs cur).baseline then
      let r := enqMsg s x (s.msgs x).to
      .ok (thenReady (contFlush r.1 w a m p k) w (s.msgs x).to r.2)
    else do
      let s' ← enqTimed s x
      return contFlush (s'.emit (.queued x (s.msgs x).baseline)) w a m p k

/-- The loop over the waiting actors. -/
def contWake (s : State) (w a m mark v : Nat) (b : Option Nat) : State :=
  match b with
  | none => s.setWk w (.deq a m)
  | some b => s.setWk w (.wake a m mark v b)

/-- One round of the loops rts.c:1729-1736 and 1770-1778, up to `ENQ_ready`. -/
def wakeOne (s : State) (w a m mark v b : Nat) : Res State :=
  match (s.actors b).msg with
  | none => .ub
  | some x =>
    let s := s.setMsg x
      { s.msgs x with value := v, cont := if mark = MARK_EXCEPTION then failInst else (s.msgs x).cont }
    let s := s.setActor b { s.actors b with waitsfor := none }
    let s := contWake s w a m mark v (s.actors b).next
    .ok (s.setWk w (.rdy b (s.wk w)))

/-- What a continuation returns, `$R`. -/
inductive Ret where
  | done (v : Nat)
  | cont (c v : Nat)
  | fail (v : Nat)
  | wait (c x : Nat)
  deriving DecidableEq

/-- The `switch` of `wt_work_cb`, rts.c:1724-1832, up to the first section under a lock. -/
def ret (s : State) (w a m : Nat) : Ret → Res State
  | .done v => do
    let s ← reverseOutgoing s a
    return s.setWk w (.flush a m (.done MARK_RESULT v))
  | .cont c v => .ok ((s.setMsg m { s.msgs m with cont := c, value := v }).setWk w (.rdy a .idle))
  | .fail v =>
    match (s.actors a).catcher with
    | (c, _) :: cs =>
      let s := s.setActor a { s.actors a with catcher := (c, v) :: cs }
      .ok ((s.setMsg m { s.msgs m with cont := c, value := vFalse }).setWk w (.rdy a .idle))
    | [] => do
      let s ← reverseOutgoing s a
      return s.setWk w (.flush a m (.done MARK_EXCEPTION v))
  | .wait c x => do
    let s ← reverseOutgoing s a
    return ((s.setMsg m { s.msgs m with cont := c }).emit (.awaits a m c x)).setWk w (.addWait a m x)

/-- Choices of the schedule, of the actor code and of the world. -/
inductive Label where
  /-- Worker `w` dequeues from its own ready queue, or from the shared one. -/
  | take (w : Nat) (shared : Bool)
  /-- The next step of worker `w`, where it has no choice. -/
  | go (w : Nat)
  /-- The continuation run by `w` calls `$ASYNC`, `$AFTER` (the delay in microseconds). -/
  | async (w to cont : Nat)
  | after (w : Nat) (delay : Int) (cont : Nat)
  /-- It pushes or pops a catcher, or sets the affinity. -/
  | pushC (w cont : Nat)
  | popC (w : Nat)
  | affinity (w i : Nat)
  /-- It returns. -/
  | ret (w : Nat) (r : Ret)
  /-- The event loop of an idle worker calls `$ASYNC`, that of worker 0 (the main thread) `handle_timeout`. -/
  | ext (w to cont : Nat) (now : Int)
  | timer (now : Int)
  deriving DecidableEq

/-- Proper addresses: no continuation has the address of a mark, and a message awaited exists. -/
def Ret.proper (s : State) : Ret → Prop
  | .cont c _ => 2 ≤ c
  | .wait c x => 2 ≤ c ∧ x < s.nmsg
  | _ => True

instance (s : State) (r : Ret) : Decidable (r.proper s) := by unfold Ret.proper; split <;> infer_instance

/-- The step of a worker without choice. -/
def go (s : State) (w : Nat) : Phase → Option (Res State)
  | .got a =>
    -- rts.c:1684-1697
    match (s.actors a).msg with
    | none => some .ub
    | some m =>
      if s.frozen m then some .ub
      else some (.ok ((s.emit (.ran a m (s.msgs m).cont (s.msgs m).value)).setWk w (.run a m)))
  | .addWait a m x =>
    let r := addWaiting s a x
    some (.ok (r.1.setWk w (.flush a m (if r.2 then .added else .frozen x))))
  | .flush a m k =>
    -- rts.c:1110-1111
    let p := (s.actors a).outgoing
    some (.ok (contFlush (s.setActor a { s.actors a with outgoing := none }) w a m p k))
  | .loop a m x k => some (flushOne s w a m x k)
  | .resume a m x =>
    -- the message gets the value of `x`, and `$Fail` as continuation if `x` is exceptional
    let c := if (s.msgs x).cont = MARK_EXCEPTION then failInst else (s.msgs m).cont
    some (.ok ((s.setMsg m { s.msgs m with cont := c, value := (s.msgs x).value }).setWk w (.rdy a .idle)))
  | .freeze a m mark v =>
    let r := freezeWaiting (s.setMsg m { s.msgs m with value := v }) m mark
    some (.ok (contWake (r.1.emit (.completed m mark v)) w a m mark v r.2))
  | .wake a m mark v b => some (wakeOne s w a m mark v b)
  | .deq a m =>
    let r := deqMsg s a
    some (.ok ((r.1.emit (.finished a m)).setWk w (if r.2 then .rdy a .idle else .idle)))
  | .rdy b k => some (do
      let s ← enqReady s b
      return s.setWk w k)
  | .timed x =>
    -- rts.c:1140-1143
    let r := enqMsg s x (s.msgs x).to
    some (.ok (thenReady ((r.1.emit (.delivered x)).setWk w .idle) w (s.msgs x).to r.2))
  | .idle => none
  | .run _ _ => none

/-- The queue that the label `take` reads. -/
def takeQueue (w : Nat) (shared : Bool) : Nat := if shared then sharedRq else w

/-- A step; `none` if it is not possible. -/
def step (s : State) : Label → Option (Res State)
  | .take w shared =>
    -- `DEQ_ready`, q.c:117-131: worker 0 does not serve the shared queue
    if s.wk w = .idle ∧ (shared = true → w ≠ 0) then
      some (do
        let r ← deqReady s (takeQueue w shared)
        match r.2 with
        | none => return r.1
        | some a => return r.1.setWk w (.got a))
    else none
  | .go w => go s w (s.wk w)
  | .async w to cont =>
    -- `$ASYNC` by an actor, rts.c:933-939
    match s.wk w with
    | .run a _ =>
      if 2 ≤ cont then
        match (s.actors a).msg with
        | none => some .ub
        | some cur =>
          let s' := newMsg s to cont (s.msgs cur).baseline doneInst
          some (.ok ((pushOutgoing s' a s.nmsg).emit (.sent a to s.nmsg)))
      else none
    | _ => none
  | .after w delay cont =>
    -- `$AFTER`, rts.c:950-957
    match s.wk w with
    | .run a _ =>
      if 2 ≤ cont then
        match (s.actors a).msg with
        | none => some .ub
        | some cur =>
          let s' := newMsg s a cont ((s.msgs cur).baseline + delay) doneInst
          some (.ok ((pushOutgoing s' a s.nmsg).emit
            (if delay = 0 then .sent a a s.nmsg else .delayed a s.nmsg ((s.msgs cur).baseline + delay))))
      else none
    | _ => none
  | .pushC w cont =>
    -- `$PUSH_C`, rts.c:963-968
    match s.wk w with
    | .run a _ =>
      if 2 ≤ cont then
        some (.ok (s.setActor a { s.actors a with catcher := (cont, 0) :: (s.actors a).catcher }))
      else none
    | _ => none
  | .popC w =>
    -- `$POP_C`, `$DROP_C`, rts.c:970-980
    match s.wk w with
    | .run a _ => some (.ok (s.setActor a { s.actors a with catcher := (s.actors a).catcher.tail }))
    | _ => none
  | .affinity w i =>
    -- `set_actor_affinity`, rts.c:225-236
    match s.wk w with
    | .run a _ => some (.ok (s.setActor a { s.actors a with affinity := i }))
    | _ => none
  | .ret w r =>
    match s.wk w with
    | .run a m => if r.proper s then some (ret s w a m r) else none
    | _ => none
  | .ext w to cont now =>
    -- `$ASYNC` by the event loop, rts.c:940-946; also the first message, rts.c:1545-1561
    if s.wk w = .idle ∧ 2 ≤ cont then
      let s' := newMsg s to cont now doneInst
      let r := enqMsg s' s.nmsg to
      some (.ok (thenReady (r.1.emit (.ext to s.nmsg)) w to r.2))
    else none
  | .timer now =>
    -- `handle_timeout`, rts.c:1135-1138; the timer belongs to the loop of the main thread, l. 2849, 3030-3032
    if s.wk 0 = .idle then
      let r := deqTimed s now
      match r.2 with
      | none => some (.ok (r.1.emit (.notFired now)))
      | some x => some (.ok ((r.1.emit (.fired x now)).setWk 0 (.timed x)))
    else none

end Verif.Rts
