/-!
# Persist: saving actors in the database and recovery after a crash

Model of the parts of /repo/base/rts/rts.c that are active when the run-time system is connected
to a database (`ACTON_DB`, `db != NULL`): what a worker does with the database when an actor ends
a continuation (`save_actor_state` 1565-1610, the `$RWAIT` case 1786-1831), what the timer does
(`handle_timeout` 1135-1183), and what is done at start-up when the database already holds actors
(`deserialize_system` 1282-1435, called at 2915-2925).  The database side is what the verified areas
Queue (C25, C26) and Txn (C27, C28) say about /repo/backend/queue.c and txns.c: a transaction
takes effect as a whole at its commit, `enqueue` appends, `read_queue` moves the read head of the
consumer *at once when called outside a transaction*, `set_private_consume_head` moves the consume
head.

Simplifications, all stated at the definition they concern:

* one database server, which does not crash; the run-time system comes back with the same consumer
  id (`get_node_id` of its address, client_api.c 3663), so the server still has its heads;
* the code of the actors is a function `prog` from the state of the actor and the continuation to
  the new state, the messages sent and the way the continuation ended (`$R`);
* a continuation and its argument are one value of type `K`; the result of a message is not
  passed to the actors waiting for it, only the fact that it is there;
* exceptions are not distinguished: an unhandled one ends the message as `$RDONE` does (1758-1783
  save and wake in the same way), a handled one continues as `$RCONT` (1751-1757);
* `readyQ` is a set: the theorems hold for every order in which ready actors are picked (that it
  is FIFO is C20);
* keys are natural numbers counted upwards (the code counts downwards from -10,
  `get_next_key` rts.c 404-409).
-/
namespace Verif.Persist

/-- A message (`struct B_Msg`, /repo/base/rts/rts.h 130-140; the fields written by
`B_MsgD___serialize__` rts.c 487-492): receiver, continuation, and the due time if it was sent
with `after` (its `$baseline` then differs from that of the sender).  `frozen` is
`FROZEN(m)` (rts.c 702): the message has been dealt with and its result is known. -/
structure Msg (K : Type) where
  dest : Nat
  k : K
  due : Option Nat
  frozen : Bool
deriving DecidableEq, Repr

/-- A message sent by actor code: `$ASYNC` (rts.c 933-949) to an actor, `$AFTER` (rts.c 950-957)
to oneself at a later time. -/
inductive Out (K : Type) where
  | async (dest : Nat) (k : K)
  | after (due : Nat) (k : K)
deriving DecidableEq, Repr

/-- How a continuation ends (`$R`, /repo/base/rts/rts.h; the switch at rts.c 1724-1832).  `wait k i`
waits for the `i`-th message sent by this very continuation. -/
inductive Next (K : Type) where
  | done
  | cont (k : K)
  | wait (k : K) (i : Nat)
deriving DecidableEq, Repr

/-- The code of the actors: `cont->$class->__call__(cont, val)` at rts.c 1697, run by the actor with
the given key in the given state. -/
def Prog (S K : Type) := Nat → S → K → S × List (Out K) × Next K

/-- A message queue in the database with the heads of its only consumer (the run-time system):
`db_row_t` with its `consumer_state` (/repo/backend/queue.h).  `rd` is `private_read_head + 1` and
`co` is `private_consume_head + 1`, i.e. numbers of entries. -/
structure Queue where
  entries : List Nat
  rd : Nat
  co : Nat
deriving DecidableEq, Repr

/-- The row of an actor (`$ActorD___serialize__` rts.c 543-547 and the fields of its class):
its state and `$waitsfor`.  `$consume_hd` is written but never used when reading back; catchers
are not modelled. -/
structure ARow (S : Type) where
  st : S
  waits : Option Nat
deriving DecidableEq, Repr

/-- The database: tables `ACTORS_TABLE` and `MSGS_TABLE`, the queues in `MSG_QUEUE`, of which the one
with key `TIMER_QUEUE` (rts.c 411-415) is kept apart. -/
structure DB (S K : Type) where
  actors : Nat → Option (ARow S)
  msgs : Nat → Option (Msg K)
  queue : Nat → Queue
  timer : Queue

/-- How far a worker has come with the end of a continuation: the continuation has returned; the
dummy read of the queue has been done and returned this head (only after `$RDONE`); the transaction
has been committed. -/
inductive Phase where
  | returned
  | read (head : Nat)
  | committed
deriving DecidableEq, Repr

/-- A worker busy with the end of a continuation of message `m` of actor `a` (the variables `current`,
`m` and `r` of `wt_work_cb`, rts.c 1664-1724). `sent` are the messages sent by this continuation. -/
structure Job (K : Type) where
  a : Nat
  m : Nat
  sent : List Nat
  next : Next K
  phase : Phase
deriving DecidableEq, Repr

/-- The memory of the run-time system.  `inbox a` is the list `a->B_Msg` (its head is the message
being dealt with), `outgoing a` is `a->$outgoing` in the order of sending, `waits a` is
`a->$waitsfor`, `timers` is `timerQ`, `jobs` the workers, `mover` the timed message which the timer
is moving (with the head returned by the dummy read). -/
structure Mem (S K : Type) where
  st : Nat → Option S
  msgs : Nat → Option (Msg K)
  inbox : Nat → List Nat
  outgoing : Nat → List Nat
  waits : Nat → Option Nat
  ready : Nat → Bool
  timers : List Nat
  next : Nat
  jobs : Nat → Option (Job K)
  mover : Option (Nat × Option Nat)

structure Cfg (S K : Type) where
  mem : Mem S K
  db : DB S K

/-- Assignment to one place of a table. -/
def upd {α : Type} (f : Nat → α) (i : Nat) (x : α) : Nat → α := fun j => if j = i then x else f j

/-- `read_queue` (/repo/backend/queue.c 515-604) with `max_entries = 1`, called by the run-time
system with `txnid = NULL`: the read head moves at once; at the end of the queue it stays.  The new
head is returned. -/
def Queue.read1 (q : Queue) : Queue := { q with rd := min (q.rd + 1) q.entries.length }

/-- `enqueue` at the commit of a transaction (/repo/backend/txns.c 511-514). -/
def Queue.enq (q : Queue) (id : Nat) : Queue := { q with entries := q.entries ++ [id] }

/-- `set_private_consume_head` at the commit of a transaction (/repo/backend/queue.c 475-512). -/
def Queue.consume (q : Queue) (head : Nat) : Queue := { q with co := head }

/-- The message object for something sent by actor `a`: `$ASYNC`, `$AFTER` (rts.c 933-958). -/
def mkMsg {K : Type} (a : Nat) : Out K → Msg K
  | .async d k => ⟨d, k, none, false⟩
  | .after t k => ⟨a, k, some t, false⟩

/-- Creation of the messages sent by a continuation, with keys from `next` on (`B_MsgG_newXX` rts.c
458-470: `get_next_key()`). -/
def addMsgs {K : Type} (a : Nat) (msgs : Nat → Option (Msg K)) (next : Nat) :
    List (Out K) → Nat → Option (Msg K)
  | [] => msgs
  | o :: os => addMsgs a (upd msgs next (some (mkMsg a o))) (next + 1) os

/-- Keys of `n` new messages. -/
def newIds (next n : Nat) : List Nat := (List.range n).map (next + ·)

/-- `FLUSH_outgoing_db` (rts.c 1085-1102): each outgoing message is enqueued in the queue of its
receiver, or in the timer queue if it has a due time. -/
def flushDb {K : Type} (msgs : Nat → Option (Msg K)) :
    List Nat → (Nat → Queue) × Queue → (Nat → Queue) × Queue
  | [], qs => qs
  | id :: ids, (q, t) =>
      match msgs id with
      | none => flushDb msgs ids (q, t)
      | some m =>
        match m.due with
        | none => flushDb msgs ids (upd q m.dest ((q m.dest).enq id), t)
        | some _ => flushDb msgs ids (q, t.enq id)

/-- `insert_row` in `MSGS_TABLE` for the outgoing messages (`serialize_actor` rts.c 1502-1513) and
the message dealt with (`serialize_msg` 1495-1500). -/
def saveMsgs {K : Type} (mem : Nat → Option (Msg K)) :
    List Nat → (Nat → Option (Msg K)) → Nat → Option (Msg K)
  | [], t => t
  | id :: ids, t => saveMsgs mem ids (upd t id (mem id))

/-- The due time of a message in memory. -/
def dueOf {K : Type} (msgs : Nat → Option (Msg K)) (id : Nat) : Nat :=
  match msgs id with
  | none => 0
  | some m => m.due.getD 0

/-- `ENQ_timed` (rts.c 734-755): insertion by due time, behind those with the same due time. -/
def enqTimed {K : Type} (msgs : Nat → Option (Msg K)) (id : Nat) : List Nat → List Nat
  | [] => [id]
  | x :: xs => if dueOf msgs x ≤ dueOf msgs id then x :: enqTimed msgs id xs else id :: x :: xs

/-- Queues in memory touched by a flush: inboxes, `readyQ`, `timerQ`. -/
structure Local where
  inbox : Nat → List Nat
  ready : Nat → Bool
  timers : List Nat

/-- `ENQ_msg` and, if the queue was empty, `ENQ_ready` (/repo/base/rts/q.c 175-192, rts.c 1118-1120). -/
def Local.enq (l : Local) (d id : Nat) : Local :=
  { l with
    inbox := upd l.inbox d (l.inbox d ++ [id])
    ready := if l.inbox d = [] then upd l.ready d true else l.ready }

/-- `FLUSH_outgoing_local` (rts.c 1108-1129). -/
def flushLocal {K : Type} (msgs : Nat → Option (Msg K)) : List Nat → Local → Local
  | [], l => l
  | id :: ids, l =>
      match msgs id with
      | none => flushLocal msgs ids l
      | some m =>
        match m.due with
        | none => flushLocal msgs ids (l.enq m.dest id)
        | some _ => flushLocal msgs ids { l with timers := enqTimed msgs id l.timers }

/-- A message gets another continuation (`m->$cont = …; m->value = …`). -/
def setK {K : Type} (msgs : Nat → Option (Msg K)) (id : Nat) (k : K) : Nat → Option (Msg K) :=
  match msgs id with
  | none => msgs
  | some m => upd msgs id (some { m with k := k })

/-- `FREEZE_waiting` (rts.c 723-730): the message is marked as dealt with. -/
def freeze {K : Type} (msgs : Nat → Option (Msg K)) (id : Nat) : Nat → Option (Msg K) :=
  match msgs id with
  | none => msgs
  | some m => upd msgs id (some { m with frozen := true })

/-- `FROZEN(m)`. -/
def isFrozen {K : Type} (msgs : Nat → Option (Msg K)) (id : Nat) : Bool :=
  match msgs id with
  | none => false
  | some m => m.frozen

/-- The events of an execution.  `run`: a worker takes a ready actor and runs the continuation of its
first message (rts.c 1664-1697).  `read`, `commit`, `finish`: the stages of the end of a
continuation.  `abort`: the commit did not succeed (`NO_QUORUM_ERR` or a conflict), the loop in
`save_actor_state` starts over.  `tick`, `tread`, `tcommit`: the stages of `handle_timeout`.
`io`: the event loop calls `$ASYNC` outside any actor.  `create`: `$NEWACTOR`.  `crash`: the process
dies and is started again. -/
inductive Ev (S K : Type) where
  | run (w a : Nat)
  | read (w : Nat)
  | commit (w : Nat)
  | abort (w : Nat)
  | finish (w : Nat)
  | tick (now : Nat)
  | tread
  | tcommit
  | io (a : Nat) (k : K)
  | create (a : Nat) (s : S)
  | crash (now : Nat)

variable {S K : Type}

/-- A worker runs one continuation (rts.c 1664-1724).  After `$RCONT` (1743-1749) the message gets
the new continuation and the actor is ready again; the messages sent stay in `$outgoing`.
Otherwise the worker goes on with the end of the continuation. -/
def runStep (prog : Prog S K) (c : Cfg S K) (w a m : Nat) (s : S) (msg : Msg K) : Cfg S K :=
  let r := prog a s msg.k
  let ids := newIds c.mem.next r.2.1.length
  let mem := { c.mem with
    st := upd c.mem.st a (some r.1)
    msgs := addMsgs a c.mem.msgs c.mem.next r.2.1
    next := c.mem.next + r.2.1.length
    outgoing := upd c.mem.outgoing a (c.mem.outgoing a ++ ids) }
  match r.2.2 with
  | .cont k => { c with mem := { mem with msgs := setK mem.msgs m k } }
  | nx => { c with mem := { mem with
      ready := upd mem.ready a false
      jobs := upd mem.jobs w (some ⟨a, m, ids, nx, .returned⟩) } }

/-- The dummy read in `save_actor_state` (rts.c 1579-1587): it is done outside the transaction. -/
def readStep (c : Cfg S K) (w : Nat) (j : Job K) : Cfg S K :=
  let q := (c.db.queue j.a).read1
  { mem := { c.mem with jobs := upd c.mem.jobs w (some { j with phase := .read q.rd }) }
    db := { c.db with queue := upd c.db.queue j.a q } }

/-- The effect of the commit: the rows of the actor, of its outgoing messages and of the message
dealt with, and the entries for the outgoing messages (rts.c 1573-1577; for `$RWAIT` 1795-1797). -/
def saveDb (mem : Mem S K) (db : DB S K) (j : Job K) : DB S K :=
  let qs := flushDb mem.msgs (mem.outgoing j.a) (db.queue, db.timer)
  { actors := match mem.st j.a with
      | none => db.actors
      | some s => upd db.actors j.a (some ⟨s, mem.waits j.a⟩)
    msgs := saveMsgs mem.msgs (mem.outgoing j.a ++ [j.m]) db.msgs
    queue := qs.1
    timer := qs.2 }

/-- The commit: after `$RDONE` with the consumption of the entries up to the head that the dummy read
returned (rts.c 1589-1597), after `$RWAIT` without. -/
def commitStep (c : Cfg S K) (w : Nat) (j : Job K) : Cfg S K :=
  let db := saveDb c.mem c.db j
  { mem := { c.mem with jobs := upd c.mem.jobs w (some { j with phase := .committed }) }
    db := match j.phase with
      | .read h => { db with queue := upd db.queue j.a ((db.queue j.a).consume h) }
      | _ => db }

/-- The end of `$RDONE` (rts.c 1601, 1726-1741; `DEQ_msg` /repo/base/rts/q.c 194-205): local flush, the message is frozen and the actors
waiting for it become ready, the message leaves the inbox. -/
def finishDone (c : Cfg S K) (w : Nat) (j : Job K) : Cfg S K :=
  let l := flushLocal c.mem.msgs (c.mem.outgoing j.a) ⟨c.mem.inbox, c.mem.ready, c.mem.timers⟩
  let rest := (l.inbox j.a).tail
  { c with mem := { c.mem with
      msgs := freeze c.mem.msgs j.m
      inbox := upd l.inbox j.a rest
      outgoing := upd c.mem.outgoing j.a []
      waits := fun b => if c.mem.waits b = some j.m then none else c.mem.waits b
      ready := fun b => if b = j.a then decide (rest ≠ []) else
        if c.mem.waits b = some j.m then true else l.ready b
      timers := l.timers
      jobs := upd c.mem.jobs w none } }

/-- The end of `$RWAIT` (rts.c 1811-1831): the message gets the continuation after the await,
`ADD_waiting`, local flush; if the result is there already the actor is ready at once. -/
def finishWait (c : Cfg S K) (w : Nat) (j : Job K) (k : K) (x : Nat) : Cfg S K :=
  let l := flushLocal c.mem.msgs (c.mem.outgoing j.a) ⟨c.mem.inbox, c.mem.ready, c.mem.timers⟩
  let fz := isFrozen c.mem.msgs x
  { c with mem := { c.mem with
      msgs := setK c.mem.msgs j.m k
      inbox := l.inbox
      outgoing := upd c.mem.outgoing j.a []
      waits := if fz then c.mem.waits else upd c.mem.waits j.a (some x)
      ready := if fz then upd l.ready j.a true else l.ready
      timers := l.timers
      jobs := upd c.mem.jobs w none } }

/-- `handle_timeout` (rts.c 1135-1143): a due message leaves `timerQ` and enters the inbox. -/
def tickStep (c : Cfg S K) (m : Nat) (msg : Msg K) (rest : List Nat) : Cfg S K :=
  let l := (Local.mk c.mem.inbox c.mem.ready rest).enq msg.dest m
  { c with mem := { c.mem with
      inbox := l.inbox
      ready := l.ready
      timers := rest
      mover := some (m, none) } }

/-- The dummy read of the timer queue (rts.c 1154-1162), outside the transaction. -/
def treadStep (c : Cfg S K) (m : Nat) : Cfg S K :=
  let q := c.db.timer.read1
  { mem := { c.mem with mover := some (m, some q.rd) }
    db := { c.db with timer := q } }

/-- The transaction of `handle_timeout` (rts.c 1164-1180): consume the *first* unread entry of the
timer queue, enqueue the message for its receiver. -/
def tcommitStep (c : Cfg S K) (m h : Nat) : Cfg S K :=
  match c.mem.msgs m with
  | none => c
  | some msg =>
    { mem := { c.mem with mover := none }
      db := { c.db with
        timer := c.db.timer.consume h
        queue := upd c.db.queue msg.dest ((c.db.queue msg.dest).enq m) } }

/-- `$ASYNC` called by the event loop (rts.c 940-947): the message goes to the inbox only, not to the
database. -/
def ioStep (c : Cfg S K) (a : Nat) (k : K) : Cfg S K :=
  let id := c.mem.next
  let l := (Local.mk c.mem.inbox c.mem.ready c.mem.timers).enq a id
  { c with mem := { c.mem with
      msgs := upd c.mem.msgs id (some ⟨a, k, none, false⟩)
      next := id + 1
      inbox := l.inbox
      ready := l.ready } }

/-- `$NEWACTOR` (/repo/base/rts/rts.h 223-229): the actor exists in memory; in the database only its
(empty) queue is created. -/
def createStep (c : Cfg S K) (a : Nat) (s : S) : Cfg S K :=
  { c with mem := { c.mem with st := upd c.mem.st a (some s) } }

/-- The entries that `read_queued_msg` (rts.c 1197-1215) delivers until there are none left: those
behind the read head. -/
def Queue.unread (q : Queue) : List Nat := q.entries.drop q.rd

/-- The read head after this. -/
def Queue.readAll (q : Queue) : Queue := { q with rd := max q.rd q.entries.length }

/-- A due time in the past becomes the present (rts.c 1416-1417). -/
def renew (now : Nat) (msgs : Nat → Option (Msg K)) (id : Nat) : Nat → Option (Msg K) :=
  match msgs id with
  | none => msgs
  | some m => match m.due with
    | none => msgs
    | some t => if t < now then upd msgs id (some { m with due := some now }) else msgs

/-- The timer queue is read back (rts.c 1408-1420). -/
def readTimers (now : Nat) : List Nat → (Nat → Option (Msg K)) × List Nat →
    (Nat → Option (Msg K)) × List Nat
  | [], r => r
  | id :: ids, (msgs, ts) =>
      let msgs' := renew now msgs id
      readTimers now ids (msgs', enqTimed msgs' id ts)

/-- `$waitsfor` of an actor that was read back (rts.c 1371-1378): kept if the message is not frozen. -/
def rewait (msgs : Nat → Option (Msg K)) (r : Option (ARow S)) : Option Nat :=
  match r with
  | none => none
  | some row =>
    match row.waits with
    | none => none
    | some m => if isFrozen msgs m then none else some m

/-- The inbox of an actor that was read back (rts.c 1378-1390); the queue of a key that is not in
`ACTORS_TABLE` is not read. -/
def rebox (db : DB S K) (a : Nat) : List Nat :=
  match db.actors a with
  | none => []
  | some _ => (db.queue a).unread

/-- `deserialize_system` (rts.c 1282-1435): messages and actors are those in the tables, the
inboxes are the unread entries of the queues, an actor with a message that waits for nothing is
ready.  Keys: `next` starts behind those in use, see `Cfg.crash`. -/
def recoverMem (db : DB S K) (now next : Nat) : Mem S K :=
  let tm := readTimers now db.timer.unread (db.msgs, [])
  { st := fun a => (db.actors a).map ARow.st
    msgs := tm.1
    inbox := rebox db
    outgoing := fun _ => []
    waits := fun a => rewait db.msgs (db.actors a)
    ready := fun a => decide (rebox db a ≠ [] ∧ rewait db.msgs (db.actors a) = none)
    timers := tm.2
    next := next
    jobs := fun _ => none
    mover := none }

/-- The read heads after `deserialize_system`: every queue read has been read to its end. -/
def recoverDb (db : DB S K) : DB S K :=
  { db with
    queue := fun a => match db.actors a with
      | none => db.queue a
      | some _ => (db.queue a).readAll
    timer := db.timer.readAll }

/-- The process dies (its memory is gone) and is started again.  Simplification: key numbers are not
used again (the code continues from the smallest key found in the tables, rts.c 1338). -/
def crashStep (c : Cfg S K) (now : Nat) : Cfg S K :=
  { mem := recoverMem c.db now c.mem.next
    db := recoverDb c.db }

/-- A worker takes an actor: it must be idle, the actor ready with a message. -/
def tryRun (prog : Prog S K) (c : Cfg S K) (w a : Nat) : Option (Cfg S K) :=
  match c.mem.jobs w, c.mem.ready a, c.mem.inbox a, c.mem.st a with
  | none, true, m :: _, some s =>
    match c.mem.msgs m with
    | none => none
    | some msg => some (runStep prog c w a m s msg)
  | _, _, _, _ => none

def tryRead (c : Cfg S K) (w : Nat) : Option (Cfg S K) :=
  match c.mem.jobs w with
  | none => none
  | some j =>
    match j.phase, j.next with
    | .returned, .done => some (readStep c w j)
    | _, _ => none

def tryCommit (c : Cfg S K) (w : Nat) : Option (Cfg S K) :=
  match c.mem.jobs w with
  | none => none
  | some j =>
    match j.phase, j.next with
    | .read _, .done => some (commitStep c w j)
    | .returned, .wait _ _ => some (commitStep c w j)
    | _, _ => none

def tryAbort (c : Cfg S K) (w : Nat) : Option (Cfg S K) :=
  match c.mem.jobs w with
  | none => none
  | some j =>
    match j.phase with
    | .read _ => some { c with mem := { c.mem with
        jobs := upd c.mem.jobs w (some { j with phase := .returned }) } }
    | _ => none

def tryFinish (c : Cfg S K) (w : Nat) : Option (Cfg S K) :=
  match c.mem.jobs w with
  | none => none
  | some j =>
    match j.phase, j.next with
    | .committed, .done => some (finishDone c w j)
    | .committed, .wait k i =>
      match j.sent[i]? with
      | none => none
      | some x => some (finishWait c w j k x)
    | _, _ => none

def tryTick (c : Cfg S K) (now : Nat) : Option (Cfg S K) :=
  match c.mem.mover, c.mem.timers with
  | none, m :: rest =>
    match c.mem.msgs m with
    | none => none
    | some msg => if msg.due.getD 0 ≤ now then some (tickStep c m msg rest) else none
  | _, _ => none

def tryTread (c : Cfg S K) : Option (Cfg S K) :=
  match c.mem.mover with
  | some (m, none) => some (treadStep c m)
  | _ => none

def tryTcommit (c : Cfg S K) : Option (Cfg S K) :=
  match c.mem.mover with
  | some (m, some h) => some (tcommitStep c m h)
  | _ => none

def tryCreate (c : Cfg S K) (a : Nat) (s : S) : Option (Cfg S K) :=
  match c.mem.st a with
  | none => some (createStep c a s)
  | some _ => none

/-- One event; `none` if it cannot happen. -/
def step (prog : Prog S K) (c : Cfg S K) : Ev S K → Option (Cfg S K)
  | .run w a => tryRun prog c w a
  | .read w => tryRead c w
  | .commit w => tryCommit c w
  | .abort w => tryAbort c w
  | .finish w => tryFinish c w
  | .tick now => tryTick c now
  | .tread => tryTread c
  | .tcommit => tryTcommit c
  | .io a k => some (ioStep c a k)
  | .create a s => tryCreate c a s
  | .crash now => some (crashStep c now)

/-- An execution. -/
def steps (prog : Prog S K) : Cfg S K → List (Ev S K) → Option (Cfg S K)
  | c, [] => some c
  | c, e :: es => (step prog c e).bind fun c' => steps prog c' es

end Verif.Persist
