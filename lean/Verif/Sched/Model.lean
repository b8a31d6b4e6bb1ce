import Verif.Common
/-!
# Model of the sleeping and waking of the worker threads (base/rts/q.c:18-137, base/rts/rts.c:374-403, 1613-1865)

Worker threads `0 .. n` (`n` is `num_wthreads`), each with an event loop of libuv. Each access to the head of a ready
queue without its lock, each section under the lock of a queue, each read and write of `wt_stats[i].state` and each call
of `uv_async_send` is a step; the steps of the threads interleave freely. Simplifications:

* A ready queue is the list of its actors (the linked lists are modelled in `Verif.Rts`), with its counter.
* The code of actors is arbitrary: while it runs, a worker may make any actor ready on any queue.
* A callback of the event loop may do so too (`$ASYNC` outside of actors, `handle_timeout`).
* Memory is sequentially consistent. Pausing and the end of the program are left out (see `Verif.Sched.Pause`).
* libuv: a loop whose async handle was signalled does not stay in its blocking poll; the phase `check`, in which
  `wt_work_cb` is called, follows each poll. Callbacks of timers may run without a following `check`.
-/
namespace Verif.Sched
open Verif

def upd {β : Type} (f : Nat → β) (a : Nat) (v : β) : Nat → β := fun b => if b = a then v else f b

/-- `SHARED_RQ`, rts.h:25-29. -/
def shared : Nat := 256

/-- Where `wake_wt` returns to. -/
inductive Ret where
  /-- After `wake_wt(SHARED_RQ)`, rts.c:1681, in the worker that took actor `a`. -/
  | run (a : Nat)
  /-- After `ENQ_ready` in the worker that runs actor `a`. -/
  | work (a : Nat)
  /-- After the first `wake_wt(i)` of a callback, in `ENQ_ready`: the second, rts.c:944, 1142, follows. -/
  | again (i : Nat) (chk : Bool)
  /-- After the second. -/
  | cb (chk : Bool)
  deriving DecidableEq

inductive Pc where
  /-- In the poll of the event loop. -/
  | poll
  /-- In a callback of the event loop; `chk` says that the phase `check` follows. -/
  | cb (chk : Bool)
  /-- Before the test `rqs[idx].head == NULL`, q.c:79, of the own queue. -/
  | top
  /-- Before the section of `_DEQ_ready`, q.c:83-96, for the own queue. -/
  | own
  /-- Before the test for the shared queue, q.c:79, called from q.c:129. -/
  | shr
  /-- Before the section of `_DEQ_ready` for the shared queue. -/
  | shrPop
  /-- Before the test `!rqs[wtid].head` in `wake_wt(i)`, rts.c:378. -/
  | wake (i : Nat) (k : Ret)
  /-- In the loop of `wake_wt`, rts.c:384, before the state of worker `j` is read. -/
  | scan (j : Nat) (k : Ret)
  /-- Before `state = WT_Working`, rts.c:1689. -/
  | start (a : Nat)
  /-- Running actor `a`, up to rts.c:1832. -/
  | work (a : Nat)
  /-- After `state = WT_Idle`, rts.c:1852. -/
  | fin
  deriving DecidableEq

structure St where
  q : Nat → List Nat
  /-- `rqs[i].count`, an `unsigned long long`. -/
  count : Nat → Nat
  /-- `wt_stats[i].state == WT_Idle`. -/
  idle : Nat → Bool
  /-- `uv_async_send(&wake_ev[i])` was called and the loop did not yet notice. -/
  pending : Nat → Bool
  pc : Nat → Pc

def St.setPc (s : St) (w : Nat) (p : Pc) : St := { s with pc := upd s.pc w p }

/-- The append of `ENQ_ready`, q.c:21-31. -/
def St.push (s : St) (i a : Nat) : St :=
  { s with q := upd s.q i (s.q i ++ [a]), count := upd s.count i ((s.count i + 1) % 2 ^ 64) }

/-- The section of `_DEQ_ready`, q.c:83-96: the counter is decremented even if the queue is empty. -/
def St.pop (s : St) (i : Nat) : St :=
  { s with q := upd s.q i (s.q i).tail, count := upd s.count i ((s.count i + (2 ^ 64 - 1)) % 2 ^ 64) }

def St.send (s : St) (i : Nat) : St := { s with pending := upd s.pending i true }

/-- After the initialization, rts.c:2838-2856: actors are in the queues, every worker was sent an event. (The states become
`WT_Idle` in rts.c:1892 and 3044 when the loops start; until then the event of the initialization is pending.) -/
def init (q : Nat → List Nat) : St :=
  ⟨q, fun i => (q i).length % 2 ^ 64, fun _ => true, fun _ => true, fun _ => .poll⟩

/-- The return from `wake_wt`. -/
def ret : Ret → Pc
  | .run a => .start a
  | .work a => .work a
  | .again i chk => .wake i (.cb chk)
  | .cb chk => .cb chk

/-- What a thread may do. -/
inductive Act where
  /-- The next step of the code. -/
  | go
  /-- An event for the loop: `chk` is false for timers. -/
  | event (chk : Bool)
  /-- Make actor `a` ready on queue `i`. -/
  | enq (a i : Nat)
  /-- The actor returns. -/
  | stop
  /-- The worker did run for more than 20 ms, rts.c:1858-1859. -/
  | yield
  deriving DecidableEq

/-- The queues that exist. -/
def valid (n i : Nat) : Bool := decide (i ≤ n ∨ i = shared)

/-- `DEQ_ready` after an empty own queue, q.c:123-130. -/
def afterOwn (w : Nat) : Pc := if w = 0 then .poll else .shr

/-- A step of worker `w`. -/
def step (n w : Nat) (x : Act) (s : St) : Option St :=
  if n < w then none else
  match s.pc w, x with
  | .poll, .go => if s.pending w then some ({ s with pending := upd s.pending w false }.setPc w (.cb true)) else none
  | .poll, .event chk => some (s.setPc w (.cb chk))
  | .cb chk, .go => some (s.setPc w (if chk then .top else .poll))
  | .cb chk, .enq a i =>
    if valid n i then
      some ((s.push i a).setPc w (.wake i (if w = i then .cb chk else .again i chk)))
    else none
  | .top, .go => some (s.setPc w (if s.q w = [] then afterOwn w else .own))
  | .own, .go =>
    match s.q w with
    | a :: _ => some ((s.pop w).setPc w (.wake shared (.run a)))
    | [] => some ((s.pop w).setPc w (afterOwn w))
  | .shr, .go => some (s.setPc w (if s.q shared = [] then .poll else .shrPop))
  | .shrPop, .go =>
    match s.q shared with
    | a :: _ => some ((s.pop shared).setPc w (.wake shared (.run a)))
    | [] => some ((s.pop shared).setPc w .poll)
  | .wake i k, .go =>
    if s.q i = [] then some (s.setPc w (ret k))
    else if i = shared then some (s.setPc w (.scan 1 k))
    else some ((s.send i).setPc w (ret k))
  | .scan j k, .go =>
    if n < j then some (s.setPc w (ret k))
    else if s.idle j then some ((s.send j).setPc w (ret k))
    else some (s.setPc w (.scan (j + 1) k))
  | .start a, .go => some ({ s with idle := upd s.idle w false }.setPc w (.work a))
  | .work a, .enq b i =>
    if valid n i then some ((s.push i b).setPc w (if w = i then .work a else .wake i (.work a))) else none
  | .work _, .stop => some ({ s with idle := upd s.idle w true }.setPc w .fin)
  | .fin, .go => some (s.setPc w .top)
  | .fin, .yield => some ((s.send w).setPc w .poll)
  | _, _ => none

/-- A run: the steps of the threads in some order. -/
def run (n : Nat) : List (Nat × Act) → St → Option St
  | [], s => some s
  | x :: xs, s => (step n x.1 x.2 s).bind (run n xs)

end Verif.Sched
