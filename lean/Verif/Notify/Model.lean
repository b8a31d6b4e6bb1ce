import Verif.Common
/-!
# Model of queue subscriptions, their notification and queue groups
(backend/queue.c, backend/queue_groups.c, backend/actondb.c)

`Verif.Queue` models the entries and the heads of one queue; it leaves out who is told of a new entry.
This model has the queues of one table with the subscribers of each, the groups, the `notified` flags and
the read heads. The entries themselves are left out: a queue is the number of its entries. So the
assertion of queue.c:589 on the number of entries found is left out too. The skip lists are lists of
pairs ordered by key (`Verif.Skiplist` proves that they are such maps); the keys, compared as signed
numbers, are taken not to be negative. Locks are left out, but the
steps of `enqueue` that are not under one lock are separate functions.
-/
namespace Verif.Notify
open Verif

/-! ## Maps -/

/-- `skiplist_search`, skiplist.c:131-145, on a list ordered by key. -/
def look {α : Type} (k : Nat) : List (Nat × α) → Option α
  | [] => none
  | (j, a) :: l => if j = k then some a else look k l

/-- `skiplist_insert`, skiplist.c:80-129: a value present is overwritten. -/
def put {α : Type} (k : Nat) (a : α) : List (Nat × α) → List (Nat × α)
  | [] => [(k, a)]
  | (j, b) :: l => if k < j then (k, a) :: (j, b) :: l else if j = k then (k, a) :: l else (j, b) :: put k a l

/-- `skiplist_delete`, skiplist.c:208-239. -/
def del {α : Type} (k : Nat) : List (Nat × α) → List (Nat × α)
  | [] => []
  | (j, b) :: l => if j = k then l else (j, b) :: del k l

/-! ## State -/

/-- `DB_ERR_…` and `QUEUE_STATUS_…`, queue.h:29-39. -/
def ERR_NO_TABLE : Int := -1
def ERR_NO_QUEUE : Int := -2
def ERR_NO_CONSUMER : Int := -3
def ERR_DUPLICATE_QUEUE : Int := -6
def ERR_DUPLICATE_CONSUMER : Int := -7
def ERR_NO_GROUP : Int := -8
def READ_INCOMPLETE : Int := 0
def READ_COMPLETE : Int := 1

/-- How a subscriber is reached: the fields `callback` and `sockfd` of `consumer_state`,
consumer_state.h:30-47. `callback`: a local subscriber; `socket fd`: `sockfd` points to a variable that is
still alive and holds `fd`; `dead`: it points to a variable that is gone; `null`: both are null. -/
inductive Sink
  | callback
  | socket (fd : Int)
  | dead
  | null
  deriving DecidableEq

/-- `consumer_state`, consumer_state.h:30-47. The group id is a `WORD`, that is a `void *`
(common.h:24): a number below 2^64. The consume head and the versions are left out, see `Verif.Queue`. -/
structure CS where
  group : Nat
  readHead : Int
  notified : Bool
  sink : Sink
  deriving DecidableEq

/-- `(WORD) -1`, the group id of an individual subscriber, queue.c:920, 940. -/
def NOGROUP : Nat := 2 ^ 64 - 1

/-- `db_row_t` of a queue: `no_entries`, `consumer_state`, and the ids of the groups in
`group_subscriptions` (queue.c:1125-1127). -/
structure Row where
  noEntries : Int
  consumers : List (Nat × CS)
  subs : List Nat
  deriving DecidableEq

/-- `group_state`, queue_groups.h:31-37. The status and the lock are left out. -/
structure Grp where
  consumers : List (Nat × CS)
  tables : List (Nat × List (Nat × Unit))
  deriving DecidableEq

/-- The queues of a table and the groups, `db_t`. -/
structure Db where
  queues : List (Nat × Row)
  groups : List (Nat × Grp)
  deriving DecidableEq

def init : Db := ⟨[], []⟩

/-- `get_consumer_state`, queue.c:1222-1240. -/
def newConsumer (group : Nat) (sink : Sink) : CS := ⟨group, -1, false, sink⟩

/-! ## Subscription -/

/-- `__subscribe_queue`, queue.c:785-824. -/
def subscribeRow (r : Row) (c group : Nat) (s : Sink) : Row × Int :=
  match look c r.consumers with
  | some _ => (r, ERR_DUPLICATE_CONSUMER)
  | none => (⟨r.noEntries, put c (newConsumer group s) r.consumers, r.subs⟩, 0)

/-- `_subscribe_queue`, queue.c:827-848, with the group id of an individual subscriber:
`subscribe_queue`, queue.c:913-922, and the first branch of `register_remote_subscribe_queue`, 938-943. -/
def subscribe (d : Db) (q c : Nat) (s : Sink) : Db × Int :=
  match look q d.queues with
  | none => (d, ERR_NO_QUEUE)
  | some r => (⟨put q (subscribeRow r c NOGROUP s).1 d.queues, d.groups⟩, (subscribeRow r c NOGROUP s).2)

/-- `add_listener_to_group`, queue_groups.c:148-174: the state of the consumer is replaced. -/
def addListener (g : Grp) (gid c : Nat) (s : Sink) : Grp × Int :=
  (⟨put c (newConsumer gid s) g.consumers, g.tables⟩,
    if (look c g.consumers).isSome then ERR_DUPLICATE_CONSUMER else 0)

/-- `_subscribe_group`, queue.c:850-889; `get_group`, queue_groups.c:24-34. -/
def subscribeGroup (d : Db) (gid c : Nat) (s : Sink) : Db × Int :=
  match look gid d.groups with
  | none => (⟨d.queues, put gid (addListener ⟨[], []⟩ gid c s).1 d.groups⟩, (addListener ⟨[], []⟩ gid c s).2)
  | some g => (⟨d.queues, put gid (addListener g gid c s).1 d.groups⟩, (addListener g gid c s).2)

/-- A pointer to a variable that goes out of scope. -/
def Sink.expire : Sink → Sink
  | .socket _ => .dead
  | s => s

/-- The subscription of a client, `handle_client_message`, actondb.c:1041, 1142, and
`handle_subscribe_queue`, 764-774: the pointer handed on is `&childfd`, the address of a parameter of
`handle_client_message`, which is gone when that function returns. -/
def handleSubscribe (d : Db) (q c : Nat) (fd : Int) : Db × Int := subscribe d q c (Sink.socket fd).expire

/-- `_unsubscribe_queue`, queue.c:951-983: the result is 0 also if there is no such subscriber, since
l. 972 tests the wrong variable. -/
def unsubscribe (d : Db) (q c : Nat) : Db × Int :=
  match look q d.queues with
  | none => (d, ERR_NO_QUEUE)
  | some r => (⟨put q ⟨r.noEntries, del c r.consumers, r.subs⟩ d.queues, d.groups⟩, 0)

/-- `_unsubscribe_group`, queue.c:891-910; `remove_listener_from_group`, queue_groups.c:176-187. -/
def unsubscribeGroup (d : Db) (gid c : Nat) : Db × Int :=
  match look gid d.groups with
  | none => (d, ERR_NO_GROUP)
  | some g => (⟨d.queues, put gid ⟨del c g.consumers, g.tables⟩ d.groups⟩,
      if (look c g.consumers).isSome then 0 else ERR_NO_CONSUMER)

/-! ## Headers of group members -/

/-- `_create_headers_for_group_subscribers`, queue.c:1004-1019. -/
def headersOf (gid : Nat) (r : Row) : List (Nat × CS) → Row
  | [] => r
  | (c, _) :: l => headersOf gid (subscribeRow r c gid .null).1 l

/-- `create_headers_for_group_subscribers`, queue.c:1021-1055, for the groups `subs` of the queue. -/
def headers (groups : List (Nat × Grp)) (r : Row) : List Nat → Row
  | [] => r
  | gid :: l =>
    match look gid groups with
    | none => headers groups r l
    | some g => headers groups (headersOf gid r g.consumers) l

/-- `create_queue`, queue.c:1057-1145. `subs` are the groups that the ring gives for the queue
(l. 1125; `Verif.Ring` models `get_buckets_for_object`). -/
def create (d : Db) (q : Nat) (subs : List Nat) : Db × Int :=
  match look q d.queues with
  | some _ => (d, ERR_DUPLICATE_QUEUE)
  | none => (⟨put q (headers d.groups ⟨0, [], subs⟩ subs) d.queues, d.groups⟩, 0)

/-- One queue of `auto_update_group_queue_subscriptions`, actondb.c:1916-1942, which runs when a new
view of the membership is installed. -/
def refresh (d : Db) (q : Nat) (subs : List Nat) : Db :=
  match look q d.queues with
  | none => d
  | some r => ⟨put q (headers d.groups ⟨r.noEntries, r.consumers, subs⟩ subs) d.queues, d.groups⟩

/-! ## Notification -/

/-- How the test `cs->group_id >= 0` (queue.c:166) is read. It compares a `void *` with 0, to which the
C standard gives no meaning; gcc and clang compare addresses, as unsigned numbers: `address`. What is
meant is `signed`: the id as an `int64_t`. -/
inductive Reading
  | address
  | signed
  deriving DecidableEq

/-- The test of queue.c:166. -/
def isGroup : Reading → Nat → Bool
  | .address, g => decide (0 ≤ g)
  | .signed, g => decide (g < 2 ^ 63)

/-- `notify_subscriber`, queue.c:162-240; `wr fd` says whether the write to `fd` succeeds (l. 223-228).
The second component says whether the subscriber is told. -/
def notifyOne (rd : Reading) (wr : Int → Bool) (cs : CS) : Res (CS × Bool) :=
  if isGroup rd cs.group then .ok (cs, false)
  else if cs.notified then .ok (cs, false)
  else match cs.sink with
    | .callback => .ok (⟨cs.group, cs.readHead, true, cs.sink⟩, true)
    | .socket fd =>
      if fd = 0 then .ok (cs, false)
      else if wr fd then .ok (⟨cs.group, cs.readHead, true, cs.sink⟩, true)
      else .ok (cs, false)
    | .dead => .ub
    | .null => .raise .assertFail

/-- `notify_subscribers`, queue.c:242-253. The second component are the subscribers that are told. -/
def notifyAll (rd : Reading) (wr : Int → Bool) : List (Nat × CS) → Res (List (Nat × CS) × List Nat)
  | [] => .ok ([], [])
  | (c, cs) :: l => do
    let a ← notifyOne rd wr cs
    let b ← notifyAll rd wr l
    return ((c, a.1) :: b.1, if a.2 then c :: b.2 else b.2)

/-- The groups, queue.c:303-325. -/
def notifyGroups (rd : Reading) (wr : Int → Bool) (groups : List (Nat × Grp)) :
    List Nat → Res (List (Nat × Grp) × List Nat)
  | [] => .ok (groups, [])
  | gid :: l =>
    match look gid groups with
    | none => notifyGroups rd wr groups l
    | some g => do
      let a ← notifyAll rd wr g.consumers
      let b ← notifyGroups rd wr (put gid ⟨a.1, g.tables⟩ groups) l
      return (b.1, a.2 ++ b.2)

/-- `enqueue`, first part, queue.c:272-283: the number of entries, under `enqueue_lock`. -/
def reserve (d : Db) (q : Nat) : Db × Int :=
  match look q d.queues with
  | none => (d, ERR_NO_QUEUE)
  | some r => (⟨put q ⟨r.noEntries + 1, r.consumers, r.subs⟩ d.queues, d.groups⟩, 0)

/-- `enqueue`, last part, queue.c:297-325, without a lock. The second component are those told. -/
def announce (rd : Reading) (wr : Int → Bool) (d : Db) (q : Nat) : Res (Db × List Nat) :=
  match look q d.queues with
  | none => .ok (d, [])
  | some r => do
    let a ← notifyAll rd wr r.consumers
    let b ← notifyGroups rd wr d.groups r.subs
    return (⟨put q ⟨r.noEntries, a.1, r.subs⟩ d.queues, b.1⟩, a.2 ++ b.2)

/-- `enqueue`, queue.c:258-328. -/
def enqueue (rd : Reading) (wr : Int → Bool) (d : Db) (q : Nat) : Res (Db × List Nat) :=
  announce rd wr (reserve d q).1 q

/-! ## Reading -/

/-- `set_consumer_notified` on the state in the group, queue.c:419-425, of the first of the groups that
has the consumer: `lookup_consumer_state_in_group`, queue.c:331-380. -/
def clearGroups (groups : List (Nat × Grp)) (c : Nat) : List Nat → List (Nat × Grp)
  | [] => groups
  | gid :: l =>
    match look gid groups with
    | none => clearGroups groups c l
    | some g =>
      match look c g.consumers with
      | none => clearGroups groups c l
      | some cs => put gid ⟨put c ⟨cs.group, cs.readHead, false, cs.sink⟩ g.consumers, g.tables⟩ groups

/-- `MIN`, queue.c:568. -/
def cmin (a b : Int) : Int := if a < b then a else b

/-- The new state of the consumer, queue.c:568-601. -/
def advance (cs : CS) (n head : Int) : CS :=
  ⟨cs.group, head, if head = n - 1 then false else cs.notified, cs.sink⟩

/-- `read_queue`, queue.c:515-604. -/
def read (d : Db) (q c : Nat) (max : Int) : Res (Db × Int) :=
  match look q d.queues with
  | none => .ok (d, ERR_NO_QUEUE)
  | some r =>
    match look c r.consumers with
    | none => .ok (d, ERR_NO_CONSUMER)
    | some cs =>
      if cs.readHead > r.noEntries - 1 then .raise .assertFail
      else if cs.readHead = r.noEntries - 1 then .ok (d, READ_COMPLETE)
      else
        let head := cmin (cs.readHead + max) (r.noEntries - 1)
        let r' : Row := ⟨r.noEntries, put c (advance cs r.noEntries head) r.consumers, r.subs⟩
        if head = r.noEntries - 1 then
          .ok (⟨put q r' d.queues, clearGroups d.groups c r.subs⟩, READ_COMPLETE)
        else .ok (⟨put q r' d.queues, d.groups⟩, READ_INCOMPLETE)

/-- `set_private_read_head`, queue.c:427-473, at the commit of a transaction that has read (txns.c:514-519). -/
def setReadHead (d : Db) (q c : Nat) (head : Int) : Res (Db × Int) :=
  match look q d.queues with
  | none => .ok (d, ERR_NO_QUEUE)
  | some r =>
    match look c r.consumers with
    | none => .ok (d, ERR_NO_CONSUMER)
    | some cs =>
      if head ≤ r.noEntries - 1 ∧ cs.readHead ≤ head then
        .ok (⟨put q ⟨r.noEntries, put c ⟨cs.group, head, cs.notified, cs.sink⟩ r.consumers, r.subs⟩ d.queues,
          d.groups⟩, 0)
      else .raise .assertFail

/-! ## Executions -/

/-- The calls on a table. `reserve` and `announce` are the parts of an `enqueue` of another thread. -/
inductive Op
  | create (q : Nat) (subs : List Nat)
  | refresh (q : Nat) (subs : List Nat)
  | subscribe (q c : Nat) (s : Sink)
  | handle (q c : Nat) (fd : Int)
  | subscribeGroup (g c : Nat) (s : Sink)
  | unsubscribe (q c : Nat)
  | unsubscribeGroup (g c : Nat)
  | enqueue (q : Nat)
  | reserve (q : Nat)
  | announce (q : Nat)
  | read (q c : Nat) (max : Int)
  | commit (q c : Nat) (head : Int)
  deriving DecidableEq

/-- One call: the state behind it and the subscribers that it tells. -/
def step (rd : Reading) (wr : Int → Bool) (d : Db) : Op → Res (Db × List Nat)
  | .create q subs => .ok ((create d q subs).1, [])
  | .refresh q subs => .ok (refresh d q subs, [])
  | .subscribe q c s => .ok ((subscribe d q c s).1, [])
  | .handle q c fd => .ok ((handleSubscribe d q c fd).1, [])
  | .subscribeGroup g c s => .ok ((subscribeGroup d g c s).1, [])
  | .unsubscribe q c => .ok ((unsubscribe d q c).1, [])
  | .unsubscribeGroup g c => .ok ((unsubscribeGroup d g c).1, [])
  | .enqueue q => enqueue rd wr d q
  | .reserve q => .ok ((reserve d q).1, [])
  | .announce q => announce rd wr d q
  | .read q c max => do let x ← read d q c max; return (x.1, [])
  | .commit q c head => do let x ← setReadHead d q c head; return (x.1, [])

def run (rd : Reading) (wr : Int → Bool) (d : Db) : List Op → Res Db
  | [] => .ok d
  | o :: os => do
    let x ← step rd wr d o
    run rd wr x.1 os

/-! ## The queues of a group -/

/-- `add_queue_to_group`, queue_groups.c:79-96. The list found is assigned to a variable of an inner
block (l. 86), so that `queue_list` stays null if the table is there; `skiplist_insert` then
dereferences it. -/
def addQueue (g : Grp) (t q : Nat) : Res Grp :=
  match look t g.tables with
  | some _ => .ub
  | none => .ok ⟨g.consumers, put t (put q () []) g.tables⟩

/-- `remove_queue_from_group`, queue_groups.c:98-121. `skiplist_delete` gives the value deleted, which is
the id of the queue (l. 93): for the queue 0 it is null, like for a queue that is not there. -/
def removeQueue (g : Grp) (t q : Nat) : Grp × Int :=
  match look t g.tables with
  | none => (g, ERR_NO_TABLE)
  | some l =>
    match look q l with
    | none => (g, ERR_NO_QUEUE)
    | some _ => (⟨g.consumers, put t (del q l) g.tables⟩, if q = 0 then ERR_NO_QUEUE else 0)

/-- `is_queue_in_group`, queue_groups.c:123-146. -/
def inGroup (g : Grp) (t q : Nat) : Bool :=
  match look t g.tables with
  | none => false
  | some l => (look q l).isSome

end Verif.Notify
