import Verif.Db.Model
import Verif.Queue.Model
/-!
# Model of the transactions of the database server (backend/txns.c, backend/txn_state.c, backend/actondb.c)

* The write set of a transaction is a skip list whose keys and values are pointers to `txn_write`
  objects. Here it is the list of its nodes in their order, that is the skip list in which all levels are 0;
  C22 shows that the levels do not matter for a comparison that is an order. The objects live in a heap, a
  freed object is `none` there and reading it is undefined behaviour.
* The transactions of a server are a skip list by transaction id: here a sorted map (`Db.find`, `Db.put`,
  `Db.del`). The server handles one message at a time (`MULTI_THREADED` is 0, db.h; one thread calls
  the handlers).
* The read set is not there: every function that adds to it calls `get_txn_read` with at least one
  primary key, which writes through the null pointer `start_primary_keys` (txn_state.c:319-320).
* `peek_queue` (`Queue.peek`) gives a transactional queue read its new read head and the version of
  the old one; they enter here as fields of the write.
* A table of the database is either a data table (`Db.Table`) or a queue table.
-/
namespace Verif.Txn
open Verif

variable {α ν : Type}

/-- The query types of writes, db.h:33-34 and 43-47. Subscriptions in transactions are not implemented in
the code (txns.c:845-858). -/
inductive Kind
  | update | delete | enqueue | readQ | consumeQ | createQ | deleteQ
  deriving DecidableEq

/-- The numbers of the query types, db.h:33-47. -/
def Kind.num : Kind → Int
  | .update => 0
  | .delete => 1
  | .enqueue => 9
  | .readQ => 10
  | .consumeQ => 11
  | .createQ => 12
  | .deleteQ => 13

/-- `txn_write`, txn_state.h. `keys` are the first `no_primary_keys + no_clustering_keys` column values of
an update or a deletion, `cols` the other column values; `head` is `new_read_head` or `new_consume_head`. -/
structure Write (α ν : Type) where
  kind : Kind
  table : Int
  keys : List Int := []
  cols : List α := []
  queue : Int := 0
  app : Int := 0
  shard : Int := 0
  consumer : Int := 0
  head : Int := -1
  prh : Option ν := none
  order : Int := 0

/-- `(int) ((int64_t) a - (int64_t) b)`, txn_state.c:32. -/
def diff (a b : Int) : Int := wrap32 (wrap64 (a - b))

/-- The loop over the key columns, txn_state.c:43-47; the cast there applies to the first operand only. -/
def keysCmp : List Int → List Int → Int
  | a :: as, b :: bs => if a ≠ b then wrap32 (wrap64 (wrap32 a - b)) else keysCmp as bs
  | _, _ => 0

/-- The comparison of reads and consumptions of queues, txn_state.c:57-64. -/
def consumerCmp (a b : Write α ν) : Int :=
  if a.queue ≠ b.queue then diff a.queue b.queue
  else if a.app ≠ b.app then diff a.app b.app
  else if a.shard ≠ b.shard then diff a.shard b.shard
  else if a.consumer ≠ b.consumer then diff a.consumer b.consumer
  else 0

/-- The comparison of queue operations of one kind, txn_state.c:55-74. -/
def queueCmp (a b : Write α ν) : Int :=
  match a.kind with
  | .readQ => consumerCmp a b
  | .consumeQ => consumerCmp a b
  | .enqueue => if a.order ≠ b.order then diff a.order b.order else 0
  | .createQ => if a.order ≠ b.order then diff a.order b.order else 0
  | _ => 0

/-- Regular operations, txn_state.c:34: `query_type < QUERY_TYPE_ENQUEUE`. -/
def Kind.regular : Kind → Bool
  | .update => true
  | .delete => true
  | _ => false

/-- `txn_write_cmp`, txn_state.c:26-78. -/
def cmp (a b : Write α ν) : Int :=
  if a.table ≠ b.table then diff a.table b.table
  else if a.kind.regular then
    if a.keys.length ≠ b.keys.length then (a.keys.length : Int) - b.keys.length else keysCmp a.keys b.keys
  else if a.kind ≠ b.kind then a.kind.num - b.kind.num
  else queueCmp a b

def setF {β : Type} (f : Nat → β) (k : Nat) (v : β) : Nat → β := fun i => if i = k then v else f i

def setI {β : Type} (f : Int → β) (k : Int) (v : β) : Int → β := fun i => if i = k then v else f i

/-- Reading a `txn_write`. -/
def deref (h : Nat → Option (Write α ν)) (p : Nat) : Res (Write α ν) :=
  match h p with
  | some w => .ok w
  | none => .ub

/-- The loop of `skiplist_search`, skiplist.c:133-136: the last node that is not above `w`. -/
def walk (h : Nat → Option (Write α ν)) (w : Write α ν) (x : Option (Nat × Nat)) : List (Nat × Nat) →
    Res (Option (Nat × Nat))
  | [] => .ok x
  | n :: r => do
    let k ← deref h n.1
    if cmp k w ≤ 0 then walk h w (some n) r else .ok x

/-- The test after the loop, skiplist.c:138: the value of the node if its key equals `w`. -/
def checkNode (h : Nat → Option (Write α ν)) (w : Write α ν) : Option (Nat × Nat) → Res (Option Nat)
  | none => .ok none
  | some n => do
    let k ← deref h n.1
    if cmp w k = 0 then .ok (some n.2) else .ok none

/-- `skiplist_search` in the write set, skiplist.c:131-145. -/
def wsSearch (h : Nat → Option (Write α ν)) (nodes : List (Nat × Nat)) (w : Write α ν) : Res (Option Nat) := do
  let x ← walk h w none nodes
  checkNode h w x

/-- `skiplist_insert` of the object `w` at the pointer `p` into the write set, skiplist.c:80-117: if a node
with an equal key is there, it gets the new value and keeps its key. The flag says whether a node was added
(`no_items++`). -/
def wsInsert (h : Nat → Option (Write α ν)) (w : Write α ν) (p : Nat) : List (Nat × Nat) →
    Res (List (Nat × Nat) × Bool)
  | [] => .ok ([(p, p)], true)
  | n :: r => do
    let k ← deref h n.1
    if cmp k w < 0 then do
      let x ← wsInsert h w p r
      return (n :: x.1, x.2)
    else if cmp w k = 0 then .ok ((n.1, p) :: r, false)
    else .ok ((p, p) :: n :: r, true)

/-- `txn_state`, txn_state.h. -/
structure Txn (α ν : Type) where
  heap : Nat → Option (Write α ν)
  nxt : Nat
  nodes : List (Nat × Nat)
  items : Int
  validated : Bool
  ver : Option ν

/-- `init_txn_state`, txn_state.c:150-160. -/
def newTxn : Txn α ν := ⟨fun _ => none, 0, [], 0, false, none⟩

/-- The operations that look for an earlier write and free it, txn_state.c:369-375, 545-552 and 563-570; the
others only insert, txn_state.c:528-535 and 574-592. -/
def Kind.replaces : Kind → Bool
  | .update => true
  | .delete => true
  | .readQ => true
  | .consumeQ => true
  | _ => false

def prevWrite (h : Nat → Option (Write α ν)) (nodes : List (Nat × Nat)) (w : Write α ν) : Res (Option Nat) :=
  if w.kind.replaces then wsSearch h nodes w else .ok none

def freeWrite (h : Nat → Option (Write α ν)) : Option Nat → Nat → Option (Write α ν)
  | none => h
  | some p => setF h p none

/-- `add_write_to_txn`, txn_state.c:362-378, and the functions for queue operations, txn_state.c:528-592:
a new object with the number of items as its local order, the search for the previous write, the insertion, and
the release of the previous write. -/
def addWrite (t : Txn α ν) (w0 : Write α ν) : Res (Txn α ν) := do
  let w : Write α ν := { w0 with order := t.items }
  let h := setF t.heap t.nxt (some w)
  let prev ← prevWrite h t.nodes w
  let r ← wsInsert h w t.nxt t.nodes
  return ⟨freeWrite h prev, t.nxt + 1, r.1, if r.2 then t.items + 1 else t.items, t.validated, t.ver⟩

/-- A queue: its row, the version of the row and the versions of the read heads of its consumers. -/
structure QRow (α ν : Type) where
  row : Queue.Row (List α)
  ver : Option ν
  prh : Int → Option ν

/-- The tables of the database, by their keys. -/
structure Store (α ν : Type) where
  tables : Int → Option (Db.Table α ν)
  qtables : Int → Option (Int → Option (QRow α ν))

/-- A database server. -/
structure Server (α ν : Type) where
  txns : List (Int × Txn α ν)
  store : Store α ν

def ERR_NO_TABLE : Int := -1
def ERR_NO_QUEUE : Int := -2
def ERR_DUPLICATE_QUEUE : Int := -6
def DUPLICATE_TXN : Int := -2
def NO_SUCH_TXN : Int := -3
def VAL_COMMIT : Int := 0
def VAL_ABORT : Int := 1
def VAL_ABORT_SCHEMA : Int := -8

/-- `db_search` of a queue, db.c:1024-1034, only used for its being null; `ok` with the queue otherwise. -/
def findQueue (s : Store α ν) (t q : Int) : Option (QRow α ν) :=
  match s.qtables t with
  | none => none
  | some f => f q

/-- `db_verify_cell_version` without clustering keys, db.c:1082-1092 and db.c:624-646; `cv` is `compare_vc`. -/
def verifyVersion (cv : Option ν → Option ν → Int) (s : Store α ν) (t q : Int) (v : Option ν) : Int :=
  match s.qtables t with
  | none => ERR_NO_TABLE
  | some f => match f q with
    | none => ERR_NO_QUEUE
    | some r => cv v r.ver

/-- The loop over the other transactions, txns.c:378-419, for a regular write. -/
def conflictLoop (id : Int) (w : Write α ν) : List (Int × Txn α ν) → Res Bool
  | [] => .ok false
  | e :: r =>
    if e.2.validated = false ∨ e.1 = id then conflictLoop id w r
    else do
      let n ← wsSearch e.2.heap e.2.nodes w
      if n.isSome then .ok true else conflictLoop id w r

/-- `is_write_invalidated`, txns.c:324-447: the result of the validation of one write. The `switch`
returns for every queue operation, so that the comparison with the other transactions below it (in
particular `queue_op_conflict`, l. 421-440) is only reached by updates and deletions. -/
def writeStatus (cv : Option ν → Option ν → Int) (s : Server α ν) (id : Int) (w : Write α ν) : Res Int :=
  match w.kind with
  | .readQ =>
    let st := verifyVersion cv s.store w.table w.queue w.prh
    .ok (if st = ERR_NO_TABLE ∨ st = ERR_NO_QUEUE then VAL_ABORT_SCHEMA else if st ≠ 0 then VAL_ABORT else VAL_COMMIT)
  | .createQ => .ok (if (findQueue s.store w.table w.queue).isSome then VAL_ABORT else VAL_COMMIT)
  | .deleteQ => .ok (if (findQueue s.store w.table w.queue).isSome then VAL_COMMIT else VAL_ABORT)
  | .enqueue => .ok (if (findQueue s.store w.table w.queue).isSome then VAL_COMMIT else VAL_ABORT_SCHEMA)
  | .consumeQ => .ok (if (findQueue s.store w.table w.queue).isSome then VAL_COMMIT else VAL_ABORT_SCHEMA)
  | _ => do
    let c ← conflictLoop id w s.txns
    return if c then VAL_ABORT else VAL_COMMIT

/-- The loop over the write set, txns.c:476-487. -/
def validateLoop (cv : Option ν → Option ν → Int) (s : Server α ν) (id : Int) (h : Nat → Option (Write α ν)) :
    List (Nat × Nat) → Res Int
  | [] => .ok VAL_COMMIT
  | n :: r => do
    let w ← deref h n.2
    let c ← writeStatus cv s id w
    if c ≠ VAL_COMMIT then .ok c else validateLoop cv s id h r

def putTxn (s : Server α ν) (id : Int) (t : Txn α ν) : Server α ν := ⟨Db.put s.txns id t, s.store⟩

def dropTxn (s : Server α ν) (id : Int) : Server α ν := ⟨Db.del s.txns id, s.store⟩

/-- `validate_txn`, txns.c:450-492. -/
def validateTxn (cv : Option ν → Option ν → Int) (s : Server α ν) (id : Int) (v : ν) (t : Txn α ν) :
    Res (Server α ν × Int) :=
  if t.validated then .raise .assertFail
  else do
    let c ← validateLoop cv s id t.heap t.nodes
    return (putTxn s id ⟨t.heap, t.nxt, t.nodes, t.items, decide (c = VAL_COMMIT), some v⟩, c)

def setTable (s : Store α ν) (t : Int) (x : Db.Table α ν) : Store α ν := ⟨setI s.tables t (some x), s.qtables⟩

def setQueue (s : Store α ν) (t q : Int) (f : Int → Option (QRow α ν)) (x : Option (QRow α ν)) : Store α ν :=
  ⟨s.tables, setI s.qtables t (some (setI f q x))⟩

/-- `db_insert_transactional`, db.c:980-996. -/
def persistUpdate (s : Store α ν) (v : ν) (w : Write α ν) : Res (Store α ν × Int) :=
  match s.tables w.table, w.keys with
  | none, _ => .ok (s, ERR_NO_TABLE)
  | some _, [] => .ub
  | some t, pk :: cks => do
    let t' ← Db.insert t pk cks w.cols (some v)
    return (setTable s w.table t', 0)

/-- `db_delete_row_transactional`, db.c:1181-1194, called with the columns of the write, of which it uses the
first as primary key (txns.c:508). -/
def persistDelete (s : Store α ν) (w : Write α ν) : Res (Store α ν × Int) :=
  match s.tables w.table, w.keys with
  | none, _ => .ok (s, ERR_NO_TABLE)
  | some _, [] => .ub
  | some t, pk :: _ => .ok (setTable s w.table (Db.deleteRow t pk).1, (Db.deleteRow t pk).2)

/-- The part of a queue operation that finds the queue, e.g. queue.c:260-270. -/
def withQueue (s : Store α ν) (w : Write α ν)
    (k : (Int → Option (QRow α ν)) → QRow α ν → Res (Store α ν × Int)) : Res (Store α ν × Int) :=
  match s.qtables w.table with
  | none => .ok (s, ERR_NO_TABLE)
  | some f => match f w.queue with
    | none => .ok (s, ERR_NO_QUEUE)
    | some r => k f r

/-- `create_queue`, queue.c:1057-1145. -/
def persistCreate (s : Store α ν) (v : ν) (lvl : Nat) (w : Write α ν) : Res (Store α ν × Int) :=
  match s.qtables w.table with
  | none => .ok (s, ERR_NO_TABLE)
  | some f => match f w.queue with
    | some _ => .ok (s, ERR_DUPLICATE_QUEUE)
    | none => do
      let r ← Queue.create lvl
      return (setQueue s w.table w.queue f (some ⟨r, some v, fun _ => none⟩), 0)

/-- `persist_write`, txns.c:494-541. `lvl` is the level that the skip list of a queue draws at random. -/
def persistWrite (s : Store α ν) (v : ν) (lvl : Nat) (w : Write α ν) : Res (Store α ν × Int) :=
  match w.kind with
  | .update => persistUpdate s v w
  | .delete => persistDelete s w
  | .enqueue => withQueue s w fun f r => do
    let x ← Queue.enqueue r.row w.cols lvl
    return (setQueue s w.table w.queue f (some ⟨x, r.ver, r.prh⟩), 0)
  | .readQ => withQueue s w fun f r => do
    let x ← Queue.setReadHead r.row w.consumer w.head
    return (setQueue s w.table w.queue f
      (some ⟨x.1, r.ver, if x.2 = 0 then setI r.prh w.consumer (some v) else r.prh⟩), x.2)
  | .consumeQ => withQueue s w fun f r => do
    let x ← Queue.setConsumeHead r.row w.consumer w.head
    return (setQueue s w.table w.queue f (some ⟨x.1, r.ver, r.prh⟩), x.2)
  | .createQ => persistCreate s v lvl w
  | .deleteQ => withQueue s w fun f _ => .ok (setQueue s w.table w.queue f none, 0)

/-- The loop of `persist_txn`, txns.c:557-576: a failed write is logged, and the result is that of the last
write. -/
def persistLoop (h : Nat → Option (Write α ν)) (v : ν) (lvl : Write α ν → Nat) (s : Store α ν) (res : Int) :
    List (Nat × Nat) → Res (Store α ν × Int)
  | [] => .ok (s, res)
  | n :: r => do
    let w ← deref h n.2
    let x ← persistWrite s v (lvl w) w
    persistLoop h v lvl x.1 x.2 r

/-- `persist_txn`, txns.c:543-580. -/
def persistTxn (s : Server α ν) (id : Int) (v : ν) (lvl : Write α ν → Nat) (t : Txn α ν) : Res (Server α ν × Int) := do
  let x ← persistLoop t.heap v lvl s.store 0 t.nodes
  return (⟨Db.del s.txns id, x.1⟩, x.2)

/-- The messages of a client about transactions. -/
inductive Op (α ν : Type)
  | start (id : Int)
  | write (id : Int) (w : Write α ν)
  | validate (id : Int) (v : ν)
  | commit (id : Int) (v : ν)
  | abort (id : Int)

/-- The handler of a message, with the status that the client gets: `handle_new_txn`, actondb.c:877-906; the
functions for writes in transactions, txns.c:632-639, 752-768 and 784-877; `handle_validate_txn`, actondb.c:908-914;
`handle_commit_txn`, actondb.c:916-931; `handle_abort_txn`, actondb.c:933-938, whose status must be 0,
actondb.c:1241-1242. -/
def step (cv : Option ν → Option ν → Int) (lvl : Write α ν → Nat) (s : Server α ν) : Op α ν → Res (Server α ν × Int)
  | .start id => match Db.find s.txns id with
    | some _ => .ok (s, DUPLICATE_TXN)
    | none => .ok (putTxn s id newTxn, 0)
  | .write id w => match Db.find s.txns id with
    | none => .ok (s, NO_SUCH_TXN)
    | some t => do
      let t' ← addWrite t w
      return (putTxn s id t', 0)
  | .validate id v => match Db.find s.txns id with
    | none => .ok (s, NO_SUCH_TXN)
    | some t => validateTxn cv s id v t
  | .commit id v => match Db.find s.txns id with
    | none => .ok (s, NO_SUCH_TXN)
    | some t => persistTxn s id v lvl t
  | .abort id => match Db.find s.txns id with
    | none => .raise .assertFail
    | some _ => .ok (dropTxn s id, 0)

/-- A sequence of messages, with the replies. -/
def run (cv : Option ν → Option ν → Int) (lvl : Write α ν → Nat) : List (Op α ν) → Server α ν →
    Res (Server α ν × List (Op α ν × Int))
  | [], s => .ok (s, [])
  | o :: os, s => do
    let x ← step cv lvl s o
    let y ← run cv lvl os x.1
    return (y.1, (o, x.2) :: y.2)

/-- `commit_txn`, txns.c:587-629: the commit of a transaction of a local database. -/
def commitLocal (cv : Option ν → Option ν → Int) (lvl : Write α ν → Nat) (s : Server α ν) (id : Int) (v : ν) :
    Res (Server α ν × Int) :=
  match Db.find s.txns id with
  | none => .ok (s, NO_SUCH_TXN)
  | some t => do
    let x ← validateTxn cv s id v t
    if x.2 = VAL_COMMIT then persistTxn x.1 id v lvl t else .ok (dropTxn x.1 id, 0)

end Verif.Txn
