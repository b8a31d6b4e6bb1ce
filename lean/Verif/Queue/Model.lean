import Verif.Skiplist.Model
/-!
# Model of the queues of the database (backend/queue.c, backend/db.c)

One queue, that is one row of a queue table. The table and the row are looked up by key in skip lists
of the database (queue.c:260-268 and the same in each function); both are taken to exist. Locks,
subscriber notification, queue groups, the `notified` flags and the versions of the heads are not
modelled. An entry is its column values.
-/
namespace Verif.Queue
open Verif Verif.Skiplist

variable {α : Type}

/-- `DB_ERR_…` and `QUEUE_STATUS_…`, queue.h:29-39. -/
def ERR_NO_CONSUMER : Int := -3
def ERR_COMPLETE : Int := -4
def ERR_HEAD_INVALID : Int := -5
def ERR_DUPLICATE_CONSUMER : Int := -7
def READ_INCOMPLETE : Int := 0
def READ_COMPLETE : Int := 1

/-- The heads of a consumer, `consumer_state`, consumer_state.h; `READ_HEAD` and `CONSUME_HEAD`, queue.h:45-46. -/
structure Consumer where
  readHead : Int
  consumeHead : Int
  deriving DecidableEq

/-- `db_row_t` of a queue. The cells have the entry id as key; the sentinel (queue.c:1080-1085) has no
value. The consumers are a skip list by consumer id (queue.c:1108): here a map. -/
structure Row (α : Type) where
  cells : SL Int (Option α)
  noEntries : Int
  consumers : Int → Option Consumer

def setC (f : Int → Option Consumer) (c : Int) (x : Option Consumer) : Int → Option Consumer :=
  fun d => if d = c then x else f d

/-- `create_queue`, queue.c:1057-1145: a row with the sentinel entry `-2`. `lvl` is the level drawn by
the skip list. -/
def create (lvl : Nat) : Res (Row α) := do
  let s ← Skiplist.insert longCmp (Skiplist.init longMax) (-2) none lvl
  return ⟨s, 0, fun _ => none⟩

/-- `table_insert` of a cell, db.c:371-425: a new cell is inserted, an existing one overwritten. -/
def insertCell (cells : SL Int (Option α)) (k : Int) (v : α) (lvl : Nat) : Res (SL Int (Option α)) :=
  Skiplist.insert longCmp cells k (some v) lvl

/-- `enqueue`, first part: the id of the entry, queue.c:272-283, under `enqueue_lock`. -/
def reserve (r : Row α) : Row α × Int := (⟨r.cells, r.noEntries + 1, r.consumers⟩, r.noEntries)

/-- `enqueue`, second part: the insertion, queue.c:285-293, without a lock. -/
def insertEntry (r : Row α) (k : Int) (v : α) (lvl : Nat) : Res (Row α) := do
  let s ← insertCell r.cells k v lvl
  return ⟨s, r.noEntries, r.consumers⟩

/-- `enqueue`, queue.c:258-328. -/
def enqueue (r : Row α) (v : α) (lvl : Nat) : Res (Row α) :=
  insertEntry (reserve r).1 (reserve r).2 v lvl

/-- The loop of `table_range_search_clustering`, db.c:685-686: the nodes from `x` to the last. -/
def rangeLoop (h : Nat → Option (Node Int (Option α))) (b : Int) : Nat → Nat → Res (List Nat)
  | 0, _ => .diverge
  | f + 1, x => do
    let y ← fwd h x 0
    match y with
    | none => return [x]
    | some y => do
      let k ← keyAt h x
      if k < b then do
        let r ← rangeLoop h b f y
        return x :: r
      else return [x]

/-- `table_range_search_clustering` with one clustering key, db.c:648-689. -/
def rangeSearch (cells : SL Int (Option α)) (a b : Int) : Res (List Nat) := do
  let x ← searchHigher longCmp cells a
  match x with
  | none => return []
  | some x => rangeLoop cells.heap b (cells.nxt + 1) x

/-- The entries of the nodes, actondb.c:712-730. -/
def valuesAt (h : Nat → Option (Node Int (Option α))) : List Nat → Res (List α)
  | [] => .ok []
  | x :: xs =>
    match h x with
    | none => .ub
    | some n => match n.val with
      | some (some v) => do
        let r ← valuesAt h xs
        return v :: r
      | _ => .ub

/-- Result of a read: status, new read head, entries. -/
structure ReadResult (α : Type) where
  status : Int
  head : Int
  entries : List α
  deriving DecidableEq

def cmin (a b : Int) : Int := if a < b then a else b

/-- Reading the entries behind `start` up to `head`: queue.c:574-602, 648-666. -/
def fetch (r : Row α) (start head : Int) : Res (ReadResult α) := do
  let ns ← rangeSearch r.cells (start + 1) head
  if (ns.length : Int) ≠ head - (start + 1) + 1 then .raise .assertFail
  else do
    let vs ← valuesAt r.cells.heap ns
    return ⟨if head = r.noEntries - 1 then READ_COMPLETE else READ_INCOMPLETE, head, vs⟩

/-- `read_queue` for a consumer that is found, queue.c:541-604. -/
def readFound (r : Row α) (c : Int) (cs : Consumer) (max : Int) : Res (Row α × ReadResult α) :=
  if cs.readHead > r.noEntries - 1 then .raise .assertFail
  else if cs.readHead = r.noEntries - 1 then .ok (r, ⟨READ_COMPLETE, cs.readHead, []⟩)
  else do
    let head := cmin (cs.readHead + max) (r.noEntries - 1)
    let x ← fetch r cs.readHead head
    return (⟨r.cells, r.noEntries, setC r.consumers c (some ⟨head, cs.consumeHead⟩)⟩, x)

/-- `read_queue`, queue.c:515-604. -/
def read (r : Row α) (c max : Int) : Res (Row α × ReadResult α) :=
  match r.consumers c with
  | none => .ok (r, ⟨ERR_NO_CONSUMER, 0, []⟩)
  | some cs => readFound r c cs max

/-- `peek_queue`, queue.c:606-667; a negative offset means the read head. -/
def peek (r : Row α) (c max offset : Int) : Res (ReadResult α) :=
  match r.consumers c with
  | none => .ok ⟨ERR_NO_CONSUMER, 0, []⟩
  | some cs =>
    let start := if offset ≥ 0 then offset else cs.readHead
    if start > r.noEntries - 1 then .raise .assertFail
    else if start = r.noEntries - 1 then .ok ⟨READ_COMPLETE, start, []⟩
    else fetch r start (cmin (start + max) (r.noEntries - 1))

/-- `replay_queue`, queue.c:669-733. -/
def replay (r : Row α) (c offset max : Int) : Res (ReadResult α) :=
  match r.consumers c with
  | none => .ok ⟨ERR_NO_CONSUMER, 0, []⟩
  | some cs =>
    if cs.readHead > r.noEntries - 1 ∨ cs.consumeHead + offset > cs.readHead then .raise .assertFail
    else if cs.consumeHead + offset = cs.readHead then .ok ⟨READ_COMPLETE, 0, []⟩
    else do
      let head := cmin (cs.consumeHead + offset + max) cs.readHead
      let ns ← rangeSearch r.cells (cs.consumeHead + offset) head
      if (ns.length : Int) ≠ head - (cs.consumeHead + offset) then .raise .assertFail
      else do
        let vs ← valuesAt r.cells.heap ns
        return ⟨if head = cs.readHead then READ_COMPLETE else READ_INCOMPLETE, head, vs⟩

/-- `consume_queue`, queue.c:735-782. The result is an `int`. -/
def consume (r : Row α) (c head : Int) : Res (Row α × Int) :=
  match r.consumers c with
  | none => .ok (r, ERR_NO_CONSUMER)
  | some cs =>
    if cs.consumeHead > cs.readHead then .raise .assertFail
    else if head > cs.readHead then .ok (r, ERR_HEAD_INVALID)
    else if head = cs.consumeHead then .ok (r, ERR_COMPLETE)
    else .ok (⟨r.cells, r.noEntries, setC r.consumers c (some ⟨cs.readHead, head⟩)⟩, wrap32 head)

/-- `__subscribe_queue`, queue.c:785-824, `get_consumer_state`, queue.c:1222-1239. -/
def subscribe (r : Row α) (c : Int) : Row α × Int :=
  match r.consumers c with
  | some _ => (r, ERR_DUPLICATE_CONSUMER)
  | none => (⟨r.cells, r.noEntries, setC r.consumers c (some ⟨-1, -1⟩)⟩, 0)

/-- `_unsubscribe_queue`, queue.c:951-983: the result is 0 in all cases, since l. 973 tests the wrong
variable. -/
def unsubscribe (r : Row α) (c : Int) : Row α × Int :=
  (⟨r.cells, r.noEntries, setC r.consumers c none⟩, 0)

/-- `set_private_read_head`, queue.c:427-473, at the commit of a transaction. -/
def setReadHead (r : Row α) (c head : Int) : Res (Row α × Int) :=
  match r.consumers c with
  | none => .ok (r, ERR_NO_CONSUMER)
  | some cs =>
    if head ≤ r.noEntries - 1 ∧ cs.readHead ≤ head ∧ cs.consumeHead ≤ head then
      .ok (⟨r.cells, r.noEntries, setC r.consumers c (some ⟨head, cs.consumeHead⟩)⟩, 0)
    else .raise .assertFail

/-- `set_private_consume_head`, queue.c:475-513. -/
def setConsumeHead (r : Row α) (c head : Int) : Res (Row α × Int) :=
  match r.consumers c with
  | none => .ok (r, ERR_NO_CONSUMER)
  | some cs =>
    if head ≤ r.noEntries - 1 ∧ head ≤ cs.readHead ∧ cs.consumeHead ≤ head then
      .ok (⟨r.cells, r.noEntries, setC r.consumers c (some ⟨cs.readHead, head⟩)⟩, 0)
    else .raise .assertFail

end Verif.Queue
