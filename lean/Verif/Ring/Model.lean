import Verif.Skiplist.Model
/-!
# Model of the consistent hashing ring (backend/hash_ring.c, backend/hashes.h)

The buckets are objects outside of the ring (`rts_descriptor`, client_api.c:642-650, `group_state`,
queue_groups.c:24-48) that the ring reaches by pointers through `get_key` and `get_live_field`. They
are an array of objects here; a pointer is the index. The lock is not modelled: each function holds it
from start to end.
-/
namespace Verif.Ring
open Verif Verif.Skiplist

/-- `hash32`, hashes.h:18-25. -/
def hash32 (x : BitVec 32) : BitVec 32 :=
  let x := (x >>> 16 ^^^ x) * 0x45d9f3b#32
  let x := (x >>> 16 ^^^ x) * 0x45d9f3b#32
  x >>> 16 ^^^ x

/-- The key of the skip list for an id: `(WORD) hash32((uint32_t) id)`, hash_ring.c:52, 72, 81, 103, 156. -/
def pos (id : BitVec 32) : Int := (hash32 id).toNat

/-- What the ring reads of a bucket: `get_key` and `get_live_field`. The key is cut to 32 bits at each use. -/
structure Obj where
  id : BitVec 32
  status : Int
  deriving DecidableEq

/-- `BUCKET_LIVE`, `BUCKET_DEAD`, hash_ring.h:27-28; `NODE_PREJOINED`, comm.h:29, is passed as a
status in actondb.c:1898. -/
def LIVE : Int := 0
def DEAD : Int := 1
def PREJOINED : Int := 2

/-- `hash_ring`, hash_ring.h:30-35, with the objects. -/
structure Ring where
  buckets : SL Int Nat
  live : Int
  objs : List Obj

/-- `get_hash_ring`, hash_ring.c:24-33. -/
def empty : Ring := ⟨Skiplist.init longMax, 0, []⟩

def isMax (k : Int) : Bool := k = longMax

/-- `*((int *) get_live_field(node->value))`. -/
def statusAt (g : Ring) (a : Nat) : Res Int :=
  match g.buckets.heap a with
  | none => .ub
  | some n => match n.val with
    | none => .ub
    | some v => match g.objs[v]? with
      | none => .ub
      | some o => .ok o.status

/-- `add_bucket`, hash_ring.c:48-68, for the object at index `b`. `live_buckets` is an `int`. -/
def addBucket (g : Ring) (b : Nat) (lvl : Nat) : Res (Ring × Int) :=
  match g.objs[b]? with
  | none => .ub
  | some o => do
    let r ← search longCmp isMax g.buckets (pos o.id)
    match r with
    | some _ => .ok (g, -1)
    | none =>
      let live := if o.status = LIVE then wrap32 (g.live + 1) else g.live
      let s ← Skiplist.insert longCmp g.buckets (pos o.id) b lvl
      .ok (⟨s, live, g.objs⟩, 0)

/-- The callers make a new object and add it: client_api.c:656-682, actondb.c:1904-1906, queue.c:858-866. -/
def addNew (g : Ring) (o : Obj) (lvl : Nat) : Res (Ring × Int) :=
  addBucket ⟨g.buckets, g.live, g.objs ++ [o]⟩ g.objs.length lvl

/-- Lines 113-121 of `set_bucket_status` for the object of the node that was found. -/
def setObj (g : Ring) (a : Nat) (st : Int) : Res (Ring × Int) :=
  match g.buckets.heap a with
  | none => .ub
  | some n => match n.val with
    | none => .ub
    | some v => match g.objs[v]? with
      | none => .ub
      | some o =>
        let live := if o.status ≠ st then
            if st = LIVE then wrap32 (g.live + 1) else wrap32 (g.live - 1)
          else g.live
        .ok (⟨g.buckets, live, g.objs.set v ⟨o.id, st⟩⟩, 0)

/-- `set_bucket_status`, hash_ring.c:98-126. `bucket` is the id itself, not the object (l. 103). -/
def setStatus (g : Ring) (id : BitVec 32) (st : Int) : Res (Ring × Int) := do
  let r ← search longCmp isMax g.buckets (pos id)
  match r with
  | none => .ok (g, -1)
  | some a => setObj g a st

/-- `get_bucket_status`, hash_ring.c:76-96, for a bucket with this key. -/
def getStatus (g : Ring) (id : BitVec 32) : Res Int := do
  let r ← search longCmp isMax g.buckets (pos id)
  match r with
  | none => .ok (-1)
  | some a => statusAt g a

/-- Lines 160-164: wrap to the beginning. -/
def orHead (g : Ring) (x : Option Nat) : Res Nat :=
  match x with
  | some a => .ok a
  | none => do
    let p ← fwd g.buckets.heap g.buckets.header 0
    match p with
    | none => .ub
    | some a => .ok a

/-- The loop of `get_buckets_for_object`, hash_ring.c:158-180. With one replica `result` is `NULL`; with
more, `result->no_items` is still 0, since the loop returns after the first insertion. -/
def getLoop (g : Ring) : Nat → Option Nat → Res (Option Nat)
  | 0, _ => .diverge
  | f + 1, x => do
    let a ← orHead g x
    let st ← statusAt g a
    if st = LIVE then
      match g.buckets.heap a with
      | none => .ub
      | some n => .ok n.val
    else do
      let y ← fwd g.buckets.heap a 0
      getLoop g f y

/-- `get_buckets_for_object`, hash_ring.c:138-185; the result is an object or `NULL`. The list `result`
(l. 168-172) is made and dropped: it is not modelled. A negative replication factor is not in the
model. The loop ends within two rounds or not at all. -/
def getBuckets (g : Ring) (oid : BitVec 32) (rf : Nat) : Res (Option Nat) :=
  let replicas : Int := if (rf : Int) < g.live then rf else g.live
  if replicas = 0 then .ok none
  else do
    let x ← searchHigher longCmp g.buckets (pos oid)
    getLoop g (2 * g.buckets.nxt + 2) x

end Verif.Ring
