import Verif.Common
import Verif.Dict.Probe
/-!
# Model of base/builtin/dict.c

`K` are the keys; equality of Lean values of type `K` is pointer identity, while `__eq__` and
`hash` come from a witness `HashW`. `V` are values. Simplifications, here and in every
definition below:

* entry numbers stored in `tb_indices` (C `int`) do not overflow: valid below 2^31 entries;
* the allocator does not fail;
* the witness functions are total, pure functions (a key's `__eq__`/`hash` does not raise, nor
  change the dict).
-/
namespace Verif.Dict
open Verif

/-- The `B_Hashable` witness: `__eq__` and `B_hash` (a `uint64_t`). -/
structure HashW (K : Type) where
  eq : K → K → Bool
  hash : K → Nat

/-- dict.c:16-20: `value = none` stands for `DELETED`. -/
structure Entry (K V : Type) where
  hash : Nat
  key : K
  value : Option V
  deriving DecidableEq, Repr

/-- dict.c:22-29. `entries` are the initialised entries (reading any other is undefined
behaviour); there is room for `2*size/3`. -/
structure Table (K V : Type) where
  size : Nat
  usable : Int
  nentries : Int
  indices : List Int
  entries : List (Entry K V)
  deriving DecidableEq, Repr

/-- dict.h:3-7; `table = none` is the null pointer. -/
structure DictObj (K V : Type) where
  num : Int
  table : Option (Table K V)
  deriving DecidableEq, Repr

variable {K V : Type}

/-- `table->tb_indices[i]`. -/
def Table.ind (t : Table K V) (i : Nat) : Res Int :=
  match t.indices[i]? with
  | some x => .ok x
  | none => .ub

/-- `table->tb_indices[i] = v`. Slot -1 is the upper half of the preceding field `tb_nentries`
(little-endian LP64, dict.c:22-29); every other access outside the array is undefined
behaviour. -/
def Table.setInd (t : Table K V) (i : Int) (v : Int) : Res (Table K V) :=
  if i = -1 then .ok { t with nentries := wrap64 (t.nentries % 2^32 + v * 2^32) }
  else if 0 ≤ i ∧ i < t.indices.length then .ok { t with indices := t.indices.set i.toNat v }
  else .ub

/-- `TB_ENTRIES(table)[i]`. -/
def Table.entry (t : Table K V) (i : Int) : Res (Entry K V) :=
  if i < 0 then .ub else
  match t.entries[i.toNat]? with
  | some e => .ok e
  | none => .ub

/-- dict.c:56-61: the loop of `build_indices` for one entry: first `DKIX_EMPTY` slot on the
probe path. All probe loops are cut after `size + 14` rounds and then reported as `diverge`
(the properties show that this is never reached). -/
def emptyLoop (ind : List Int) (size : Nat) : Nat → Nat × Nat → Res Nat
  | 0, _ => .diverge
  | f + 1, s =>
    match ind[s.1]? with
    | none => .ub
    | some x => if x = -1 then .ok s.1 else emptyLoop ind size f (pstep size s)

/-- The hash of one entry in `build_indices`, dict.c:49-55. -/
def entryHash (W : HashW K) (oldsize : Nat) (e : Entry K V) : Nat :=
  if oldsize > 4 then e.hash else W.hash e.key

/-- dict.c:45-64: `build_indices`, from entry number `ix` on. -/
def buildIndices (W : HashW K) (oldsize size : Nat) :
    List (Entry K V) → Int → List Int → Res (List (Entry K V) × List Int)
  | [], _, ind => .ok ([], ind)
  | e :: es, ix, ind => do
    let i ← emptyLoop ind size (size + 14) (entryHash W oldsize e % size, entryHash W oldsize e)
    let r ← buildIndices W oldsize size es (ix + 1) (ind.set i ix)
    return ({ e with hash := entryHash W oldsize e } :: r.1, r.2)

/-- dict.c:75: smallest `4 * 2^j` that is not below `minsize`. -/
def grow (minsize : Int) : Nat → Nat → Res Nat
  | 0, _ => .diverge
  | f + 1, s => if (s : Int) < minsize then grow minsize f (2 * s) else .ok s

/-- dict.c:89-93: copy the first `n` entries that are not deleted. -/
def collect : List (Entry K V) → Nat → Res (List (Entry K V))
  | _, 0 => .ok []
  | [], _ + 1 => .ub
  | e :: es, n + 1 => if e.value.isNone then collect es (n + 1) else do
      let r ← collect es n
      return e :: r

/-- dict.c:83-94: the entries of the new table. -/
def newEntries (d : DictObj K V) : Res (Nat × List (Entry K V)) :=
  if d.num > 0 then
    match d.table with
    | none => .ub
    | some t =>
      if t.nentries = d.num then
        if d.num.toNat ≤ t.entries.length then .ok (t.size, t.entries.take d.num.toNat) else .ub
      else do
        let es ← collect t.entries d.num.toNat
        return (t.size, es)
  else .ok (0, [])

/-- dict.c:81, 95-96. -/
def newIndices (W : HashW K) (oldsize size : Nat) (es : List (Entry K V)) : Res (List (Entry K V) × List Int) :=
  if es ≠ [] ∧ size > 4 then buildIndices W oldsize size es 0 (List.replicate size (-1))
  else .ok (es, List.replicate size (-1))

/-- dict.c:70-105: `dictresize`. -/
def resize (W : HashW K) (d : DictObj K V) : Res (DictObj K V) := do
  let size ← grow (3 * d.num) ((3 * d.num).toNat + 1) 4
  let old ← newEntries d
  let r ← newIndices W old.1 size old.2
  return { d with table := some {
    size := size, usable := ((2 * size / 3 : Nat) : Int) - d.num, nentries := d.num,
    indices := r.2, entries := r.1 } }

/-- dict.c:110-127: `$lookdict_index`; -1 is `DKIX_EMPTY`. -/
def lookIndexLoop (t : Table K V) (index : Int) : Nat → Nat × Nat → Res Int
  | 0, _ => .diverge
  | f + 1, s => do
    let ix ← t.ind s.1
    if ix = index then .ok s.1
    else if ix = -1 then .ok (-1)
    else lookIndexLoop t index f (pstep t.size s)

/-- dict.c:110-127. -/
def lookIndex (t : Table K V) (hash : Nat) (index : Int) : Res Int :=
  lookIndexLoop t index (t.size + 14) (hash % t.size, hash)

variable [DecidableEq K]

/-- dict.c:139-150: linear search, from entry `ix` on, `n` entries left. -/
def linearLoop (W : HashW K) (t : Table K V) (key : K) : Nat → Nat → Res (Option (Nat × V))
  | 0, _ => .ok none
  | n + 1, ix => do
    let e ← t.entry ix
    match e.value with
    | some v => if e.key = key ∨ W.eq key e.key then .ok (some (ix, v)) else linearLoop W t key n (ix + 1)
    | none => linearLoop W t key n (ix + 1)

/-- dict.c:164-169: does the entry match? -/
def hashMatch (W : HashW K) (hash : Nat) (key : K) (e : Entry K V) : Option V :=
  match e.value with
  | some v => if e.key = key ∨ (e.hash = hash ∧ W.eq key e.key) then some v else none
  | none => none

/-- dict.c:152-176: search by hash. -/
def hashLoop (W : HashW K) (t : Table K V) (hash : Nat) (key : K) : Nat → Nat × Nat → Res (Option (Nat × V))
  | 0, _ => .diverge
  | f + 1, s => do
    let ix ← t.ind s.1
    if ix = -1 then .ok none
    else if ix ≥ 0 then do
      let e ← t.entry ix
      match hashMatch W hash key e with
      | some v => .ok (some (ix.toNat, v))
      | none => hashLoop W t hash key f (pstep t.size s)
    else hashLoop W t hash key f (pstep t.size s)

/-- dict.c:132-179: `$lookdict`; `none` is the result `DKIX_EMPTY`. -/
def lookdict (W : HashW K) (table : Option (Table K V)) (hash : Nat) (key : K) : Res (Option (Nat × V)) :=
  match table with
  | none => .ok none
  | some t =>
    if t.size = 4 then linearLoop W t key (wrap32 t.nentries).toNat 0
    else hashLoop W t hash key (t.size + 14) (hash % t.size, hash)

/-- dict.c:186-193: first slot on the probe path that holds no entry number. -/
def freeLoop (t : Table K V) : Nat → Nat × Nat → Res Nat
  | 0, _ => .diverge
  | f + 1, s => do
    let ix ← t.ind s.1
    if ix ≥ 0 then freeLoop t f (pstep t.size s) else .ok s.1

/-- dict.c:183-195: `find_empty_slot`. -/
def freeSlot (t : Table K V) (hash : Nat) : Res Int :=
  if t.size = 4 then .ok t.nentries
  else do
    let i ← freeLoop t (t.size + 14) (hash % t.size, hash)
    return i

/-- `TB_ENTRIES(table)[tb_nentries] = e`, dict.c:209-213; outside the allocated block is
undefined behaviour (leaving a gap cannot happen and is counted as such). -/
def Table.putEntry (t : Table K V) (e : Entry K V) : Res (Table K V) :=
  if 0 ≤ t.nentries ∧ t.nentries < (2 * t.size / 3 : Nat) ∧ t.nentries = t.entries.length then
    .ok { t with entries := t.entries ++ [e] }
  else .ub

/-- dict.c:206-218. -/
def insertNew (d : DictObj K V) (t : Table K V) (hash : Nat) (key : K) (v : V) : Res (DictObj K V) := do
  let pos ← freeSlot t hash
  let t ← t.setInd pos t.nentries
  let t ← t.putEntry ⟨hash, key, some v⟩
  return { num := d.num + 1, table := some { t with usable := t.usable - 1, nentries := t.nentries + 1 } }

/-- `TB_ENTRIES(table)[ix].value = v`. -/
def Table.setValue (t : Table K V) (ix : Nat) (v : Option V) : Table K V :=
  { t with entries := t.entries.modify ix (fun e => { e with value := v }) }

/-- dict.c:201-202. -/
def ensure (W : HashW K) (d : DictObj K V) : Res (DictObj K V) :=
  match d.table with
  | none => resize W d
  | some t => if t.usable ≤ 0 then resize W d else .ok d

/-- dict.c:203-204. -/
def insertHash (W : HashW K) (size hash : Nat) (key : K) : Nat := if size = 8 then W.hash key else hash

/-- dict.c:205-222, after `dictresize`. -/
def insertAt (W : HashW K) (d : DictObj K V) (t : Table K V) (hash : Nat) (key : K) (v : V) : Res (DictObj K V) := do
  let r ← lookdict W (some t) hash key
  match r with
  | none => insertNew d t hash key v
  | some (ix, _) => .ok { d with table := some (t.setValue ix (some v)) }

/-- dict.c:197-223: `insertdict`. -/
def insertdict (W : HashW K) (d : DictObj K V) (hash : Nat) (key : K) (v : V) : Res (DictObj K V) := do
  let d ← ensure W d
  match d.table with
  | none => .ub
  | some t => insertAt W d t (insertHash W t.size hash key) key v

/-- The hash handed to the table functions: 0 for a small table (e.g. dict.c:481-483). -/
def tableHash (W : HashW K) (table : Option (Table K V)) (key : K) : Nat :=
  match table with
  | none => 0
  | some t => if t.size > 4 then W.hash key else 0

/-- dict.c:813-819 `B_dictD_setitem`, and 773-781 `__setitem__`. -/
def setitem (W : HashW K) (d : DictObj K V) (key : K) (v : V) : Res (DictObj K V) :=
  insertdict W d (tableHash W d.table key) key v

/-- dict.c:476-485 `__contains__`. -/
def contains (W : HashW K) (d : DictObj K V) (key : K) : Res Bool :=
  if d.num = 0 then .ok false else
  match d.table with
  | none => .ub
  | some t => do
    let r ← lookdict W (some t) (tableHash W (some t) key) key
    return r.isSome

/-- dict.c:491-504 `get` (`None` is `none`), 506-519 `get_def`, 821-834 `B_dictD_get`. -/
def get (W : HashW K) (d : DictObj K V) (key : K) : Res (Option V) :=
  match d.table with
  | none => .ok none
  | some t => do
    let r ← lookdict W (some t) (tableHash W (some t) key) key
    return r.map Prod.snd

/-- dict.c:757-771 `__getitem__`. -/
def getitem (W : HashW K) (d : DictObj K V) (key : K) : Res V :=
  if d.num = 0 then .raise .keyError else
  match d.table with
  | none => .ub
  | some t => do
    let r ← lookdict W (some t) (tableHash W (some t) key) key
    match r with
    | none => .raise .keyError
    | some (_, v) => .ok v

/-- dict.c:535-543: remove entry `ix`. -/
def removeAt (W : HashW K) (d : DictObj K V) (t : Table K V) (hash ix : Nat) : Res (DictObj K V) := do
  let i ← lookIndex t hash ix
  let t ← t.setInd i (-2)
  let t := t.setValue ix none
  let d : DictObj K V := ⟨d.num - 1, some t⟩
  if 10 * d.num < t.size then resize W d else .ok d

/-- dict.c:521-545 `pop`, 547-571 `pop_def`, 783-811 `__delitem__`, 836-860 `B_dictD_pop`: all
remove the entry; they return the old value (`none` if there is none), resp. nothing. -/
def pop (W : HashW K) (d : DictObj K V) (key : K) : Res (Option V × DictObj K V) :=
  if d.num = 0 then .ok (none, d) else
  match d.table with
  | none => .ub
  | some t => do
    let r ← lookdict W (some t) (tableHash W (some t) key) key
    match r with
    | none => .ok (none, d)
    | some (ix, v) => do
      let d ← removeAt W d t (tableHash W (some t) key) ix
      return (some v, d)

/-- dict.c:724-739: the loop of `popitem`: `n` entries left, looking at entry `n-1`. -/
def lastLive (t : Table K V) : Nat → Res (Option (Nat × K × V))
  | 0 => .ok none
  | n + 1 => do
    let e ← t.entry n
    match e.value with
    | some v => .ok (some (n, e.key, v))
    | none => lastLive t n

/-- dict.c:728-732. -/
def dropIndex (W : HashW K) (t : Table K V) (ix : Nat) (k : K) : Res (Table K V) :=
  if t.size > 4 then do
    let i ← lookIndex t (W.hash k) ix
    t.setInd i (-2)
  else .ok t

/-- dict.c:718-740 `popitem`; `none` is the null pointer returned for an empty dict. The entries
from number `tb_nentries` on become uninitialised for the model. -/
def popitem (W : HashW K) (d : DictObj K V) : Res (Option (K × V) × DictObj K V) :=
  if d.num = 0 then .ok (none, d) else
  match d.table with
  | none => .ub
  | some t => do
    let r ← lastLive t (wrap32 t.nentries).toNat
    match r with
    | none => .ok (none, d)
    | some (ix, k, v) => do
      let t ← dropIndex W t ix k
      return (some (k, v), ⟨d.num - 1, some { t with nentries := ix, entries := t.entries.take ix }⟩)

/-- dict.c:742-752 `setdefault`: always calculates the hash. -/
def setdefault (W : HashW K) (d : DictObj K V) (key : K) (dflt : V) : Res (V × DictObj K V) := do
  let r ← lookdict W d.table (W.hash key) key
  match r with
  | some (_, v) => .ok (v, d)
  | none => do
    let d ← insertdict W d (W.hash key) key dflt
    return (dflt, d)

/-- dict.c:399-414, 581-597, 636-652: the iterators; the items from entry `i` on, `n` entries
left. -/
def itemsLoop (t : Table K V) : Nat → Nat → Res (List (K × V))
  | 0, _ => .ok []
  | n + 1, i => do
    let e ← t.entry i
    let r ← itemsLoop t n (i + 1)
    match e.value with
    | some v => .ok ((e.key, v) :: r)
    | none => .ok r

/-- Complete iteration over an unchanged dict (`items`; `keys` and `values` are its
projections). -/
def items (d : DictObj K V) : Res (List (K × V)) :=
  match d.table with
  | none => .ok []
  | some t => itemsLoop t (wrap32 t.nentries).toNat 0

/-- dict.c:472-474 `__len__`. -/
def len (d : DictObj K V) : Int := d.num

/-- dict.c:230-232 `__init__` without iterable. -/
def empty : DictObj K V := ⟨0, none⟩

/-- dict.c:699-716 `update`, 233-248 `__init__`: assignment of all items in order. -/
def update (W : HashW K) : DictObj K V → List (K × V) → Res (DictObj K V)
  | d, [] => .ok d
  | d, (k, v) :: l => do
    let d ← setitem W d k v
    update W d l

end Verif.Dict
