import Verif.Dict.Model
/-!
# Model of base/builtin/set.c

`K` are the elements; equality of Lean values of type `K` is pointer identity, while `__eq__` and
`hash` come from the witness `HashW` (Dict/Model.lean). Simplifications, here and in every
definition below: the allocator does not fail; the witness functions are total, pure functions.
-/
namespace Verif.Set
open Verif
open Verif.Dict (HashW)

/-- The three kinds of `key` pointers in a table (set.c:21-22): `NULL`, `dummy`, an element. -/
inductive Key (K : Type)
  | null
  | dummy
  | elem (k : K)
  deriving DecidableEq, Repr

/-- set.h:2-5. -/
structure Entry (K : Type) where
  key : Key K
  hash : Int
  deriving DecidableEq, Repr

/-- set.h:7-14. The table has `mask + 1` entries, so `mask` is left out. -/
structure SetObj (K : Type) where
  num : Int
  fill : Int
  finger : Int
  table : List (Entry K)
  deriving DecidableEq, Repr

variable {K : Type}

/-- `mask + 1`. -/
def SetObj.size (s : SetObj K) : Nat := s.table.length

/-- `&table[i]`. -/
def entryAt (t : List (Entry K)) (i : Nat) : Res (Entry K) :=
  match t[i]? with
  | some e => .ok e
  | none => .ub

/-- A zeroed entry (memset, set.c:65, 212). -/
def blank : Entry K := ⟨.null, 0⟩

/-- The conversion of the `uint64_t` result of `B_hash` to the `long` parameter of the functions
below (set.c:379, 408, ...). -/
def lhash (W : HashW K) (k : K) : Int := wrap64 (W.hash k)

/-- set.c:38-39, 111-112, 150-151: `perturb >>= 5` on a signed `long` (arithmetic shift: division
rounding down), then `i = (i*5 + 1 + perturb) & mask`. The table size is a power of two not above
2^63, so the `& mask` absorbs the wrap-around of the 64-bit calculation. -/
def sstep (size : Nat) (s : Nat × Int) : Nat × Int :=
  (((s.1 * 5 + 1 + s.2 / 32) % size).toNat, s.2 / 32)

/-- set.c:29-30, 95, 101, 131, 138: `i = hash & mask`, `perturb = hash`. -/
def sstart (size : Nat) (h : Int) : Nat × Int := ((h % size).toNat, h)

/-- Bound on the number of probe steps: when it is exhausted the model says `diverge`. -/
def fuel (size : Nat) : Nat := size + 14

/-- The loop of `B_set_insert_clean` (set.c:33-40). -/
def cleanLoop (t : List (Entry K)) : Nat → Nat × Int → Res Nat
  | 0, _ => .diverge
  | f + 1, st => do
    let e ← entryAt t st.1
    match e.key with
    | .null => return st.1
    | _ => cleanLoop t f (sstep t.length st)

/-- `B_set_insert_clean` (set.c:27-44). -/
def insertClean (t : List (Entry K)) (e : Entry K) : Res (List (Entry K)) := do
  let i ← cleanLoop t (fuel t.length) (sstart t.length e.hash)
  return t.set i e

/-- Copying of the old entries (set.c:73-84). -/
def insertAll (t : List (Entry K)) : List (Entry K) → Res (List (Entry K))
  | [] => .ok t
  | e :: es => do
    let t ← insertClean t e
    insertAll t es

/-- set.c:52-55: the least `8 * 2^n` above `minsize`. `diverge` after 64 rounds. -/
def newSizeLoop (minsize : Int) : Nat → Nat → Res Nat
  | 0, _ => .diverge
  | f + 1, n => if (n : Int) ≤ minsize then newSizeLoop minsize f (n * 2) else .ok n

/-- set.c:74: `entry->key != NULL`. -/
def Entry.nonNull (e : Entry K) : Bool :=
  match e.key with
  | .null => false
  | _ => true

/-- set.c:81, 311: `entry->key != NULL && entry->key != dummy`. -/
def Entry.active (e : Entry K) : Bool :=
  match e.key with
  | .elem _ => true
  | _ => false

/-- `B_set_table_resize` (set.c:46-89). -/
def resize (s : SetObj K) (minsize : Int) : Res (SetObj K) := do
  let n ← newSizeLoop minsize 64 8
  if s.fill = s.num then
    let t ← insertAll (List.replicate n blank) (s.table.filter Entry.nonNull)
    return { s with table := t }
  else
    let t ← insertAll (List.replicate n blank) (s.table.filter Entry.active)
    return { s with table := t, fill := s.num }

/-- What a probe step sees. -/
inductive Visit
  | empty
  | hit
  | miss
  | bad
  deriving DecidableEq, Repr

/-- One probe (set.c:104-110, 141-146): an entry with the same stored hash is compared. Calling
`__eq__` on the `dummy` pointer, which is not an object, is undefined behaviour. -/
def visit (W : HashW K) [DecidableEq K] (h : Int) (key : K) (e : Entry K) : Visit :=
  match e.key with
  | .null => .empty
  | .dummy => if e.hash = h then .bad else .miss
  | .elem k => if e.hash = h ∧ (k = key ∨ W.eq k key = true) then .hit else .miss

variable [DecidableEq K]

/-- The loop of `B_set_lookkey` (set.c:97-116); the `NULL` test before the loop and the one at
its end are the one at the head here. -/
def lookLoop (W : HashW K) (t : List (Entry K)) (h : Int) (key : K) : Nat → Nat × Int → Res Nat
  | 0, _ => .diverge
  | f + 1, st => do
    let e ← entryAt t st.1
    match visit W h key e with
    | .empty => return st.1
    | .hit => return st.1
    | .bad => .ub
    | .miss => lookLoop W t h key f (sstep t.length st)

/-- `B_set_lookkey` (set.c:91-118). -/
def lookkey (W : HashW K) (s : SetObj K) (key : K) (h : Int) : Res Nat :=
  lookLoop W s.table h key (fuel s.size) (sstart s.size h)

/-- `B_set_contains_entry` (set.c:120-122). -/
def containsEntry (W : HashW K) (s : SetObj K) (key : K) (h : Int) : Res Bool := do
  let i ← lookkey W s key h
  let e ← entryAt s.table i
  return e.nonNull

/-- Where `B_set_add_entry` stops. -/
inductive Stop
  | active
  | unused (i : Nat)
  | free (i : Nat)
  deriving DecidableEq, Repr

/-- set.c:158-160. -/
def stopEmpty (free : Option Nat) (i : Nat) : Stop :=
  match free with
  | none => .unused i
  | some j => .free j

/-- set.c:147-148: `else if (entry->hash == -1) freeslot = entry`. -/
def nextFree (h : Int) (e : Entry K) (i : Nat) (free : Option Nat) : Option Nat :=
  if e.hash ≠ h ∧ e.hash = -1 then some i else free

/-- The loop of `B_set_add_entry` (set.c:133-160), tests of `NULL` merged as in `lookLoop`. -/
def addLoop (W : HashW K) (t : List (Entry K)) (h : Int) (key : K) : Nat → Nat × Int → Option Nat → Res Stop
  | 0, _, _ => .diverge
  | f + 1, st, free => do
    let e ← entryAt t st.1
    match visit W h key e with
    | .empty => return stopEmpty free st.1
    | .hit => return .active
    | .bad => .ub
    | .miss => addLoop W t h key f (sstep t.length st) (nextFree h e st.1 free)

/-- set.c:166-174: a new slot is used; the table is enlarged when three fifths are filled. The
`int` parameter of `B_set_table_resize` truncates. -/
def addUnused (s : SetObj K) (i : Nat) (key : K) (h : Int) : Res (SetObj K) :=
  let s' : SetObj K := { s with fill := s.fill + 1, num := s.num + 1, table := s.table.set i ⟨.elem key, h⟩ }
  if s'.fill * 5 < ((s.size : Int) - 1) * 3 then .ok s'
  else resize s' (wrap32 (if s'.num > 50000 then s'.num * 2 else s'.num * 4))

/-- `B_set_add_entry` (set.c:124-178). -/
def addEntry (W : HashW K) (s : SetObj K) (key : K) (h : Int) : Res (SetObj K) := do
  let r ← addLoop W s.table h key (fuel s.size) (sstart s.size h) none
  match r with
  | .active => return s
  | .free j => return { s with num := s.num + 1, table := s.table.set j ⟨.elem key, h⟩ }
  | .unused i => addUnused s i key h

/-- `B_set_discard_entry` (set.c:189-198). -/
def discardEntry (W : HashW K) (s : SetObj K) (key : K) (h : Int) : Res (Bool × SetObj K) := do
  let i ← lookkey W s key h
  let e ← entryAt s.table i
  if e.nonNull then
    return (true, { s with num := s.num - 1, table := s.table.set i ⟨.dummy, -1⟩ })
  else
    return (false, s)

/-- `B_setD___init__` with no iterable (set.c:206-212). -/
def empty : SetObj K := ⟨0, 0, 0, List.replicate 8 blank⟩

/-- `B_SetD_setD_add` (set.c:377-381). -/
def add (W : HashW K) (s : SetObj K) (k : K) : Res (SetObj K) := addEntry W s k (lhash W k)

/-- `B_SetD_setD_update` (set.c:435-454), and the loop of `B_setD___init__` (set.c:213-228): the
elements the iterator delivers are added one by one. -/
def update (W : HashW K) (s : SetObj K) : List K → Res (SetObj K)
  | [] => .ok s
  | k :: ks => do
    let s ← add W s k
    update W s ks

/-- `B_SetD_setD___contains__` (set.c:406-409). -/
def contains (W : HashW K) (s : SetObj K) (k : K) : Res Bool := containsEntry W s k (lhash W k)

/-- `B_SetD_setD_discard` (set.c:456-460). -/
def discard (W : HashW K) (s : SetObj K) (k : K) : Res (SetObj K) := do
  let r ← discardEntry W s k (lhash W k)
  return r.2

/-- `B_SetD_setD___len__` (set.c:402-404). -/
def len (s : SetObj K) : Int := s.num

/-- The search of `B_SetD_setD_pop` (set.c:468-475): `entry++`, wrapping to 0 after the last. One
round visits all entries; `diverge` after that. -/
def popLoop (t : List (Entry K)) : Nat → Nat → Res (Nat × K)
  | 0, _ => .diverge
  | f + 1, i => do
    let e ← entryAt t i
    match e.key with
    | .elem k => return (i, k)
    | _ => popLoop t f (if i + 1 < t.length then i + 1 else 0)

/-- `B_SetD_setD_pop` (set.c:462-482). -/
def pop (s : SetObj K) : Res (K × SetObj K) :=
  if s.num = 0 then .raise .valueError
  else do
    let r ← popLoop s.table (s.size + 1) (s.finger % s.size).toNat
    return (r.2, { s with num := s.num - 1, finger := (r.1 : Int) + 1, table := s.table.set r.1 ⟨.dummy, -1⟩ })

/-- What the entry iterator delivers, in order (set.c:305-319): the elements with their stored
hashes. When they are exhausted `__next__` raises `StopIteration`. -/
def entries (s : SetObj K) : List (K × Int) :=
  s.table.filterMap (fun e => match e.key with
    | .elem k => some (k, e.hash)
    | _ => none)

/-- Elements in iteration order (set.c:331-337). -/
def elems (s : SetObj K) : List K := (entries s).map Prod.fst

/-- The loops `while (n < numelements) { w = $next(iter); if (!contains) return false; }` of the
comparisons (set.c:493-500, 514-521, 531-538). -/
def allIn (W : HashW K) (s : SetObj K) : Nat → List (K × Int) → Res Bool
  | 0, _ => .ok true
  | _ + 1, [] => .raise .stopIteration
  | n + 1, e :: es => do
    if ← containsEntry W s e.1 e.2 then allIn W s n es else return false

/-- `B_OrdD_SetD_setD___eq__` (set.c:487-502). The shortcut for the same object is left out. -/
def eq (W : HashW K) (s o : SetObj K) : Res Bool :=
  if s.num ≠ o.num then .ok false else allIn W s s.num.toNat (entries o)

/-- `B_OrdD_SetD_setD___gt__` (set.c:508-523); shortcut for the same object left out. -/
def gt (W : HashW K) (s o : SetObj K) : Res Bool :=
  if s.num ≤ o.num then .ok false else allIn W s o.num.toNat (entries o)

/-- `B_OrdD_SetD_setD___ge__` (set.c:525-540); shortcut for the same object left out. -/
def ge (W : HashW K) (s o : SetObj K) : Res Bool :=
  if s.num < o.num then .ok false else allIn W s o.num.toNat (entries o)

/-- The loop of `isdisjoint` (set.c:424-429): it does not count, it goes on until `$next` delivers
a null pointer — but `$next` raises `StopIteration` instead (set.c:317, Iterator.c:19-21). -/
def disjointLoop (W : HashW K) (s : SetObj K) : List (K × Int) → Res Bool
  | [] => .raise .stopIteration
  | e :: es => do
    if ← containsEntry W s e.1 e.2 then return false else disjointLoop W s es

/-- `B_SetD_setD_isdisjoint` (set.c:415-431) for two different objects. -/
def isdisjoint (W : HashW K) (s o : SetObj K) : Res Bool :=
  if o.num > s.num then disjointLoop W o (entries s) else disjointLoop W s (entries o)

/-- Loop of `__sub__` (set.c:556-564). -/
def subLoop (W : HashW K) (r : SetObj K) : Nat → List (K × Int) → Res (SetObj K)
  | 0, _ => .ok r
  | _ + 1, [] => .raise .stopIteration
  | n + 1, e :: es => do
    let q ← discardEntry W r e.1 e.2
    subLoop W q.2 n es

/-- `B_MinusD_SetD_setD___sub__` (set.c:553-566). `B_set_copy` (set.c:181-187) copies the whole
structure: the value itself here. -/
def sub (W : HashW K) (s o : SetObj K) : Res (SetObj K) := subLoop W s o.num.toNat (entries o)

/-- Loop of `__and__` (set.c:576-585). -/
def andLoop (W : HashW K) (o r : SetObj K) : Nat → List (K × Int) → Res (SetObj K)
  | 0, _ => .ok r
  | _ + 1, [] => .raise .stopIteration
  | n + 1, e :: es => do
    if ← containsEntry W o e.1 e.2 then
      let r ← addEntry W r e.1 e.2
      andLoop W o r n es
    else andLoop W o r n es

/-- `B_LogicalD_SetD_setD___and__` (set.c:571-587). -/
def and (W : HashW K) (s o : SetObj K) : Res (SetObj K) :=
  if o.num > s.num then andLoop W s empty o.num.toNat (entries o)
  else andLoop W o empty s.num.toNat (entries s)

/-- Loop of `__or__` (set.c:594-602). -/
def orLoop (W : HashW K) (r : SetObj K) : Nat → List (K × Int) → Res (SetObj K)
  | 0, _ => .ok r
  | _ + 1, [] => .raise .stopIteration
  | n + 1, e :: es => do
    let r ← addEntry W r e.1 e.2
    orLoop W r n es

/-- `B_LogicalD_SetD_setD___or__` (set.c:589-604). -/
def or (W : HashW K) (s o : SetObj K) : Res (SetObj K) :=
  if o.num > s.num then orLoop W o s.num.toNat (entries s)
  else orLoop W s o.num.toNat (entries o)

/-- Loop of `__xor__` (set.c:609-618). -/
def xorLoop (W : HashW K) (r : SetObj K) : Nat → List (K × Int) → Res (SetObj K)
  | 0, _ => .ok r
  | _ + 1, [] => .raise .stopIteration
  | n + 1, e :: es => do
    let q ← discardEntry W r e.1 e.2
    if q.1 then xorLoop W q.2 n es
    else
      let r ← addEntry W q.2 e.1 e.2
      xorLoop W r n es

/-- `B_LogicalD_SetD_setD___xor__` (set.c:606-620). -/
def xor (W : HashW K) (s o : SetObj K) : Res (SetObj K) := xorLoop W s o.num.toNat (entries o)

end Verif.Set
