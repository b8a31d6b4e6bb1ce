import Verif.Common
/-!
# Model of object graph serialization (base/builtin/serialize.c and the
`__serialize__`/`__deserialize__` methods)

The heap is a list of objects, an address is an index into it. A *slot* is what one field,
list element, etc. of an object contains.
-/
namespace Verif.Graph
open Verif

/-- Contents of one field or element as seen by the serializer.
* `raw`  an unboxed attribute, written with `$val_serialize` (compiler/lib/src/Acton/CodeGen.hs:572)
* `none` the null pointer
* `imm`  a value whose class writes exactly one row and has no identity that a program can
  observe: float, bool, str, bytes (base/builtin/float.c:64, bool.c:42, str.c:843, 2987)
* `box`  a boxed fixed-width integer to which this is the only reference: class `c`, row
  class `d` (base/builtin/int.c:44, u64.c:45, i32.c:45; note `int` has class id 57, see
  registration.c:93, but its row has class 2)
* `ext`  an object for which the `globmap` argument yields the negative key `k`
* `range` a range object (base/builtin/range.c:112)
* `wild` a pointer that does not point to an object (the `dummy` marker of set.c:21)
* `ref`  a reference to a heap object -/
inductive Slot
  | raw (c : Int) (w : List Int)
  | none
  | imm (c : Int) (w : List Int)
  | box (c d : Int) (w : List Int)
  | ext (c k : Int)
  | range (nxt step remaining : Int)
  | wild
  | ref (a : Nat)
  deriving DecidableEq, Repr

/-- A heap object: class id, the words of its header row, and its slots in the order in
which `__serialize__` visits them. -/
structure Obj where
  cid : Int
  ws : List Int
  kids : List Slot
  deriving DecidableEq, Repr

/-- How a slot is read back: with `$val_deserialize` or `$step_deserialize`. -/
inductive SK | raw | val
  deriving DecidableEq, Repr

/-- How the methods of a class treat sharing.
* `tracked`: recorded in `state->done` when written and when read
* `boxed`: recorded when written (serialize.c:99-107), not recorded when read
  (int.c:48, i8.c, i16.c, i32.c:49, u1.c, u8.c, u16.c, u32.c, u64.c:49)
* `plain`: written as one row, never recorded
* `bad`: no method table registered (registration.c:47-105) -/
inductive Kind | tracked | boxed | plain | bad
  deriving DecidableEq, Repr

/-- Class ids from base/builtin/registration.h:14-86; ids above 14 other than the
fixed-width integers 54-62 belong to tracked classes: `$DNEW` (common.h:23-26) records. -/
def kindOf (c : Int) : Kind :=
  if c = 7 ∨ c = 8 ∨ c = 9 ∨ c = 11 then .tracked
  else if c = 2 ∨ c = 3 ∨ c = 5 ∨ c = 6 ∨ c = 12 ∨ c = 13 then .plain
  else if 54 ≤ c ∧ c ≤ 62 then .boxed
  else if c > 14 then .tracked
  else .bad

/-- The slots that `__deserialize__` of class `c` reads after the header row with words
`w`: list.c:138, tuple.c:60, dict.c:308 (hash, key, value per entry), set.c:272 (hash,
key per table slot), bigint.c:157; `user` gives the slots of all other classes in the order
generated by CodeGen.hs:576. -/
def layout (user : Int → List SK) (c : Int) (w : List Int) : List SK :=
  if c = 7 ∨ c = 11 then List.replicate (w.getD 0 0).toNat .val
  else if c = 8 then List.replicate (3 * (w.getD 3 0).toNat) .val
  else if c = 9 then List.replicate (2 * ((w.getD 2 0) + 1).toNat) .val
  else if c = 63 then [.raw]
  else user c

/-- `struct $Serial$state` during writing: rows so far, `row_no`, `done` (address ↦ row). -/
structure SerState where
  rows : List (Int × List Int)
  rowNo : Nat
  done : Nat → Option Nat

/-- `$add_header`/`$val_serialize`, base/builtin/serialize.c:77-85, 138-141. -/
def SerState.add (st : SerState) (c : Int) (w : List Int) : SerState :=
  ⟨st.rows ++ [(c, w)], st.rowNo + 1, st.done⟩

/-- `B_dictD_setitem(state->done, …, self, toB_int(state->row_no))`. -/
def SerState.mark (st : SerState) (a : Nat) : SerState :=
  ⟨st.rows, st.rowNo, fun b => if b = a then some st.rowNo else st.done b⟩

/-- `$step_serialize` (serialize.c:87-117) applied to the slots of an object one after the
other, with the `__serialize__` methods of all classes inlined. `glob` says whether a
`globmap` is supplied; actors occur as `ext` slots. `f` bounds the recursion (the depth of
the C stack is not modelled; `C16_terminates` shows that a large enough `f` exists). -/
def ser (h : List Obj) (glob : Bool) : Nat → List Slot → SerState → Res SerState
  | 0, _, _ => .diverge
  | _ + 1, [], st => .ok st
  | f + 1, s :: ss, st =>
    match s with
    | .raw c w => ser h glob f ss (st.add c w)
    | .none => ser h glob f ss (st.add 0 [])
    | .imm c w => ser h glob f ss (st.add c w)
    | .box c d w => ser h glob f ss ((st.add c []).add d w)
    | .ext c k => if glob then ser h glob f ss (st.add (-c) [k]) else .raise .valueError
    | .range x y z => ser h glob f
        (.box 57 2 [x] :: .box 57 2 [y] :: .box 57 2 [z] :: ss) st
    | .wild => .ub
    | .ref a =>
      match h[a]? with
      | .none => .ub
      | some o =>
        match kindOf o.cid with
        | .bad => .raise .valueError
        | .plain => ser h glob f ss (st.add o.cid o.ws)
        | _ =>
          match st.done a with
          | some k => ser h glob f ss (st.add (-o.cid) [(k : Int)])
          | .none => do
            let st1 ← ser h glob f o.kids ((st.mark a).add o.cid o.ws)
            ser h glob f ss st1

/-- `$serialize`, base/builtin/serialize.c:193-202. -/
def serialize (h : List Obj) (glob : Bool) (f : Nat) (v : Slot) : Res (List (Int × List Int)) := do
  let st ← ser h glob f [v] ⟨[], 0, fun _ => none⟩
  return st.rows

/-- `struct $Serial$state` during reading: remaining rows, `row_no`, `done` (row ↦ address)
and the objects allocated so far. -/
structure DesState where
  rows : List (Int × List Int)
  rowNo : Nat
  done : Int → Option Nat
  heap : List Obj

/-- Look up a previously read object; a missing entry yields the null pointer
(`B_dictD_get(…,NULL)`). -/
def DesState.prev (st : DesState) (key : Int) : Slot :=
  match st.done key with
  | some n => .ref n
  | .none => .none

/-- Result of looking at one row for a slot of kind `k` (`step` below). -/
inductive Look
  | value (v : Slot) (st : DesState)
  | fresh (c : Int) (w : List Int) (st : DesState)

/-- `$step_deserialize` / `$val_deserialize` up to the point where a new object with slots
has to be filled in: serialize.c:119-134, 143-149; list.c:138-147 and alike. The end of the
row list is a null pointer that is dereferenced. -/
def look (glob : Bool) (k : SK) (st : DesState) : Res Look :=
  match st.rows with
  | [] => .ub
  | (c, w) :: rs =>
    let st1 : DesState := ⟨rs, st.rowNo + 1, st.done, st.heap⟩
    match k with
    | .raw => .ok (.value (.raw c w) st1)
    | .val =>
      if c.natAbs > 14 then
        if c < 0 then
          match w with
          | [] => .ub
          | key :: _ =>
            if key < 0 then (if glob then .ok (.value (.ext (-c) key) st1) else .ub)
            else .ok (.value (st1.prev key) st1)
        else match kindOf c with
          | .boxed =>
            match rs with
            | [] => .ub
            | (d, v) :: rs' => .ok (.value (.box c d v) ⟨rs', st.rowNo + 2, st.done, st.heap⟩)
          | _ => .ok (.fresh c w st1)
      else if c = 0 then .ok (.value .none st1)
      else match kindOf c.natAbs with
        | .plain => .ok (.value (.imm c w) st1)
        | .tracked =>
          if c < 0 then
            match w with
            | [] => .ub
            | key :: _ => .ok (.value (st1.prev key) st1)
          else .ok (.fresh c w st1)
        | _ => .ub

/-- Allocate an object for the header row just consumed and record it under its row number
(`$DNEW`, common.h:23-26; list.c:147; tuple.c:69; dict.c:318; set.c:282; bigint.c:160). -/
def DesState.alloc (st : DesState) (c : Int) (w : List Int) : DesState :=
  ⟨st.rows, st.rowNo, fun k => if k = (st.rowNo : Int) - 1 then some st.heap.length else st.done k,
   st.heap ++ [⟨c, w, []⟩]⟩

/-- Store the slots of object `n`. The C code stores them one at a time while reading;
nothing can look at the object in between. -/
def DesState.fill (st : DesState) (n : Nat) (kids : List Slot) : DesState :=
  match st.heap[n]? with
  | some o => ⟨st.rows, st.rowNo, st.done, st.heap.set n ⟨o.cid, o.ws, kids⟩⟩
  | none => st

/-- Reading a sequence of slots. -/
def des (user : Int → List SK) (glob : Bool) : Nat → List SK → DesState → Res (List Slot × DesState)
  | 0, _, _ => .diverge
  | _ + 1, [], st => .ok ([], st)
  | f + 1, k :: ks, st => do
    match ← look glob k st with
    | .value v st1 =>
      let (vs, st2) ← des user glob f ks st1
      return (v :: vs, st2)
    | .fresh c w st1 =>
      let n := st1.heap.length
      let (kids, st2) ← des user glob f (layout user c w) (st1.alloc c w)
      let st3 := st2.fill n kids
      let (vs, st4) ← des user glob f ks st3
      return (.ref n :: vs, st4)

/-- `$deserialize`, base/builtin/serialize.c:220-228: the root value and the heap of new objects. -/
def deserialize (user : Int → List SK) (glob : Bool) (f : Nat) (rows : List (Int × List Int)) :
    Res (List Slot × List Obj) := do
  let (vs, st) ← des user glob f [.val] ⟨rows, 0, fun _ => none, []⟩
  return (vs, st.heap)

end Verif.Graph
