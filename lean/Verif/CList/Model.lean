import Verif.Slice.Model
/-!
# Model of the list type (base/builtin/list.c)

A list object is a heap buffer plus a length. Every access goes through
`rd`/`wr`/`memmove`, which yield `ub` outside of the buffer.
-/
namespace Verif.CList
open Verif

/-- `struct B_list` (base/builtin/list.h): `buf` is the allocated array `data`
(its length is `capacity`), `none` marks a cell without a valid element (NULL or
uninitialised). A null `data` pointer is the empty buffer. -/
structure CList (α : Type) where
  buf : List (Option α)
  len : Nat
  deriving DecidableEq, Repr

abbrev CList.cap (c : CList α) : Nat := c.buf.length

/-- Read of `data[i]`. -/
def rd (b : List (Option α)) (i : Int) : Res α :=
  if i < 0 then .ub else match b[i.toNat]? with
    | some (some a) => .ok a
    | _ => .ub

/-- Write `data[i] = v`. -/
def wr (b : List (Option α)) (i : Int) (v : Option α) : Res (List (Option α)) :=
  if 0 ≤ i ∧ i < b.length then .ok (b.set i.toNat v) else .ub

/-- `memmove(data+dst, data+src, n * sizeof($WORD))` within one buffer. A negative
count is converted to a huge `size_t`. -/
def memmove (b : List (Option α)) (dst src n : Int) : Res (List (Option α)) :=
  if n = 0 then .ok b
  else if 0 < n ∧ 0 ≤ dst ∧ dst + n ≤ b.length ∧ 0 ≤ src ∧ src + n ≤ b.length then
    .ok (b.take dst.toNat ++ (b.drop src.toNat).take n.toNat ++ b.drop (dst + n).toNat)
  else .ub

/-- The doubling loop of `expand`, base/builtin/list.c:22-23, in C `int`
arithmetic: leaving the range of `int` is undefined. -/
def growLoop (need cap : Nat) : Res Nat :=
  if _h : cap < need then
    if _h0 : cap = 0 ∨ 2 * cap ≥ 2^31 then .ub else growLoop need (2 * cap)
  else .ok cap
termination_by need - cap

/-- `expand`, base/builtin/list.c:18-32. New cells are uninitialised. The C
computation of `length + n` in `int` must not overflow. -/
def expand (c : CList α) (n : Nat) : Res (CList α) :=
  if c.len + n ≥ 2^31 then .ub
  else if c.cap ≥ c.len + n then .ok c
  else do
    let nc ← growLoop (c.len + n) (if c.cap = 0 then 1 else c.cap)
    return { c with buf := c.buf ++ List.replicate (nc - c.cap) none }

/-- `shrink`, base/builtin/list.c:34-43. -/
def shrink (c : CList α) : CList α :=
  if c.cap > 20 ∧ 2 * c.len < c.cap then { c with buf := c.buf.take c.len } else c

/-- The empty list, `B_listD___init__` base/builtin/list.c:75-81 (no iterable) and
`B_listD_new(0)`. -/
def empty : CList α := ⟨[], 0⟩

/-- Result of a method: an exception, or an optional value (`none` for `None`). -/
abbrev Out (α : Type) := Except Exn (Option (List α))

/-- `B_SequenceD_listD_append`, base/builtin/list.c:547-551. -/
def append (c : CList α) (a : α) : Res (CList α) := do
  let c ← expand c 1
  let b ← wr c.buf c.len (some a)
  return ⟨b, c.len + 1⟩

/-- `B_SequenceD_listD_insert`, base/builtin/list.c:535-545. -/
def insert (c : CList α) (n : Int) (a : α) : Res (CList α) := do
  let len : Int := c.len
  let c ← expand c 1
  let ix0 : Int := if n < 0 then (if len + n < 0 then 0 else len + n) else (if n < len then n else len)
  let b ← memmove c.buf (ix0 + 1) ix0 (len - ix0)
  let b ← wr b ix0 (some a)
  return ⟨b, c.len + 1⟩

/-- The tail of `pop`/`__delitem__`: close the gap, clear the last cell, shrink
(base/builtin/list.c:192-197 and 424-429). -/
def removeAt (c : CList α) (ix0 : Int) : Res (CList α) := do
  let b ← memmove c.buf ix0 (ix0 + 1) (c.len - (ix0 + 1))
  let b ← wr b (c.len - 1) none
  return shrink ⟨b, c.len - 1⟩

/-- `B_listD_pop`, base/builtin/list.c:180-199 (`long` index, not truncated). -/
def pop (c : CList α) (i : Option Int) : Res (CList α × Out α) :=
  let ix : Int := i.getD (c.len - 1)
  let ix0 := if ix < 0 then c.len + ix else ix
  if ix0 < 0 ∨ ix0 ≥ c.len then .ok (c, .error .indexError)
  else do
    let r ← rd c.buf ix0
    let c ← removeAt c ix0
    return (c, .ok (some [r]))

/-- `$listD_U__getitem__`, base/builtin/list.c:392-400: the 64-bit index is
converted to `int` first. -/
def getitem (c : CList α) (n : Int) : Res (CList α × Out α) :=
  let ix := wrap32 n
  let ix0 := if ix < 0 then c.len + ix else ix
  if ix0 < 0 ∨ ix0 ≥ c.len then .ok (c, .error .indexError)
  else do
    let r ← rd c.buf ix0
    return (c, .ok (some [r]))

/-- `B_SequenceD_listD___setitem__`, base/builtin/list.c:406-415. -/
def setitem (c : CList α) (n : Int) (a : α) : Res (CList α × Out α) :=
  let ix := wrap32 n
  let ix0 := if ix < 0 then c.len + ix else ix
  if ix0 < 0 ∨ ix0 ≥ c.len then .ok (c, .error .indexError)
  else do
    let b ← wr c.buf ix0 (some a)
    return ({ c with buf := b }, .ok none)

/-- `B_SequenceD_listD___delitem__`, base/builtin/list.c:417-431: out of range is
silently ignored. -/
def delitem (c : CList α) (n : Int) : Res (CList α × Out α) :=
  let ix := wrap32 n
  let ix0 := if ix < 0 then c.len + ix else ix
  if ix0 < 0 ∨ ix0 ≥ c.len then .ok (c, .ok none)
  else do
    let c ← removeAt c ix0
    return (c, .ok none)

/-- `B_listD_extend`, base/builtin/list.c:171-178, for an argument list whose
elements are `o` (a well-formed list object). -/
def extend (c : CList α) (o : List α) : Res (CList α) :=
  if o.length = 0 then .ok c
  else do
    let c ← expand c o.length
    if c.len + o.length ≤ c.cap then
      return ⟨c.buf.take c.len ++ o.map some ++ c.buf.drop (c.len + o.length), c.len + o.length⟩
    else .ub

/-- `B_listD_clear`, base/builtin/list.c:164-169. -/
def clear (_ : CList α) : CList α := ⟨[], 0⟩

/-- Swap loop of `reverse`, base/builtin/list.c:521-525; `i` counts up to `len/2`. -/
def revLoop (len : Nat) (b : List (Option α)) (i : Nat) : Res (List (Option α)) :=
  if i < len / 2 then do
    let tmp ← rd b i
    let y ← rd b (len - 1 - i : Int)
    let b ← wr b i (some y)
    let b ← wr b (len - 1 - i : Int) (some tmp)
    revLoop len b (i + 1)
  else .ok b
termination_by len / 2 - i

/-- `B_SequenceD_listD_reverse`, base/builtin/list.c:519-527. -/
def reverse (c : CList α) : Res (CList α) := do
  let b ← revLoop c.len c.buf 0
  return { c with buf := b }

/-- The copying loop of `__getslice__` on the buffer, base/builtin/list.c:443-447. -/
def sliceLoop (b : List (Option α)) (step : Int) : Int → Nat → Res (List α)
  | _, 0 => .ok []
  | t, n + 1 => do
    let a ← rd b t
    let r ← sliceLoop b step (t + step) n
    return a :: r

/-- `B_SequenceD_listD___getslice__`, base/builtin/list.c:436-449; delivers the
elements of the new list. -/
def getslice (c : CList α) (s : Slice.Slc) : Res (CList α × Out α) :=
  match Slice.normalizeSlice s c.len with
  | .raise e => .ok (c, .error e)
  | .ok n => do
    let r ← sliceLoop c.buf n.step n.start n.slen.toNat
    return (c, .ok (some r))
  | .ub => .ub
  | .diverge => .diverge

/-- Element-wise stores `data[t] = other[i]; t += step`, base/builtin/list.c:476-480. -/
def storeLoop (step : Int) : List (Option α) → Int → List α → Res (List (Option α))
  | b, _, [] => .ok b
  | b, t, a :: as => do
    let b ← wr b t (some a)
    storeLoop step b (t + step) as

/-- `B_SequenceD_listD___setslice__`, base/builtin/list.c:451-502, where `o` are the
elements produced by the iterable (collected first, lines 453-468). -/
def setslice (c : CList α) (s : Slice.Slc) (o : List α) : Res (CList α × Out α) :=
  match Slice.normalizeSlice s c.len with
  | .raise e => .ok (c, .error e)
  | .ub => .ub
  | .diverge => .diverge
  | .ok n =>
    let len : Int := c.len
    let olen : Int := o.length
    if n.step ≠ 1 ∧ olen ≠ n.slen then .ok (c, .error .valueError)
    else do
      let copy := if olen ≤ n.slen then olen else n.slen
      let b ← storeLoop n.step c.buf n.start (o.take copy.toNat)
      if olen = n.slen then return ({ c with buf := b }, .ok none)
      else if olen < n.slen then do
        let b ← memmove b (n.start + copy) (n.start + n.slen) (len - (n.start + n.slen))
        return (⟨b, (len - (n.slen - olen)).toNat⟩, .ok none)
      else do
        let c ← expand { c with buf := b } (olen - n.slen).toNat
        let rest := len - (n.start + copy)
        let incr := olen - n.slen
        let b ← memmove c.buf (n.start + copy + incr) (n.start + copy) rest
        let b ← storeLoop 1 b (n.start + copy) (o.drop copy.toNat)
        return (⟨b, (len + incr).toNat⟩, .ok none)

/-- Gap-closing loop of `__delslice__`, base/builtin/list.c:510-513; `i` is the
loop counter, `k` the number of remaining iterations. -/
def delLoop (step : Int) : List (Option α) → Int → Int → Nat → Res (List (Option α) × Int)
  | b, p, _, 0 => .ok (b, p)
  | b, p, i, k + 1 => do
    let b ← memmove b p (p + i + 1) (step - 1)
    delLoop step b (p + (step - 1)) (i + 1) k

/-- `B_SequenceD_listD___delslice__`, base/builtin/list.c:504-517. -/
def delslice (c : CList α) (s : Slice.Slc) : Res (CList α × Out α) :=
  match Slice.normalizeSlice s c.len with
  | .raise e => .ok (c, .error e)
  | .ub => .ub
  | .diverge => .diverge
  | .ok n =>
    if n.slen = 0 then .ok (c, .ok none)
    else do
      let (b, p) ← delLoop n.step c.buf n.start 0 (n.slen - 1).toNat
      let b ← memmove b p (p + n.slen) (c.len - 1 - (n.start + n.step * (n.slen - 1)))
      return (⟨b, (c.len - n.slen).toNat⟩, .ok none)

/-- The mutating and reading methods of a list object. -/
inductive Op (α : Type)
  | append (a : α)
  | insert (n : Int) (a : α)
  | pop (i : Option Int)
  | getitem (n : Int)
  | setitem (n : Int) (a : α)
  | delitem (n : Int)
  | extend (o : List α)
  | clear
  | reverse
  | getslice (s : Slice.Slc)
  | setslice (s : Slice.Slc) (o : List α)
  | delslice (s : Slice.Slc)

/-- Method dispatch. -/
def step (c : CList α) : Op α → Res (CList α × Out α)
  | .append a => do let c ← append c a; return (c, .ok none)
  | .insert n a => do let c ← insert c n a; return (c, .ok none)
  | .pop i => pop c i
  | .getitem n => getitem c n
  | .setitem n a => setitem c n a
  | .delitem n => delitem c n
  | .extend o => do let c ← extend c o; return (c, .ok none)
  | .clear => .ok (clear c, .ok none)
  | .reverse => do let c ← reverse c; return (c, .ok none)
  | .getslice s => getslice c s
  | .setslice s o => setslice c s o
  | .delslice s => delslice c s

/-- A history of method calls, collecting all results. -/
def run (c : CList α) : List (Op α) → Res (CList α × List (Out α))
  | [] => .ok (c, [])
  | op :: ops => do
    let (c, o) ← step c op
    let (c, os) ← run c ops
    return (c, o :: os)

end Verif.CList
