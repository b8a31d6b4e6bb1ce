import Verif.Common
import Mathlib.Data.Nat.Log
/-!
# Model of base/builtin/timsort.c

The array `dst` is a list; a read or write outside of it is undefined behaviour (`ub`). `size_t`
numbers are natural numbers: none of the subtractions below can go under zero, as the comments at
the definitions say. The comparison is a pure, total function of two elements.
-/
namespace Verif.Sort
open Verif

variable {α : Type}

/-- `dst[i]` read. -/
def rd (d : List α) (i : Nat) : Res α :=
  match d[i]? with
  | some x => .ok x
  | none => .ub

/-- `dst[i] = x`. -/
def wr (d : List α) (i : Nat) (x : α) : Res (List α) :=
  if i < d.length then .ok (d.set i x) else .ub

/-- The `B_Ord` witness: `__lt__` and `__eq__`. -/
structure OrdW (α : Type) where
  lt : α → α → Bool
  eq : α → α → Bool

/-- `SORT_CMP` (timsort.c:63). -/
def cmp (w : OrdW α) (x y : α) : Int := if w.lt x y then -1 else if w.eq x y then 0 else 1

/-- The loop of `BINARY_INSERTION_FIND` (timsort.c:205-223); `c` is recalculated at the end of the
C loop, here at the call. Elements are at `base +`. `l ≤ c ≤ r` always. -/
def findLoop (w : OrdW α) (d : List α) (base : Nat) (x : α) : Nat → Nat → Nat → Nat → Res Nat
  | 0, _, _, _ => .diverge
  | f + 1, l, c, r => do
    let cx ← rd d (base + c)
    if cmp w x cx < 0 then
      if c - l ≤ 1 then return c
      else findLoop w d base x f l (l + (c - l) / 2) c
    else
      if r - c ≤ 1 then return c + 1
      else findLoop w d base x f c (c + (r - c) / 2) r

/-- `BINARY_INSERTION_FIND` (timsort.c:188-224), with `dst = &d[base]`; `size` is at least 1. -/
def find (w : OrdW α) (d : List α) (base : Nat) (x : α) (size : Nat) : Res Nat := do
  let r := size - 1
  let d0 ← rd d base
  if cmp w x d0 < 0 then return 0
  else
    let dr ← rd d (base + r)
    if cmp w x dr > 0 then return r
    else findLoop w d base x (size + 1) 0 (r / 2) r

/-- timsort.c:243-249: `for (j = i-1; j >= location; j--) { dst[j+1] = dst[j]; if (j == 0) break; }`. -/
def shiftLoop (d : List α) (base loc : Nat) : Nat → Res (List α)
  | 0 =>
    if 0 ≥ loc then do
      let y ← rd d base
      wr d (base + 1) y
    else .ok d
  | j + 1 =>
    if j + 1 ≥ loc then do
      let y ← rd d (base + (j + 1))
      let d ← wr d (base + (j + 1) + 1) y
      shiftLoop d base loc j
    else .ok d

/-- Body of the loop of `BINARY_INSERTION_SORT_START` (timsort.c:236-251); `i ≥ 1`. -/
def insertOne (w : OrdW α) (d : List α) (base i : Nat) : Res (List α) := do
  let p ← rd d (base + (i - 1))
  let x ← rd d (base + i)
  if cmp w p x ≤ 0 then return d
  else
    let loc ← find w d base x i
    let d ← shiftLoop d base loc (i - 1)
    wr d (base + loc) x

/-- `BINARY_INSERTION_SORT_START` (timsort.c:227-253) with `dst = &d[base]`: `n` more elements
from index `i` on. -/
def insertLoop (w : OrdW α) (base : Nat) : Nat → Nat → List α → Res (List α)
  | 0, _, d => .ok d
  | n + 1, i, d => do
    let d ← insertOne w d base i
    insertLoop w base n (i + 1) d

/-- `BINARY_INSERTION_SORT` (timsort.c:256-263). -/
def binSort (w : OrdW α) (d : List α) (size : Nat) : Res (List α) :=
  if size ≤ 1 then .ok d else insertLoop w 0 (size - 1) 1 d

/-- `SORT_SWAP` (timsort.c:70). -/
def swap (d : List α) (i j : Nat) : Res (List α) := do
  let t ← rd d i
  let y ← rd d j
  let d ← wr d i y
  wr d j t

/-- `REVERSE_ELEMENTS` (timsort.c:267-277); at most `f` swaps. -/
def reverseLoop (d : List α) : Nat → Nat → Nat → Res (List α)
  | 0, _, _ => .diverge
  | f + 1, s, e =>
    if s ≥ e then .ok d
    else do
      let d ← swap d s e
      reverseLoop d f (s + 1) (e - 1)

/-- timsort.c:298-308: increasing run. -/
def incLoop (w : OrdW α) (d : List α) (size : Nat) : Nat → Nat → Res Nat
  | 0, _ => .diverge
  | f + 1, curr =>
    if curr = size - 1 then .ok curr
    else do
      let a ← rd d (curr - 1)
      let b ← rd d curr
      if cmp w a b > 0 then return curr else incLoop w d size f (curr + 1)

/-- timsort.c:313-323: decreasing run. -/
def decLoop (w : OrdW α) (d : List α) (size : Nat) : Nat → Nat → Res Nat
  | 0, _ => .diverge
  | f + 1, curr =>
    if curr = size - 1 then .ok curr
    else do
      let a ← rd d (curr - 1)
      let b ← rd d curr
      if cmp w a b ≤ 0 then return curr else decLoop w d size f (curr + 1)

/-- `COUNT_RUN` (timsort.c:279-329); `start < size`, `2 ≤ size`. Returns the length of the run. -/
def countRun (w : OrdW α) (d : List α) (start size : Nat) : Res (Nat × List α) := do
  if size - start = 1 then return (1, d)
  else if start ≥ size - 2 then
    let a ← rd d (size - 2)
    let b ← rd d (size - 1)
    if cmp w a b > 0 then
      let d ← swap d (size - 2) (size - 1)
      return (2, d)
    else return (2, d)
  else
    let a ← rd d start
    let b ← rd d (start + 1)
    if cmp w a b ≤ 0 then
      let curr ← incLoop w d size size (start + 2)
      return (curr - start, d)
    else
      let curr ← decLoop w d size size (start + 2)
      let d ← reverseLoop d size start (curr - 1)
      return (curr - start, d)

/-- timsort.c:177-180. -/
structure Run where
  start : Nat
  length : Nat
  deriving DecidableEq, Repr

/-- `memcpy(storage, &dst[s], n * sizeof(SORT_TYPE))` (timsort.c:392, 411). The storage has room
for `n` elements (timsort.c:365-378, 387); the allocation does not fail. -/
def copy (d : List α) (s n : Nat) : Res (List α) :=
  if s + n ≤ d.length then .ok ((d.drop s).take n) else .ub

/-- The loop of the left merge (timsort.c:396-408): `n` rounds to go, `stop = curr + A + B`. -/
def mergeLeft (w : OrdW α) (store : List α) (A stop : Nat) : Nat → Nat → Nat → Nat → List α → Res (List α)
  | 0, _, _, _, d => .ok d
  | n + 1, i, j, k, d =>
    if i < A ∧ j < stop then do
      let a ← rd store i
      let b ← rd d j
      if cmp w a b ≤ 0 then
        let d ← wr d k a
        mergeLeft w store A stop n (i + 1) j (k + 1) d
      else
        let d ← wr d k b
        mergeLeft w store A stop n i (j + 1) (k + 1) d
    else if i < A then do
      let a ← rd store i
      let d ← wr d k a
      mergeLeft w store A stop n (i + 1) j (k + 1) d
    else .ok d

/-- The loop of the right merge (timsort.c:416-429): `n = k - curr` rounds to go. -/
def mergeRight (w : OrdW α) (store : List α) (curr : Nat) : Nat → Nat → Nat → List α → Res (List α)
  | 0, _, _, d => .ok d
  | n + 1, i, j, d =>
    if i > 0 ∧ j > curr then do
      let a ← rd d (j - 1)
      let b ← rd store (i - 1)
      if cmp w a b > 0 then
        let d ← wr d (curr + n) a
        mergeRight w store curr n i (j - 1) d
      else
        let d ← wr d (curr + n) b
        mergeRight w store curr n (i - 1) j d
    else if i > 0 then do
      let b ← rd store (i - 1)
      let d ← wr d (curr + n) b
      mergeRight w store curr n (i - 1) j d
    else .ok d

/-- `TIM_SORT_MERGE` (timsort.c:380-431) of the runs `a` and `b`, the entries `stack_curr - 2` and
`stack_curr - 1` of the stack. -/
def merge (w : OrdW α) (d : List α) (a b : Run) : Res (List α) := do
  let A := a.length
  let B := b.length
  let curr := a.start
  if A < B then
    let store ← copy d curr A
    mergeLeft w store A (curr + A + B) (A + B) 0 (curr + A) curr d
  else
    let store ← copy d (curr + A) B
    mergeRight w store curr (A + B) B (curr + A) d

/-- The joined run: `stack[..].length += stack[..].length` keeps the start. -/
def Run.join (a b : Run) : Run := ⟨a.start, a.length + b.length⟩

/-- `CHECK_INVARIANT` (timsort.c:331-358). The stack is a list, top first; `stack_curr` is its
length. Entries above `stack_curr` are never read. -/
def checkInv : List Run → Bool
  | C :: B :: A :: _ => !(A.length ≤ B.length + C.length || B.length ≤ C.length)
  | [B, A] => !(A.length ≤ B.length)
  | _ => true

/-- timsort.c:465-470: `ABC`. -/
def abc (B C : Run) : List Run → Bool
  | A :: _ => A.length ≤ B.length + C.length
  | [] => false

/-- `TIM_SORT_COLLAPSE` (timsort.c:433-495); every round takes one run from the stack. -/
def collapse (w : OrdW α) (size : Nat) : Nat → List α → List Run → Res (List α × List Run)
  | 0, _, _ => .diverge
  | f + 1, d, st =>
    match st with
    | [] => .ok (d, [])
    | [A] => .ok (d, [A])
    | [B, A] =>
      if A.length + B.length = size then do
        let d ← merge w d A B
        return (d, [A.join B])
      else if A.length ≤ B.length then do
        let d ← merge w d A B
        return (d, [A.join B])
      else .ok (d, [B, A])
    | D :: C :: B :: rest =>
      if !(B.length ≤ C.length + D.length || abc B C rest) && !(C.length ≤ D.length : Bool) then .ok (d, D :: C :: B :: rest)
      else if (B.length ≤ C.length + D.length || abc B C rest) && !(C.length ≤ D.length : Bool) then do
        let d ← merge w d B C
        collapse w size f d (D :: B.join C :: rest)
      else do
        let d ← merge w d C D
        collapse w size f d (C.join D :: B :: rest)

/-- timsort.c:524-528: the final merges. -/
def finish (w : OrdW α) : Nat → List α → List Run → Res (List α × List Run)
  | 0, _, _ => .diverge
  | f + 1, d, st =>
    match st with
    | B :: A :: rest => do
      let d ← merge w d A B
      finish w f d (A.join B :: rest)
    | _ => .ok (d, st)

/-- `TIM_SORT_STACK_SIZE` (timsort.c:67). -/
def stackSize : Nat := 128

/-- timsort.c:517-519: writing outside `run_stack` is undefined behaviour. -/
def push (st : List Run) (r : Run) : Res (List Run) :=
  if st.length < stackSize then .ok (r :: st) else .ub

/-- The variables of `TIM_SORT`; `done` when `PUSH_NEXT` has returned 0. -/
structure State (α : Type) where
  d : List α
  stack : List Run
  curr : Nat
  done : Bool

/-- timsort.c:506-515: short runs are extended. -/
def extend (w : OrdW α) (size minrun curr len : Nat) (d : List α) : Res (Nat × List α) :=
  let run := if minrun > size - curr then size - curr else minrun
  if run > len then do
    let d ← insertLoop w curr (run - len) len d
    return (run, d)
  else .ok (len, d)

/-- `PUSH_NEXT` (timsort.c:497-539). -/
def pushNext (w : OrdW α) (size minrun : Nat) (s : State α) : Res (State α) := do
  let (len, d) ← countRun w s.d s.curr size
  let (len, d) ← extend w size minrun s.curr len d
  let st ← push s.stack ⟨s.curr, len⟩
  if s.curr + len = size then
    let (d, st) ← finish w (st.length + 1) d st
    return ⟨d, st, s.curr + len, true⟩
  else return ⟨d, st, s.curr + len, false⟩

/-- `compute_minrun` (timsort.c:140-151). `64 - CLZ(size)` is the number of binary digits. -/
def minrun (size : Nat) : Nat :=
  let top := Nat.log2 size + 1
  let shift := max top 6 - 6
  if size % 2 ^ shift ≠ 0 then size / 2 ^ shift + 1 else size / 2 ^ shift

/-- The main loop (timsort.c:577-586). -/
def mainLoop (w : OrdW α) (size mr : Nat) : Nat → State α → Res (List α)
  | 0, _ => .diverge
  | f + 1, s =>
    if checkInv s.stack = false then do
      let (d, st) ← collapse w size (s.stack.length + 1) s.d s.stack
      mainLoop w size mr f { s with d := d, stack := st }
    else do
      let s ← pushNext w size mr s
      if s.done then return s.d else mainLoop w size mr f s

/-- The first three calls of `PUSH_NEXT` (timsort.c:565-575), then the main loop. -/
def start (w : OrdW α) (size mr : Nat) : Nat → State α → Res (List α)
  | 0, s => mainLoop w size mr (2 * size + 4) s
  | n + 1, s => do
    let s ← pushNext w size mr s
    if s.done then return s.d else start w size mr n s

/-- `TIM_SORT` (timsort.c:541-587), as called by `sorted` (builtin_functions.c:334-339) on a fresh
copy of the elements. -/
def timSort (w : OrdW α) (d : List α) : Res (List α) :=
  let size := d.length
  if size ≤ 1 then .ok d
  else if size < 64 then binSort w d size
  else start w size (minrun size) 3 ⟨d, [], 0, false⟩

end Verif.Sort
