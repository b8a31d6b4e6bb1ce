import Verif.Common
/-!
# Model of base/src/diff.act

Lines are elements of any type with decidable equality (`str.__eq__` is an equality on strings without
NUL, `Verif.Str` C36). The numbers are natural numbers: all are bounded by the lengths of the lists.
`e[a:b]` is a slice with step one (`Verif.Slice` C01). Appending to a list and concatenation are those
of `List`; a `for` loop that appends is a recursion on what it runs over.
-/
namespace Verif.Diff
open Verif

/-- `Op` and its subclasses, diff.act:209-271. -/
inductive Op (α : Type)
  | keep (content : α) (old new : Nat)
  | del (content : α) (old : Nat)
  | ins (content : α) (new : Nat)
  | gap
  deriving DecidableEq, Repr

variable {α : Type} [DecidableEq α]

/-- `for n in range(0, len(f)): result.append(Insert(f[n], j + n))`, diff.act:38-39. -/
def insFrom (j : Nat) : List α → List (Op α)
  | [] => []
  | x :: xs => .ins x j :: insFrom (j + 1) xs

/-- `for n in range(0, len(e)): result.append(Delete(e[n], i + n))`, diff.act:45-46. -/
def delFrom (i : Nat) : List α → List (Op α)
  | [] => []
  | x :: xs => .del x i :: delFrom (i + 1) xs

/-- Keep operations for the lines of a common segment, diff.act:56-57, 66-69 and 122-123. -/
def keepFrom (i j : Nat) : List α → List (Op α)
  | [] => []
  | x :: xs => .keep x i j :: keepFrom (i + 1) (j + 1) xs

/-- `e[a:b]`. -/
def slice (e : List α) (a b : Nat) : List α := (e.take b).drop a

/-- `while a + m < len(e) and b + m < len(f) and e[a + m] == f[b + m]: m += 1`, diff.act:51-52 (with
`a = b = 0`) and 112-113. -/
def matchLoop (e f : List α) (a b : Nat) : Nat → Nat → Nat
  | 0, m => m
  | n + 1, m => if a + m < e.length ∧ b + m < f.length ∧ e[a + m]? = f[b + m]? then matchLoop e f a b n (m + 1) else m

/-- The loop for the common suffix, diff.act:61-62. -/
def suffixLoop (e f : List α) (p : Nat) : Nat → Nat → Nat
  | 0, s => s
  | n + 1, s =>
    if s < e.length - p ∧ s < f.length - p ∧ e[e.length - 1 - s]? = f[f.length - 1 - s]? then suffixLoop e f p n (s + 1)
    else s

/-- The search for the best match, diff.act:110-117: `best` is `best_match_pos` and `best_match_len`. -/
def bestLoop (e f : List α) (middle : Nat) : List Nat → Int × Int → Int × Int
  | [], best => best
  | pos :: r, best =>
    let m : Nat := matchLoop e f middle pos e.length 0
    bestLoop e f middle r (if (m : Int) > best.2 then (pos, m) else best)

/-- `if line not in d: d[line] = []` and `d[line].append(idx)`, diff.act:140-142. The `dict` is the list
of its items in the order of insertion (`Verif.Dict` C06). -/
def addLine (d : List (α × List Nat)) (line : α) (idx : Nat) : List (α × List Nat) :=
  match d with
  | [] => [(line, [idx])]
  | (x, l) :: d => if x = line then (x, l ++ [idx]) :: d else (x, l) :: addLine d line idx

/-- `for idx, line in enumerate(e)`, diff.act:139-142 and 145-148. -/
def lineDict : List α → Nat → List (α × List Nat) → List (α × List Nat)
  | [], _, d => d
  | line :: r, idx, d => lineDict r (idx + 1) (addLine d line idx)

/-- `d[line]`. -/
def lookup (d : List (α × List Nat)) (line : α) : Option (List Nat) :=
  match d with
  | [] => none
  | (x, l) :: d => if x = line then some l else lookup d line

/-- Lines that occur once in both, diff.act:153-157. -/
def anchors (df : List (α × List Nat)) : List (α × List Nat) → List (Nat × Nat)
  | [] => []
  | (line, [e]) :: r =>
    match lookup df line with
    | some [f] => (e, f) :: anchors df r
    | _ => anchors df r
  | _ :: r => anchors df r

/-- `<=` on pairs of integers. -/
def pairLe (p q : Nat × Nat) : Bool := p.1 < q.1 || p.1 = q.1 && p.2 ≤ q.2

/-- `sorted(anchors)`, diff.act:160: any sorting algorithm (`Verif.Sort` C04, C05 has the one used). -/
def insertPair (p : Nat × Nat) : List (Nat × Nat) → List (Nat × Nat)
  | [] => [p]
  | q :: r => if pairLe p q then p :: q :: r else q :: insertPair p r

def sortPairs : List (Nat × Nat) → List (Nat × Nat)
  | [] => []
  | p :: r => insertPair p (sortPairs r)

/-- The segment before an anchor, diff.act:182-184. `call` is `myers_diff`. -/
def beforeOps (call : List α → List α → Nat → Nat → Res (List (Op α))) (e f : List α) (i j le lf ei fi : Nat) : Res (List (Op α)) :=
  if ei > le ∨ fi > lf then call (slice e le ei) (slice f lf fi) (i + le) (j + lf) else .ok []

/-- The anchor, diff.act:187. -/
def anchorOp (e : List α) (i j ei fi : Nat) : Res (List (Op α)) :=
  match e[ei]? with
  | some x => .ok [.keep x (i + ei) (j + fi)]
  | none => .raise .indexError

/-- The loop over the anchors and the last segment, diff.act:173-196. `call` is `myers_diff`. -/
def anchorLoop (call : List α → List α → Nat → Nat → Res (List (Op α))) (e f : List α) (i j : Nat) :
    List (Nat × Nat) → Nat → Nat → Res (List (Op α))
  | [], le, lf => if le < e.length ∨ lf < f.length then call (e.drop le) (f.drop lf) (i + le) (j + lf) else .ok []
  | (ei, fi) :: r, le, lf => do
    let before ← beforeOps call e f i j le lf ei fi
    let anchor ← anchorOp e i j ei fi
    let after ← anchorLoop call e f i j r (ei + 1) (fi + 1)
    return before ++ anchor ++ after

/-- The anchors of `e` and `f`, diff.act:138-160. -/
def sortedAnchors (e f : List α) : List (Nat × Nat) :=
  sortPairs (anchors (lineDict f 0 []) (lineDict e 0 []))

/-- `myers_diff`, diff.act:11-207, cut after a number of nested calls. The case of two lines that are
equal (diff.act:97-98) cannot be reached; it is kept. -/
def myers : Nat → List α → List α → Nat → Nat → Res (List (Op α))
  | 0, _, _, _, _ => .diverge
  | n + 1, e, f, i, j =>
    if e.length = 0 then .ok (insFrom j f)
    else if f.length = 0 then .ok (delFrom i e)
    else
      let p := matchLoop e f 0 0 e.length 0
      let s := suffixLoop e f p e.length 0
      if p > 0 ∨ s > 0 then do
        let middle ← myers n (slice e p (e.length - s)) (slice f p (f.length - s)) (i + p) (j + p)
        return keepFrom i j (e.take p) ++ middle ++
          keepFrom (i + (e.length - s)) (j + (f.length - s)) (e.drop (e.length - s))
      else if e.length = 1 ∧ f.length > 1 then .ok (delFrom i e ++ insFrom j f)
      else if f.length = 1 ∧ e.length > 1 then .ok (delFrom i e ++ insFrom j f)
      else if e.length = 1 ∧ f.length = 1 then
        if e[0]? = f[0]? then .ok (keepFrom i j e) else .ok (delFrom i e ++ insFrom j f)
      else
        let middle := e.length / 2
        let best := bestLoop e f middle (List.range f.length) (-1, -1)
        if best.2 > 0 then do
          let pos := best.1.toNat
          let len := best.2.toNat
          let before ← myers n (e.take middle) (f.take pos) i j
          let after ← myers n (e.drop (middle + len)) (f.drop (pos + len)) (i + middle + len) (j + pos + len)
          return before ++ keepFrom (i + middle) (j + pos) ((e.drop middle).take len) ++ after
        else if (sortedAnchors e f).length > 0 then anchorLoop (myers n) e f i j (sortedAnchors e f) 0 0
        else .ok (delFrom i e ++ insFrom j f)

/-- `myers_diff(old_lines, new_lines)`, diff.act:433. -/
def diff (e f : List α) : Res (List (Op α)) := myers (e.length + 1) e f 0 0

/-! ### Hunks -/

/-- `isinstance(op, Delete) or isinstance(op, Insert)`, diff.act:291. -/
def isChange : Op α → Bool
  | .del _ _ => true
  | .ins _ _ => true
  | _ => false

/-- `change_indices`, diff.act:289-292. -/
def changes : List (Op α) → Nat → List Nat
  | [], _ => []
  | op :: r, i => if isChange op then i :: changes r (i + 1) else changes r (i + 1)

/-- `abs(i - change_idx) <= context_lines` for some change, diff.act:302-306. -/
def included (ch : List Nat) (context i : Nat) : Bool := ch.any fun c => ((i : Int) - c).natAbs ≤ context

/-- The last loop of `filter_operations_with_context`, diff.act:312-322. `any` says whether
`filtered_ops` has elements. -/
def filterLoop (ch : List Nat) (context : Nat) : List (Op α) → Nat → (inChunk any : Bool) → List (Op α)
  | [], _, _, _ => []
  | op :: r, i, inChunk, any =>
    if included ch context i then
      (if !inChunk && decide (i > 0) && any then [.gap, op] else [op]) ++ filterLoop ch context r (i + 1) true true
    else filterLoop ch context r (i + 1) false any

/-- `filter_operations_with_context`, diff.act:273-324. -/
def filterOps (ops : List (Op α)) (context : Int) : List (Op α) :=
  if context < 0 then ops
  else if (changes ops 0).length = 0 then []
  else filterLoop (changes ops 0) context.toNat ops 0 false false

/-- `find_chunks`, diff.act:376-403. -/
def chunkLoop : List (Op α) → List (Op α) → List (List (Op α))
  | [], cur => if cur.length > 0 then [cur] else []
  | .gap :: r, cur => if cur.length > 0 then cur :: chunkLoop r [] else chunkLoop r cur
  | op :: r, cur => chunkLoop r (cur ++ [op])

def findChunks (ops : List (Op α)) : List (List (Op α)) := chunkLoop ops []

/-- The four numbers of a chunk header. -/
structure Header where
  oldStart : Int
  oldCount : Nat
  newStart : Int
  newCount : Nat
  deriving DecidableEq, Repr

/-- `if start == -1: start = index`. -/
def setStart (start : Int) (index : Nat) : Int := if start = -1 then index else start

/-- The loop of `generate_chunk_header`, diff.act:344-365. -/
def headerLoop : List (Op α) → Header → Header
  | [], h => h
  | .gap :: r, h => headerLoop r h
  | .keep _ io inw :: r, h =>
    headerLoop r ⟨setStart h.oldStart io, h.oldCount + 1, setStart h.newStart inw, h.newCount + 1⟩
  | .del _ io :: r, h => headerLoop r ⟨setStart h.oldStart io, h.oldCount + 1, h.newStart, h.newCount⟩
  | .ins _ inw :: r, h => headerLoop r ⟨h.oldStart, h.oldCount, setStart h.newStart inw, h.newCount + 1⟩

/-- `generate_chunk_header`, diff.act:326-374: the numbers in the text. -/
def header (ops : List (Op α)) : Header :=
  let h := headerLoop ops ⟨-1, 0, -1, 0⟩
  ⟨(if h.oldStart = -1 then 0 else h.oldStart) + 1, h.oldCount, (if h.newStart = -1 then 0 else h.newStart) + 1, h.newCount⟩

/-- The hunks of `diff`, diff.act:433-461, for operations and a `context_lines` that is not negative. -/
def hunks (ops : List (Op α)) (context : Int) : List (Header × List (Op α)) :=
  (findChunks (filterOps ops context)).map fun c => (header c, c)

end Verif.Diff
