import Verif.Common
/-!
# Model of the skip list (backend/skiplist.c)

The nodes live in a heap; a pointer is an address, `none` is `NULL`. Reading an address that is not
allocated or an array index outside of the allocated array is undefined.
-/
namespace Verif.Skiplist
open Verif

/-- `SKIPLIST_MAX_LEVEL`, skiplist.h:11. -/
def maxLevel : Nat := 6

/-- `struct snode`, skiplist.h:16-20. The value of the header is not initialised. -/
structure Node (K V : Type) where
  key : K
  val : Option V
  forward : List (Option Nat)
  deriving DecidableEq

/-- `struct skiplist`, skiplist.h:22-28, with the heap of nodes. `nxt` is the address that the next
`malloc` returns. -/
structure SL (K V : Type) where
  level : Nat
  header : Nat
  items : Int
  heap : Nat → Option (Node K V)
  nxt : Nat

variable {K V : Type}

def upd (h : Nat → Option (Node K V)) (a : Nat) (n : Option (Node K V)) : Nat → Option (Node K V) :=
  fun b => if b = a then n else h b

/-- `long_cmp`, skiplist.c:31-33: the difference of the keys is cut to an `int`. -/
def longCmp (a b : Int) : Int := wrap32 (wrap64 (a - b))

/-- `LONG_MAX`, the key of the header, skiplist.c:57. -/
def longMax : Int := 2 ^ 63 - 1

/-- `skiplist_init`, skiplist.c:54-70; `hd` is the key of the header. -/
def init (hd : K) : SL K V :=
  ⟨0, 0, 0, upd (fun _ => none) 0 (some ⟨hd, none, List.replicate maxLevel none⟩), 1⟩

/-- `x->forward[i]`. -/
def fwd (h : Nat → Option (Node K V)) (x i : Nat) : Res (Option Nat) :=
  match h x with
  | none => .ub
  | some n => match n.forward[i]? with
    | none => .ub
    | some p => .ok p

/-- `x->key`. -/
def keyAt (h : Nat → Option (Node K V)) (x : Nat) : Res K :=
  match h x with
  | none => .ub
  | some n => .ok n.key

/-- `x->forward[i] = p`. -/
def setFwd (h : Nat → Option (Node K V)) (x i : Nat) (p : Option Nat) :
    Res (Nat → Option (Node K V)) :=
  match h x with
  | none => .ub
  | some n => if i < n.forward.length then .ok (upd h x (some { n with forward := n.forward.set i p })) else .ub

/-- `while (x->forward[i] != NULL && test(x->forward[i]->key)) x = x->forward[i];`
(skiplist.c:85-86, 134-135, 150-151, 193-194, 214-215), cut after `f` rounds. -/
def walk (test : K → Bool) (h : Nat → Option (Node K V)) (i : Nat) : Nat → Nat → Res Nat
  | 0, _ => .diverge
  | f + 1, x => do
    match ← fwd h x i with
    | none => return x
    | some y => do
      let k ← keyAt h y
      if test k then walk test h i f y else return x

/-- `for (; i >= 0; i--) { while …; update[i] = x; }` over the levels `n-1, …, 0`
(skiplist.c:84-89, 213-217): the last node and the array `update`. The bound of the walks is the
number of addresses in use. -/
def descend (test : K → Bool) (h : Nat → Option (Node K V)) (fuel : Nat) : Nat → Nat → Res (Nat × List Nat)
  | 0, x => .ok (x, [])
  | i + 1, x => do
    let y ← walk test h i fuel x
    let r ← descend test h fuel i y
    return (r.1, r.2 ++ [y])

/-- The loop that links the new node `z`, skiplist.c:108-112, over the entries of `update` from level `i` on. -/
def linkLoop (z : Nat) : (h : Nat → Option (Node K V)) → List Nat → Nat → Res (Nat → Option (Node K V))
  | h, [], _ => .ok h
  | h, u :: us, i => do
    let p ← fwd h u i
    let h1 ← setFwd h z i p
    let h2 ← setFwd h1 u i (some z)
    linkLoop z h2 us (i + 1)

/-- The branch of `skiplist_insert` for a new key, skiplist.c:95-115. `lvl` is the outcome of
`rand_level` (skiplist.c:72-78), a number below `SKIPLIST_MAX_LEVEL`. -/
def insertNew (s : SL K V) (key : K) (v : V) (lvl : Nat) (update : List Nat) : Res (SL K V) := do
  let up := update ++ List.replicate (lvl - s.level) s.header
  let h ← linkLoop s.nxt (upd s.heap s.nxt (some ⟨key, some v, List.replicate (lvl + 1) none⟩))
    (up.take (lvl + 1)) 0
  return ⟨if s.level < lvl then lvl else s.level, s.header, s.items + 1, h, s.nxt + 1⟩

/-- `skiplist_insert`, skiplist.c:80-117. -/
def insert (cmp : K → K → Int) (s : SL K V) (key : K) (v : V) (lvl : Nat) : Res (SL K V) := do
  let r ← descend (fun k => cmp k key < 0) s.heap s.nxt (s.level + 1) s.header
  match ← fwd s.heap r.1 0 with
  | none => insertNew s key v lvl r.2
  | some y =>
    match s.heap y with
    | none => .ub
    | some n =>
      if cmp key n.key = 0 then return { s with heap := upd s.heap y (some { n with val := some v }) }
      else insertNew s key v lvl r.2

/-- `skiplist_search`, skiplist.c:131-145. `isMax` is the test for the key of the header. -/
def search (cmp : K → K → Int) (isMax : K → Bool) (s : SL K V) (key : K) : Res (Option Nat) := do
  let r ← descend (fun k => cmp k key ≤ 0) s.heap s.nxt (s.level + 1) s.header
  let k ← keyAt s.heap r.1
  if !isMax k ∧ cmp key k = 0 then return some r.1 else return none

/-- `skiplist_search_higher`, skiplist.c:147-160. -/
def searchHigher (cmp : K → K → Int) (s : SL K V) (key : K) : Res (Option Nat) := do
  let r ← descend (fun k => cmp k key < 0) s.heap s.nxt (s.level + 1) s.header
  fwd s.heap r.1 0

/-- `skiplist_search_lower`, skiplist.c:190-198. -/
def searchLower (cmp : K → K → Int) (s : SL K V) (key : K) : Res Nat := do
  let r ← descend (fun k => cmp k key ≤ 0) s.heap s.nxt (s.level + 1) s.header
  return r.1

/-- `skiplist_get_range`, skiplist.c:162-187: the test of the start node is inverted. For a start
node the function fails with `-1`; for `NULL` it reads the node. -/
def getRange (cmp : K → K → Int) (s : SL K V) (start : K) : Res Int := do
  match ← searchHigher cmp s start with
  | some _ => return -1
  | none => .ub

/-- The unlinking loop of `skiplist_delete`, skiplist.c:223-227, from level `i` on. -/
def unlinkLoop (x : Nat) : (h : Nat → Option (Node K V)) → List Nat → Nat → Res (Nat → Option (Node K V))
  | h, [], _ => .ok h
  | h, u :: us, i => do
    let p ← fwd h u i
    if p ≠ some x then return h
    else do
      let q ← fwd h x i
      let h1 ← setFwd h u i q
      unlinkLoop x h1 us (i + 1)

/-- `while (list->level > 0 && list->header->forward[list->level] == NULL) list->level--;`,
skiplist.c:233-234. -/
def lowerLevel (h : Nat → Option (Node K V)) (header : Nat) : Nat → Res Nat
  | 0 => .ok 0
  | l + 1 => do
    match ← fwd h header (l + 1) with
    | none => lowerLevel h header l
    | some _ => return l + 1

/-- Deleting the node `x`, skiplist.c:222-237. -/
def deleteNode (s : SL K V) (x : Nat) (n : Node K V) (update : List Nat) : Res (SL K V × Option V) := do
  let h ← unlinkLoop x s.heap update 0
  let h := upd h x none
  let l ← lowerLevel h s.header s.level
  return (⟨l, s.header, s.items - 1, h, s.nxt⟩, n.val)

/-- The candidate for deletion, skiplist.c:219-220. -/
def candidate (h : Nat → Option (Node K V)) (x : Nat) : Res Nat := do
  match ← fwd h x 0 with
  | none => return x
  | some y => return y

/-- `skiplist_delete`, skiplist.c:208-239: the list and the value of the deleted node. -/
def delete (cmp : K → K → Int) (s : SL K V) (key : K) : Res (SL K V × Option V) := do
  let r ← descend (fun k => cmp k key < 0) s.heap s.nxt (s.level + 1) s.header
  let x ← candidate s.heap r.1
  match s.heap x with
  | none => .ub
  | some n =>
    if cmp n.key key = 0 then deleteNode s x n r.2 else return (s, none)

/-- The nodes in the order of `for(crt = HEAD(list); crt != NULL; crt = NEXT(crt))`, at most `f`. -/
def traverse (h : Nat → Option (Node K V)) : Nat → Option Nat → Res (List Nat)
  | _, none => .ok []
  | 0, some _ => .diverge
  | f + 1, some x => do
    let p ← fwd h x 0
    let r ← traverse h f p
    return x :: r

/-- `HEAD`, `NEXT`, skiplist.h:13-14. -/
def nodes (s : SL K V) : Res (List Nat) := do
  let p ← fwd s.heap s.header 0
  traverse s.heap s.nxt p

/-- The loop of `skiplist_clone`, skiplist.c:119-129, with the levels drawn. -/
def cloneLoop (cmp : K → K → Int) (h : Nat → Option (Node K V)) : List Nat → List Nat → SL K V → Res (SL K V)
  | [], _, d => .ok d
  | x :: xs, ls, d =>
    match h x with
    | none => .ub
    | some n => match n.val with
      | none => .ub
      | some v => do
        let d' ← insert cmp d n.key v (ls.headD 0)
        cloneLoop cmp h xs ls.tail d'

/-- `skiplist_clone`. -/
def clone (cmp : K → K → Int) (hd : K) (s : SL K V) (lvls : List Nat) : Res (SL K V) := do
  let xs ← nodes s
  cloneLoop cmp s.heap xs lvls (init hd)

end Verif.Skiplist
