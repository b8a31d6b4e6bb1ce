import Verif.Common
/-!
# Model of the iterator functions (base/builtin/builtin_functions.c)

An iterator is a state with a function `__next__` that gives an element or raises `StopIteration`; the latter is
`none` here, and the iterator has a state after it as well. Functions given by the program (`$pure`) may raise
exceptions; a `StopIteration` that they raise is not told from one of the iterator.
-/
namespace Verif.Iter
open Verif

variable {σ τ α β : Type}

/-- `__next__`. -/
abbrev Next (σ α : Type) := σ → Res (Option α × σ)

/-- The result of a function called in `__next__`, with the state that the iterator has by then. -/
def stopOr (s : σ) : Res β → Res (Option β × σ)
  | .ok b => .ok (some b, s)
  | .raise .stopIteration => .ok (none, s)
  | .raise e => .raise e
  | .ub => .ub
  | .diverge => .diverge

/-- `B_IteratorD_enumerate_next`, builtin_functions.c:102-105. -/
def enumerateNext (next : Next σ α) : Next (σ × Int) (Int × α)
  | (s, n) => do
    match ← next s with
    | (none, s') => return (none, (s', n))
    | (some a, s') => return (some (n, a), (s', wrap64 (n + 1)))

/-- `B_IteratorD_map_next`, builtin_functions.c:199-202. -/
def mapNext (next : Next σ α) (f : α → Res β) : Next σ β := fun s => do
  match ← next s with
  | (none, s') => return (none, s')
  | (some a, s') => stopOr s' (f a)

/-- A value that the function given to `filter` returns: the type of `filter` allows any type for it
(base/src/__builtin__.act:959). `other b` is an object whose first byte after the class pointer is `b`. -/
inductive Val
  | bool (b : Bool)
  | none
  | other (b : Nat)
  deriving DecidableEq

/-- `fromB_bool`, bool.c, which reads the byte after the class pointer; a `bool` must be 0 or 1. -/
def fromBool : Val → Res Bool
  | .bool b => .ok b
  | .none => .ub
  | .other 0 => .ok false
  | .other 1 => .ok true
  | .other _ => .ub

/-- The test in `filter`. -/
def test (f : α → Res Val) (a : α) : Res Bool := do
  let v ← f a
  fromBool v

/-- `B_IteratorD_filter_next`, builtin_functions.c:152-158: at most `fuel` elements. `f` is `none` for `None`. -/
def filterNext (next : Next σ α) (f : Option (α → Res Val)) : Nat → Next σ α
  | 0, _ => .diverge
  | fuel + 1, s => do
    match ← next s, f with
    | (none, s'), _ => return (none, s')
    | (some _, _), none => .ub
    | (some a, s'), some g =>
      match ← stopOr s' (test g a) with
      | (none, s') => return (none, s')
      | (some b, s') => if b then return (some a, s') else filterNext next f fuel s'

/-- `B_IteratorD_zip_next`, builtin_functions.c:395-399. -/
def zipNext (next : Next σ α) (next' : Next τ β) : Next (σ × τ) (α × β)
  | (s, t) => do
    match ← next s with
    | (none, s') => return (none, (s', t))
    | (some a, s') =>
      match ← next' t with
      | (none, t') => return (none, (s', t'))
      | (some b, t') => return (some (a, b), (s', t'))

/-- A `while(1)` loop over an iterator that ends at `StopIteration`, with the body `f`, for at most `fuel` rounds. -/
def loop (next : Next σ α) (f : β → α → Res β) : Nat → σ → β → Res β
  | 0, _, _ => .diverge
  | fuel + 1, s, r => do
    match ← next s with
    | (none, _) => return r
    | (some a, s') =>
      match ← stopOr s' (f r a) with
      | (none, _) => return r
      | (some r', s'') => loop next f fuel s'' r'

/-- The body of the loop of `B_max`, builtin_functions.c:226-228. -/
def maxBody (lt : α → α → Bool) (res : Option α) (nxt : α) : Res (Option α) :=
  match res with
  | none => .ok (some nxt)
  | some r => .ok (if lt r nxt then some nxt else some r)

/-- The result of `B_max` and `B_min`, builtin_functions.c:238-247 and 285-292: `None` is the null pointer. -/
def orDefault (dflt res : Option α) : Res α :=
  match res with
  | some r => .ok r
  | none => match dflt with
    | some d => .ok d
    | none => .raise .valueError

/-- `B_max`, builtin_functions.c:221-248. -/
def max (next : Next σ α) (lt : α → α → Bool) (fuel : Nat) (s : σ) (dflt : Option α) : Res α := do
  let res ← loop next (maxBody lt) fuel s dflt
  orDefault dflt res

/-- `B_min`, builtin_functions.c:269-293, with `gt`. -/
def min (next : Next σ α) (gt : α → α → Bool) (fuel : Nat) (s : σ) (dflt : Option α) : Res α := do
  let res ← loop next (maxBody gt) fuel s none
  orDefault dflt res

/-- `B_max_def` and, with `gt` for `lt`, `B_min_def`, builtin_functions.c:250-267 and 295-312. -/
def maxDef (next : Next σ α) (lt : α → α → Bool) (fuel : Nat) (s : σ) (dflt : α) : Res α :=
  loop next (fun r a => .ok (if lt r a then a else r)) fuel s dflt

/-- `B_sum`, builtin_functions.c:323-346. -/
def sum (next : Next σ α) (add : α → α → Res α) (zero : α) (fuel : Nat) (s : σ) (start : Option α) : Res α :=
  loop next add fuel s (start.getD zero)

/-- `B_listG_new`, list.c: the elements of the iterator, appended one by one. -/
def toList (next : Next σ α) (fuel : Nat) (s : σ) : Res (List α) :=
  loop next (fun l a => .ok (l ++ [a])) fuel s []

/-- The `for` loop of `all` (`want = false`) and `any` (`want = true`), base/src/__builtin__.act:932-942. -/
def search (next : Next σ α) (truth : α → Bool) (want : Bool) : Nat → σ → Res (Bool × σ)
  | 0, _ => .diverge
  | fuel + 1, s => do
    match ← next s with
    | (none, s') => return (!want, s')
    | (some a, s') => if truth a = want then return (want, s') else search next truth want fuel s'

/-! ### Tuples -/

/-- A witness of `Ord` for a component. -/
structure OrdWit (α : Type) where
  eq : α → α → Bool
  ne : α → α → Bool
  lt : α → α → Bool

/-- `$tupleWitD___eq__`, builtin_functions.c:466-475. The components of a tuple are of one type here, of which every
witness may use a part. -/
def tupleEq : List (OrdWit α) → List α → List α → Res Bool
  | [], _, _ => .ok true
  | w :: ws, a :: as, b :: bs => if w.eq a b then tupleEq ws as bs else .ok false
  | _ :: _, _, _ => .ub

/-- `$tupleWitD_lex`, builtin_functions.c:562-574. -/
def tupleLex (strict : Bool) : List (OrdWit α) → List α → List α → Res Bool
  | [], _, _ => .ok (!strict)
  | w :: ws, a :: as, b :: bs => if w.lt a b then .ok true else if w.ne a b then .ok false else tupleLex strict ws as bs
  | _ :: _, _, _ => .ub

/-- `$HashableTupleD_hash`, builtin_functions.c:656-670: what is fed to the outer hasher. `digest w a` is the digest of
a new hasher after the component. -/
def tupleHash (digest : Nat → α → Nat) : Nat → Nat → List α → Res (List Nat)
  | _, 0, _ => .ok []
  | i, n + 1, a :: as => do
    let r ← tupleHash digest (i + 1) n as
    return digest i a :: r
  | _, _ + 1, [] => .ub

end Verif.Iter
