import Verif.Search.Model
import Verif.Slice.Model
import Verif.Str.Utf8
/-!
# Model of `str` (base/builtin/str.c)

Pointers into the character buffer of a string are offsets into it.
-/
namespace Verif.Str
open Verif Verif.Search

/-- `struct B_str` (base/builtin/str.h): recorded number of characters and bytes, and the
buffer including the terminating zero byte. -/
structure Str where
  nchars : Int
  nbytes : Int
  buf : List Nat
  deriving DecidableEq, Repr

/-- `null_str`, base/builtin/str.c:32-34. -/
def nullStr : Str := ⟨0, 0, [0]⟩

/-- `whitespace_str`, base/builtin/str.c:298-300. -/
def whitespaceStr : Str := ⟨6, 6, [32, 9, 10, 13, 11, 12, 0]⟩

/-- Copy `n` bytes from offset `p` of a buffer (`memcpy`). -/
def copy (b : List Nat) (p n : Int) : Res (List Nat) :=
  if 0 ≤ p ∧ 0 ≤ n ∧ p + n ≤ b.length then .ok ((b.drop p.toNat).take n.toNat) else .ub

/-- `NEW_UNFILLED_STR` followed by filling the buffer with `content`,
base/builtin/str.c:324-331. A failing `assert`, a negative size and an incompletely or
excessively filled buffer are all counted as undefined. -/
def mkStr (nchars nbytes : Int) (content : List Nat) : Res Str :=
  if nchars ≤ nbytes ∧ nbytes = content.length then .ok ⟨nchars, nbytes, content ++ [0]⟩ else .ub

/-- Forward branch of `skip_chars`, base/builtin/str.c:502-504. -/
def skipFwd (b : List Nat) : Nat → Int → Res Int
  | 0, p => .ok p
  | n + 1, p => do
    let c ← getB b p
    skipFwd b n (p + blen2 c)

/-- `while (*res >> 6 == 2) res--`, base/builtin/str.c:508. -/
def settle (b : List Nat) : Nat → Res Int
  | 0 => do
    let c ← getB b 0
    if c / 64 = 2 then .ub else return 0
  | p + 1 => do
    let c ← getB b ((p + 1 : Nat) : Int)
    if c / 64 = 2 then settle b p else return ((p + 1 : Nat) : Int)

/-- Backward branch of `skip_chars`, base/builtin/str.c:505-509. -/
def skipBack (b : List Nat) : Nat → Int → Res Int
  | 0, p => .ok p
  | n + 1, p => do
    if p ≤ 0 then .ub else
    let q ← settle b (p - 1).toNat
    skipBack b n q

/-- `skip_chars`, base/builtin/str.c:498-512. (For an ASCII string the pointer is not
dereferenced, so its value is not checked here.) -/
def skipChars (b : List Nat) (p n : Int) (isascii : Bool) : Res Int :=
  if isascii then .ok (p + n)
  else if n ≥ 0 then skipFwd b n.toNat p
  else skipBack b (wrap32 (-n)).toNat p

def Str.isascii (s : Str) : Bool := s.nchars = s.nbytes

/-- Loop of `char_no`, base/builtin/str.c:491-494. -/
def charNoLoop (b : List Nat) (i : Int) : Nat → Int → Int → Res Int
  | 0, _, _ => .diverge
  | f + 1, k, res =>
    if k < i then do
      let c ← getB b k
      charNoLoop b i f (k + blen2 c) (res + 1)
    else .ok res

/-- `char_no`, base/builtin/str.c:485-496. -/
def charNo (s : Str) (i : Int) : Res Int :=
  if s.nbytes = s.nchars then .ok i else charNoLoop s.buf i (i.toNat + 1) 0 0

/-- `get_index`, base/builtin/str.c:526-536; the 64-bit index is passed as `int`. -/
def getIndex (i : Int) (nchars : Int) : Res Int :=
  let i := wrap32 i
  if i ≥ 0 then (if i < nchars then .ok i else .raise .indexError)
  else if i ≥ -nchars then .ok (nchars + i) else .raise .indexError

/-- The `start` part of `fix_start_end`, base/builtin/str.c:543-555; `none` is the result -1. -/
def fixStart (nchars : Int) : Option Int → Option Int
  | none => some 0
  | some v =>
    let st := wrap32 v
    if st > nchars then none
    else
      let st := if st < 0 then st + (nchars + 1) else st
      some (if st < 0 then 0 else st)

/-- The `end` part of `fix_start_end`, base/builtin/str.c:556-568. -/
def fixEnd (nchars : Int) : Option Int → Int
  | none => nchars
  | some v =>
    let en := wrap32 v
    let en := if en > nchars then nchars else if en < 0 then en + (nchars + 1) else en
    if en < 0 then 0 else en

/-- `fix_start_end`, base/builtin/str.c:542-570; `none` is the result -1. -/
def fixStartEnd (nchars : Int) (start stop : Option Int) : Option (Int × Int) :=
  (fixStart nchars start).map (fun s => (s, fixEnd nchars stop))

/-- Call of a search function on the bytes `[p, p + n)` of a buffer. For a negative `n`
the functions return -1 at once. -/
def searchAt (search : List Nat → List Nat → Res Int) (b : List Nat) (p n : Int) (pat : List Nat) : Res Int :=
  if n < 0 then .ok (-1) else do
    let w ← copy b p n
    search w pat

/-- The bytes of a string (`str[0 .. nbytes)`). -/
def Str.bytes (s : Str) : List Nat := s.buf.take s.nbytes.toNat

/-- `B_strD_find` (base/builtin/str.c:1004-1014) and `B_strD_rfind` (1313-1323), which differ
only in the search function. -/
def findWith (search : List Nat → List Nat → Res Int) (s sub : Str) (start stop : Option Int) : Res Int :=
  match fixStartEnd s.nchars start stop with
  | none => .ok (-1)
  | some (st, en) => do
    let p ← skipChars s.buf 0 st s.isascii
    let q ← skipChars s.buf p (en - st) s.isascii
    let n ← searchAt search s.buf p (q - p) sub.bytes
    if n < 0 then return -1 else charNo s (n + p)

def find : Str → Str → Option Int → Option Int → Res Int := findWith bmh
def rfind : Str → Str → Option Int → Option Int → Res Int := findWith rbmh

/-- `B_strD_index`, base/builtin/str.c:1016-1022. -/
def index (s sub : Str) (start stop : Option Int) : Res Int := do
  let n ← find s sub start stop
  if n < 0 then .raise .valueError else return n

/-- `B_strD_rindex`, base/builtin/str.c:1326-1332. -/
def rindex (s sub : Str) (start stop : Option Int) : Res Int := do
  let n ← rfind s sub start stop
  if n < 0 then .raise .valueError else return n

/-- `B_ContainerD_strD___contains__`, base/builtin/str.c:1647-1649. -/
def contains (s sub : Str) : Res Bool := do
  let n ← bmh s.bytes sub.bytes
  return decide (n ≥ 0)

/-- Loop of `B_strD_count`, base/builtin/str.c:936-941. -/
def countLoop (b : List Nat) (q : Int) (sub : Str) : Nat → Int → Int → Res Int
  | 0, _, _ => .diverge
  | f + 1, p, res => do
    let n ← searchAt bmh b p (q - p) sub.bytes
    if n ≥ 0 then countLoop b q sub f (p + n + (if sub.nbytes > 0 then sub.nbytes else 1)) (res + 1)
    else return res

/-- `B_strD_count`, base/builtin/str.c:928-943. -/
def count (s sub : Str) (start stop : Option Int) : Res Int :=
  match fixStartEnd s.nchars start stop with
  | none => .ok 0
  | some (st, en) => do
    let p ← skipChars s.buf 0 st s.isascii
    let q ← skipChars s.buf p (en - st) s.isascii
    countLoop s.buf q sub (s.buf.length + 2) p 0

/-- `B_strD_partition`, base/builtin/str.c:1261-1276. -/
def partition (s sep : Str) : Res (Str × Str × Str) := do
  let n ← find s sep none none
  if n < 0 then return (s, nullStr, nullStr)
  else do
    let nb ← bmh s.bytes sep.bytes
    let l ← copy s.buf 0 nb
    let ls ← mkStr n nb l
    let nbr := s.nbytes - sep.nbytes - nb
    let r ← copy s.buf (nb + sep.nbytes) nbr
    let rs ← mkStr (s.nchars - n - sep.nchars) nbr r
    return (ls, sep, rs)

/-- `B_strD_rpartition`, base/builtin/str.c:1356-1371. -/
def rpartition (s sep : Str) : Res (Str × Str × Str) := do
  let n ← rfind s sep none none
  if n < 0 then return (nullStr, nullStr, s)
  else do
    let nb ← rbmh s.bytes sep.bytes
    let l ← copy s.buf 0 nb
    let ls ← mkStr n nb l
    let nbr := s.nbytes - sep.nbytes - nb
    let r ← copy s.buf (nb + sep.nbytes) nbr
    let rs ← mkStr (s.nchars - n - sep.nchars) nbr r
    return (ls, sep, rs)

/-- Loop of `B_strD_split` with a separator, base/builtin/str.c:1438-1443: delivers the
pieces, the last `ssep` (initially `none`: uninitialised) and the last `rs`. -/
def splitLoop (sep : Str) (maxsplit : Int) : Nat → Str → Option Str → Int → Res (List Str × Option Str × Str)
  | 0, _, _, _ => .diverge
  | f + 1, rs, ssep, len =>
    if rs.nchars > 0 ∧ len < maxsplit then do
      let (ls, ssep', rs') ← partition rs sep
      let (ps, r) ← splitLoop sep maxsplit f rs' (some ssep') (len + 1)
      return (ls :: ps, r)
    else .ok ([], ssep, rs)

/-- The value of `maxsplit` after base/builtin/str.c:1377. -/
def splitMax : Option Int → Int
  | none => 2^31 - 1
  | some m => if m < 0 then 2^31 - 1 else m

/-- `B_strD_split` with a given separator, base/builtin/str.c:1374-1377, 1427-1447. -/
def split (s sep : Str) (maxsplit : Option Int) : Res (List Str) :=
  if sep.nchars = 0 then .raise .valueError
  else if s.nchars = 0 then .ok [nullStr]
  else do
    let (ps, ssep, rs) ← splitLoop sep (splitMax maxsplit) (s.nchars.toNat + 1) s none 0
    match ssep with
    | none => .ub
    | some x => if x.nchars > 0 then return ps ++ [rs] else return ps

/-- Sizes computed in `B_strD_join`, base/builtin/str.c:1185-1194 (`int` arithmetic). -/
def joinSize (f : Str → Int) (s : Str) (l : List Str) : Int :=
  let tot := (l.map f).sum
  if l.length > 1 then wrap32 (tot + ((l.length : Int) - 1) * f s) else wrap32 tot

/-- The bytes written by `B_strD_join` after the first element, base/builtin/str.c:1201-1207. -/
def joinTail (s : Str) : List Str → List Nat
  | [] => []
  | x :: xs => s.bytes ++ x.bytes ++ joinTail s xs

/-- `B_strD_join`, base/builtin/str.c:1178-1210; the iterable is already a list. -/
def join (s : Str) (l : List Str) : Res Str :=
  mkStr (joinSize Str.nchars s l) (joinSize Str.nbytes s l)
    (match l with
      | [] => []
      | x :: xs => x.bytes ++ joinTail s xs)

/-- `if (n > 0) memcpy(q,p,n)`, base/builtin/str.c:1299, 1307. -/
def copyPos (b : List Nat) (p n : Int) : Res (List Nat) := if n > 0 then copy b p n else .ok []

/-- The distance to the next replacement, base/builtin/str.c:1298. -/
def nextCut (b : List Nat) (old : Str) (first : Bool) (p plen : Int) : Res Int :=
  if !first ∧ old.nbytes = 0 then .ok 1 else searchAt bmh b p plen old.bytes

/-- Loop of `B_strD_replace`, base/builtin/str.c:1297-1307: `k` rounds left, `first` tells
whether this is round 0; delivers the bytes written and the final `p` and `plen`. -/
def replaceLoop (b : List Nat) (old new : Str) : Nat → Bool → Int → Int → Res (List Nat × Int × Int)
  | 0, _, p, plen => .ok ([], p, plen)
  | k + 1, first, p, plen => do
    let n ← nextCut b old first p plen
    let pre ← copyPos b p n
    let p := if n > 0 then p + n else p
    let (out, r) ← replaceLoop b old new k false (p + old.nbytes) (plen - (n + old.nbytes))
    return (pre ++ new.bytes ++ out, r)

/-- `B_strD_replace`, base/builtin/str.c:1278-1310. -/
def replace (s old new : Str) (cnt : Option Int) : Res Str := do
  let c ← count s old none none
  let cnt := cnt.getD (2^31 - 1)
  let c0 := wrap32 (if cnt < wrap32 c then cnt else wrap32 c)
  if c0 = 0 then return s
  else do
    let nbytes := wrap32 (s.nbytes + c0 * (new.nbytes - old.nbytes))
    let nchars := wrap32 (s.nchars + c0 * (new.nchars - old.nchars))
    let (out, p, plen) ← replaceLoop s.buf old new c0.toNat true 0 s.nbytes
    let rest ← copyPos s.buf p plen
    mkStr nchars nbytes (out ++ rest)

/-- Comparison loop of `B_strD_startswith`/`endswith`, base/builtin/str.c:1522-1526, 960-964:
`q` is the offset in `sub`, `n` bytes are left. -/
def prefixLoop (b c : List Nat) : Nat → Int → Int → Res Bool
  | 0, _, _ => .ok true
  | n + 1, p, q => do
    let x ← getB b p
    if x = 0 then return false
    else do
      let y ← getB c q
      if x ≠ y then return false else prefixLoop b c n (p + 1) (q + 1)

/-- `B_strD_startswith`, base/builtin/str.c:1515-1528. -/
def startswith (s sub : Str) (start stop : Option Int) : Res Bool :=
  match fixStartEnd s.nchars start stop with
  | none => .ok false
  | some (st, _) => do
    let p ← skipChars s.buf 0 st s.isascii
    prefixLoop s.buf sub.buf sub.nbytes.toNat p 0

/-- `B_strD_endswith`, base/builtin/str.c:952-966. -/
def endswith (s sub : Str) (start stop : Option Int) : Res Bool :=
  match fixStartEnd s.nchars start stop with
  | none => .ok false
  | some (st, en) =>
    if en - st < sub.nbytes then .ok false
    else do
      let p ← skipChars s.buf s.nbytes (en - s.nchars) s.isascii
      prefixLoop s.buf sub.buf sub.nbytes.toNat (p - sub.nbytes) 0

/-- `equal_bytes`, base/builtin/str.c:585-591. -/
def equalBytes (b c : List Nat) : Nat → Int → Int → Res Bool
  | 0, _, _ => .ok true
  | n + 1, p, q => do
    let x ← getB b p
    let y ← getB c q
    if x ≠ y then return false else equalBytes b c n (p + 1) (q + 1)

/-- Inner loop of `lstrip`/`rstrip`, base/builtin/str.c:1247-1252, 1500-1505: is the character
at `p` one of the `n` characters of `cs` from offset `q` on? -/
def memberLoop (b c : List Nat) (p : Int) : Nat → Int → Res Bool
  | 0, _ => .ok false
  | n + 1, q => do
    let l ← getB c q
    if ← equalBytes b c (blen2 l) p q then return true
    else memberLoop b c p n (q + blen2 l)

/-- Loop of `B_strD_lstrip`, base/builtin/str.c:1245-1255: `n` characters left, `i` stripped
so far; delivers the final `i` and `p`. -/
def lstripLoop (b : List Nat) (cs : Str) : Nat → Int → Int → Res (Int × Int)
  | 0, i, p => .ok (i, p)
  | n + 1, i, p => do
    if ← memberLoop b cs.buf p cs.nchars.toNat 0 then
      let c ← getB b p
      lstripLoop b cs n (i + 1) (p + blen2 c)
    else return (i, p)

/-- `B_strD_lstrip`, base/builtin/str.c:1239-1259. -/
def lstrip (s : Str) (cs : Option Str) : Res Str :=
  if s.nchars = 0 then .ok s
  else do
    let cs := cs.getD whitespaceStr
    let (i, p) ← lstripLoop s.buf cs s.nchars.toNat 0 0
    let r ← copy s.buf p (s.nbytes - p)
    mkStr (s.nchars - i) (s.nbytes - p) r

/-- Loop of `B_strD_rstrip`, base/builtin/str.c:1497-1507. -/
def rstripLoop (b : List Nat) (cs : Str) : Nat → Int → Int → Res (Int × Int)
  | 0, i, p => .ok (i, p)
  | n + 1, i, p => do
    let p ← skipBack b 1 p
    if ← memberLoop b cs.buf p cs.nchars.toNat 0 then rstripLoop b cs n (i + 1) p
    else return (i, p)

/-- `B_strD_rstrip`, base/builtin/str.c:1492-1513. -/
def rstrip (s : Str) (cs : Option Str) : Res Str :=
  if s.nchars = 0 then .ok s
  else do
    let cs := cs.getD whitespaceStr
    let (i, p) ← rstripLoop s.buf cs s.nchars.toNat 0 s.nbytes
    let p ← skipFwd s.buf 1 p
    let r ← copy s.buf 0 p
    mkStr (s.nchars - i) p r

/-- `B_strD_strip`, base/builtin/str.c:1531-1533. -/
def strip (s : Str) (cs : Option Str) : Res Str := do
  let r ← rstrip s cs
  lstrip r cs

/-- `mk_char`, base/builtin/str.c:573-583 (the table of one-byte strings holds the same
string). -/
def mkChar (b : List Nat) (p : Int) : Res Str := do
  let c ← getB b p
  let r ← copy b p (blen2 c)
  mkStr 1 (blen2 c) r

/-- `B_SliceableD_strD___getitem__`, base/builtin/str.c:1716-1721. -/
def getitem (s : Str) (i : Int) : Res Str := do
  let ix ← getIndex i s.nchars
  let p ← skipChars s.buf 0 ix s.isascii
  mkChar s.buf p

/-- `B_IteratorD_strD_next`, base/builtin/str.c:1692-1700: the next character and the new
position. -/
def next (s : Str) (nxt : Int) : Res (Str × Int) := do
  let c ← getB s.buf nxt
  if c ≠ 0 then do
    let r ← mkChar s.buf nxt
    return (r, nxt + blen2 c)
  else .raise .stopIteration

/-- A `for` loop over a string: call `next` until `StopIteration`. -/
def iterate (s : Str) : Nat → Int → Res (List Str)
  | 0, _ => .diverge
  | f + 1, nxt =>
    match next s nxt with
    | .ok (c, nxt') => do
      let r ← iterate s f nxt'
      return c :: r
    | .raise .stopIteration => .ok []
    | .raise e => .raise e
    | .ub => .ub
    | .diverge => .diverge

/-- Loop of `__getslice__`, base/builtin/str.c:1748-1755. -/
def sliceLoop (s : Str) (step : Int) : Nat → Int → Res (List Nat)
  | 0, _ => .ok []
  | n + 1, t => do
    let c ← getB s.buf t
    let bs ← copy s.buf t (blen2 c)
    let t ← skipChars s.buf (t + blen2 c) (wrap32 (step - 1)) s.isascii
    let r ← sliceLoop s step n t
    return bs ++ r

/-- `B_SliceableD_strD___getslice__`, base/builtin/str.c:1735-1761 (stack overflow by the
variable length buffer is not modelled; the buffer of `4*slen` bytes always suffices, as each
character has at most 4). -/
def getslice (s : Str) (slc : Slice.Slc) : Res Str := do
  let n ← Slice.normalizeSlice slc s.nchars
  if n.slen = 0 then return nullStr
  else do
    let t ← skipChars s.buf 0 n.start s.isascii
    let r ← sliceLoop s n.step n.slen.toNat t
    mkStr n.slen r.length r

/-- `B_TimesD_strD___add__`, base/builtin/str.c:1608-1614. -/
def add (s t : Str) : Res Str :=
  mkStr (wrap32 (s.nchars + t.nchars)) (wrap32 (s.nbytes + t.nbytes)) (s.bytes ++ t.bytes)

/-- `strcmp` on zero-terminated buffers; reading on past the end is undefined. -/
def strcmp : List Nat → List Nat → Res Int
  | x :: a, y :: b =>
    if x ≠ y then .ok (if x < y then -1 else 1)
    else if x = 0 then .ok 0
    else strcmp a b
  | _, _ => .ub

/-- `B_OrdD_strD___eq__`, base/builtin/str.c:1576-1578. -/
def eq (a b : Str) : Res Bool := do
  let c ← strcmp a.buf b.buf
  return decide (c = 0)

/-- `B_OrdD_strD___lt__`, base/builtin/str.c:1584-1586. -/
def lt (a b : Str) : Res Bool := do
  let c ← strcmp a.buf b.buf
  return decide (c < 0)

/-- `B_OrdD_strD___le__`, base/builtin/str.c:1588-1590. -/
def le (a b : Str) : Res Bool := do
  let c ← strcmp a.buf b.buf
  return decide (c ≤ 0)

end Verif.Str
