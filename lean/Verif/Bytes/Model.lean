import Verif.Str.Model
/-!
# Model of `bytes` (base/builtin/str.c:2868-3890)

A value is the list of its bytes; its buffer holds them and a terminating zero. Pointers into the buffer are offsets.
Lengths are `int`s.
-/
namespace Verif.Bytes
open Verif Verif.Search Verif.Str

abbrev Bytes := List Nat

/-- The buffer. -/
def buf (s : Bytes) : List Nat := s ++ [0]

/-- `NEW_UNFILLED_BYTES(res,n)`, str.c:340-345, then filled with `c`, which must be of that size. -/
def mk (n : Int) (c : List Nat) : Res Bytes := if n = c.length then .ok c else .ub

/-- `B_bytesD_find`, str.c:3119-3128, and `B_bytesD_rfind`, str.c:3462-3471. -/
def findWith (search : List Nat → List Nat → Res Int) (s sub : Bytes) (start stop : Option Int) : Res Int :=
  match fixStartEnd s.length start stop with
  | none => .ok (-1)
  | some (st, en) => do
    let n ← searchAt search (buf s) st (en - st) sub
    if n < 0 then return -1 else return n + st

def find : Bytes → Bytes → Option Int → Option Int → Res Int := findWith bmh
def rfind : Bytes → Bytes → Option Int → Option Int → Res Int := findWith rbmh

/-- `B_bytesD_index`, str.c:3199-3205. -/
def index (s sub : Bytes) (start stop : Option Int) : Res Int := do
  let n ← find s sub start stop
  if n < 0 then .raise .valueError else return n

/-- Loop of `B_bytesD_count`, str.c:3056-3061. -/
def countLoop (b : List Nat) (q : Int) (sub : Bytes) : Nat → Int → Int → Res Int
  | 0, _, _ => .diverge
  | f + 1, p, res => do
    let n ← searchAt bmh b p (q - p) sub
    if n ≥ 0 then countLoop b q sub f (p + n + (if sub.length > 0 then sub.length else 1)) (res + 1)
    else return res

/-- `B_bytesD_count`, str.c:3048-3063. -/
def count (s sub : Bytes) (start stop : Option Int) : Res Int :=
  match fixStartEnd s.length start stop with
  | none => .ok 0
  | some (st, en) => countLoop (buf s) en sub (s.length + 2) st 0

/-- The pieces of str.c:3391-3397, 3509-3515. -/
def cut (s sep : Bytes) (nb : Int) : Res (Bytes × Bytes × Bytes) := do
  let l ← copy (buf s) 0 nb
  let ls ← mk nb l
  let nbr := (s.length : Int) - sep.length - nb
  let r ← copy (buf s) (nb + sep.length) nbr
  let rs ← mk nbr r
  return (ls, sep, rs)

/-- `B_bytesD_partition`, str.c:3385-3400. -/
def partition (s sep : Bytes) : Res (Bytes × Bytes × Bytes) := do
  let n ← find s sep none none
  if n < 0 then return (s, [], [])
  else do
    let nb ← bmh s sep
    cut s sep nb

/-- `B_bytesD_rpartition`, str.c:3503-3518. -/
def rpartition (s sep : Bytes) : Res (Bytes × Bytes × Bytes) := do
  let n ← rfind s sep none none
  if n < 0 then return ([], [], s)
  else do
    let nb ← rbmh s sep
    cut s sep nb

/-- Loop of `B_bytesD_split` with a separator, str.c:3598-3603: the pieces, the last `ssep` (`none`: not initialised) and
the last `rs`. -/
def splitLoop (sep : Bytes) (maxsplit : Int) : Nat → Bytes → Option Bytes → Int → Res (List Bytes × Option Bytes × Bytes)
  | 0, _, _, _ => .diverge
  | f + 1, rs, ssep, len =>
    if rs.length > 0 ∧ len < maxsplit then do
      let t ← partition rs sep
      let r ← splitLoop sep maxsplit f t.2.2 (some t.2.1) (len + 1)
      return (t.1 :: r.1, r.2)
    else .ok ([], ssep, rs)

/-- The end of `B_bytesD_split`, str.c:3604-3606. -/
def splitEnd (r : List Bytes × Option Bytes × Bytes) : Res (List Bytes) :=
  match r.2.1 with
  | none => .ub
  | some x => if x.length > 0 then .ok (r.1 ++ [r.2.2]) else .ok r.1

/-- `B_bytesD_split` with a separator, str.c:3542-3545, 3587-3607. -/
def split (s sep : Bytes) (maxsplit : Option Int) : Res (List Bytes) :=
  if sep.length = 0 then .raise .valueError
  else if s.length = 0 then .ok [[]]
  else do
    let r ← splitLoop sep (splitMax maxsplit) (s.length + 1) s none 0
    splitEnd r

/-- The test of str.c:3555. -/
def isWs (c : Nat) : Bool := decide (c = 32 ∨ c = 9 ∨ c = 10 ∨ c = 13 ∨ c = 11 ∨ c = 12)

/-- The variables of the loop of `B_bytesD_split` without a separator, str.c:3552-3574; `q` is `none` before it is set. -/
structure Ws where
  p : Nat
  inword : Bool
  q : Option Nat
  res : List Bytes

/-- The bytes between the pointers, str.c:3567-3568. -/
def between (s : Bytes) (q : Option Nat) (p : Nat) : Res Bytes :=
  match q with
  | none => .ub
  | some q => do
    let w ← copy (buf s) q ((p : Int) - q)
    mk ((p : Int) - q) w

/-- The loop, str.c:3554-3574, on the bytes from `p`. -/
def wsLoop (s : Bytes) (max : Int) : List Nat → Ws → Res Ws
  | [], w => .ok w
  | c :: cs, w =>
    if ¬ isWs c then
      if ¬ w.inword then
        if (w.res.length : Int) = max then .ok { w with inword := true, q := some w.p }
        else wsLoop s max cs { w with inword := true, q := some w.p, p := w.p + 1 }
      else wsLoop s max cs { w with p := w.p + 1 }
    else if w.inword then do
      let x ← between s w.q w.p
      wsLoop s max cs { w with inword := false, res := w.res ++ [x], p := w.p + 1 }
    else wsLoop s max cs { w with p := w.p + 1 }

/-- What follows the loop, str.c:3575-3589; the two cases are exchanged. -/
def wsEnd (s : Bytes) (w : Ws) : Res (List Bytes) :=
  if w.p < s.length then
    if w.inword then do
      let x ← between s w.q w.p
      return w.res ++ [x]
    else .ok w.res
  else do
    let x ← between s w.q s.length
    return w.res ++ [x]

/-- `B_bytesD_split` without a separator, str.c:3542-3586. -/
def splitWs (s : Bytes) (maxsplit : Option Int) : Res (List Bytes) :=
  if s.length = 0 then .ok []
  else do
    let w ← wsLoop s (splitMax maxsplit) s ⟨0, false, none, []⟩
    wsEnd s w

/-- Loop of `B_bytesD_splitlines`, str.c:3622-3636: `q` is the start of the line, `p` the place of the head of the list.
The byte after a `\r` at the end is the terminating zero. -/
def linesLoop (s : Bytes) (keep : Bool) : List Nat → Nat → Nat → List Bytes → Res (List Bytes × Nat × Nat)
  | [], q, p, res => .ok (res, q, p)
  | 13 :: 10 :: cs, q, p, res => do
    let x ← between s (some q) (p + if keep then 2 else 0)
    linesLoop s keep cs (p + 2) (p + 2) (res ++ [x])
  | c :: cs, q, p, res =>
    if c ≠ 10 ∧ c ≠ 13 then linesLoop s keep cs q (p + 1) res
    else do
      let x ← between s (some q) (p + if keep then 1 else 0)
      linesLoop s keep cs (p + 1) (p + 1) (res ++ [x])

/-- `B_bytesD_splitlines`, str.c:3611-3643. -/
def splitlines (s : Bytes) (keep : Bool) : Res (List Bytes) :=
  if s.length = 0 then .ok []
  else do
    let r ← linesLoop s keep s 0 0 []
    if r.2.1 < r.2.2 then do
      let x ← between s (some r.2.1) r.2.2
      return r.1 ++ [x]
    else return r.1

/-- The bytes written by `B_bytesD_join` after the first element, str.c:3324-3329. -/
def joinTail (s : Bytes) : List Bytes → List Nat
  | [] => []
  | x :: xs => s ++ x ++ joinTail s xs

/-- `B_bytesD_join`, str.c:3303-3332: the size is an `int`. -/
def join (s : Bytes) (l : List Bytes) : Res Bytes :=
  mk (wrap32 ((l.map List.length).sum + (if l.length > 1 then ((l.length : Int) - 1) * s.length else 0)))
    (match l with
      | [] => []
      | x :: xs => x ++ joinTail s xs)

/-- The distance to the next replacement, str.c:3446. -/
def nextCut (b : List Nat) (old : Bytes) (first : Bool) (p plen : Int) : Res Int :=
  if !first ∧ old.length = 0 then .ok 1 else searchAt bmh b p plen old

/-- Loop of `B_bytesD_replace`, str.c:3445-3455: `k` rounds; the bytes written and the last `p`, `plen`. -/
def replaceLoop (b : List Nat) (old new : Bytes) : Nat → Bool → Int → Int → Res (List Nat × Int × Int)
  | 0, _, p, plen => .ok ([], p, plen)
  | k + 1, first, p, plen => do
    let n ← nextCut b old first p plen
    let pre ← copyPos b p n
    let p := if n > 0 then p + n else p
    let r ← replaceLoop b old new k false (p + old.length) (plen - (n + old.length))
    return (pre ++ new ++ r.1, r.2)

/-- `B_bytesD_replace`, str.c:3428-3459. -/
def replace (s old new : Bytes) (cnt : Option Int) : Res Bytes := do
  let c ← count s old none none
  let cnt := cnt.getD (2 ^ 31 - 1)
  let c0 := wrap32 (if cnt < c then cnt else c)
  if c0 = 0 then return s
  else do
    let r ← replaceLoop (buf s) old new c0.toNat true 0 s.length
    let rest ← copyPos (buf s) r.2.1 r.2.2
    mk (wrap32 (s.length + c0 * ((new.length : Int) - old.length))) (r.1 ++ rest)

/-- Loop of `B_bytesD_startswith`, str.c:3652-3656. -/
def startLoop (b c : List Nat) (en : Int) : Nat → Int → Int → Res Bool
  | 0, _, _ => .ok true
  | n + 1, p, q =>
    if p ≥ en then .ok false
    else do
      let x ← getB b p
      let y ← getB c q
      if x ≠ y then return false else startLoop b c en n (p + 1) (q + 1)

/-- `B_bytesD_startswith`, str.c:3645-3658. -/
def startswith (s sub : Bytes) (start stop : Option Int) : Res Bool :=
  match fixStartEnd s.length start stop with
  | none => .ok false
  | some (st, en) =>
    if sub.length > 0 ∧ st + sub.length > s.length then .ok false
    else startLoop (buf s) (buf sub) en sub.length st 0

/-- `B_bytesD_endswith`, str.c:3069-3081; the loop is that of `str`. -/
def endswith (s sub : Bytes) (start stop : Option Int) : Res Bool :=
  match fixStartEnd s.length start stop with
  | none => .ok false
  | some (_, en) => prefixLoop (buf s) (buf sub) sub.length (en - sub.length) 0

/-- `B_bytesD_removeprefix`, str.c:3403-3414. -/
def removeprefix (s p : Bytes) : Res Bytes :=
  let k := if p.length > s.length ∨ s.take p.length ≠ p then 0 else p.length
  mk ((s.length : Int) - k) (s.drop k)

/-- `B_bytesD_removesuffix`, str.c:3416-3427. -/
def removesuffix (s p : Bytes) : Res Bytes :=
  let k := if p.length > s.length ∨ s.drop (s.length - p.length) ≠ p then 0 else p.length
  mk ((s.length : Int) - k) (s.take (s.length - k))

/-- `whitespace_bytes`, str.c:310. -/
def whitespace : Bytes := [32, 9, 10, 13, 11, 12]

/-- Loop of `B_bytesD_lstrip`, str.c:3366-3378: `nstrip`. -/
def leading (cs : Bytes) : List Nat → Nat
  | [] => 0
  | c :: l => if c ∈ cs then leading cs l + 1 else 0

/-- `B_bytesD_lstrip`, str.c:3362-3383. -/
def lstrip (s : Bytes) (cs : Option Bytes) : Res Bytes :=
  let k := leading (cs.getD whitespace) s
  mk ((s.length : Int) - k) (s.drop k)

/-- `B_bytesD_rstrip`, str.c:3520-3540: the loop from the end. -/
def rstrip (s : Bytes) (cs : Option Bytes) : Res Bytes :=
  let k := leading (cs.getD whitespace) s.reverse
  mk ((s.length : Int) - k) (s.take (s.length - k))

/-- `B_bytesD_strip`, str.c:3661-3663. -/
def strip (s : Bytes) (cs : Option Bytes) : Res Bytes := do
  let r ← rstrip s cs
  lstrip r cs

/-- `tolower` and `toupper` of the C library for ASCII (the C locale). -/
def tolower (c : Nat) : Nat := if 65 ≤ c ∧ c ≤ 90 then c + 32 else c
def toupper (c : Nat) : Nat := if 97 ≤ c ∧ c ≤ 122 then c - 32 else c

/-- `B_bytesD_lower`, str.c:3354-3360, and `B_bytesD_upper`, str.c:3665-3672: the bytes are read from the new block, whose
content is `g`. -/
def lower (g : Nat → Nat) (s : Bytes) : Bytes := (List.range s.length).map (fun i => tolower (g i))
def upper (g : Nat → Nat) (s : Bytes) : Bytes := (List.range s.length).map (fun i => toupper (g i))

/-- `B_bytesD_capitalize`, str.c:3009-3019. -/
def capitalize : Bytes → Bytes
  | [] => []
  | c :: s => toupper c :: s.map tolower

/-- The fill byte of the three functions below. -/
def fillOf : Option Bytes → Res Nat
  | none => .ok 32
  | some [c] => .ok c
  | some _ => .raise .valueError

/-- `B_bytesD_ljust`, str.c:3334-3352; the width is converted to `int`. -/
def ljust (s : Bytes) (width : Int) (fill : Option Bytes) : Res Bytes := do
  let c ← fillOf fill
  if wrap32 width ≤ s.length then return s
  else mk (wrap32 width) (s ++ List.replicate (wrap32 width - s.length).toNat c)

/-- `B_bytesD_rjust`, str.c:3482-3501. -/
def rjust (s : Bytes) (width : Int) (fill : Option Bytes) : Res Bytes := do
  let c ← fillOf fill
  if wrap32 width ≤ s.length then return s
  else mk (wrap32 width) (List.replicate (wrap32 width - s.length).toNat c ++ s)

/-- `B_bytesD_center`, str.c:3021-3046: the left part is a copy of the beginning of the right one. -/
def center (s : Bytes) (width : Int) (fill : Option Bytes) : Res Bytes := do
  let c ← fillOf fill
  if wrap32 width ≤ s.length then return s
  else do
    let pad := wrap32 width - s.length
    let padleft := pad.tdiv 2
    let right := List.replicate (pad - padleft).toNat c
    let left ← copy right 0 padleft
    mk (wrap32 width) (left ++ s ++ right)

/-- `B_bytesD_zfill`, str.c:3674-3692. -/
def zfill (s : Bytes) (width : Int) : Res Bytes :=
  let fill := wrap32 (wrap32 width - s.length)
  if fill < 0 then .ok s
  else
    let hassign := if (buf s).headD 0 = 43 ∨ (buf s).headD 0 = 45 then 1 else 0
    mk (wrap32 width) (s.take hassign ++ List.replicate fill.toNat 48 ++ s.drop hassign)

/-- The inner loop of `B_bytesD_expandtabs`, str.c:3108-3111: its bound is computed anew from the byte at the moved
pointer. `cap` bytes of the array are left; the bytes written, and the new `p`, `pos` and `cap`. -/
def tabsChar (b : List Nat) : Nat → Nat → Nat → Nat → Nat → Res (List Nat × Nat × Nat × Nat)
  | 0, _, _, _, _ => .diverge
  | f + 1, j, p, pos, cap => do
    let c ← getB b (p : Int)
    if j < blen2 c then
      if cap = 0 then .ub
      else do
        let r ← tabsChar b f (j + 1) (p + 1) (pos + 1) (cap - 1)
        return (c :: r.1, r.2)
    else return ([], p, pos, cap)

/-- The outer loop, str.c:3094-3113, with `n` rounds left and the value of `expanded`: the bytes written and the last
`expanded`. -/
def tabsLoop (b : List Nat) (tabsize : Nat) : Nat → Nat → Nat → Nat → Int → Res (List Nat × Int)
  | 0, _, _, _, ex => .ok ([], ex)
  | n + 1, p, pos, cap, ex => do
    let c ← getB b (p : Int)
    if c = 9 then
      if cap < tabsize - pos % tabsize then .ub
      else do
        let r ← tabsLoop b tabsize n (p + 1) (pos + (tabsize - pos % tabsize)) (cap - (tabsize - pos % tabsize))
          (ex + (tabsize - pos % tabsize : Nat) - 1)
        return (List.replicate (tabsize - pos % tabsize) 32 ++ r.1, r.2)
    else if c = 10 ∨ c = 13 then
      if cap = 0 then .ub
      else do
        let r ← tabsLoop b tabsize n (p + 1) 0 (cap - 1) ex
        return (c :: r.1, r.2)
    else do
      let w ← tabsChar b 5 0 p pos cap
      let r ← tabsLoop b tabsize n w.2.1 w.2.2.1 w.2.2.2 ex
      return (w.1 ++ r.1, r.2)

/-- `B_bytesD_expandtabs`, str.c:3083-3117; `tabsize * nbytes` is an `int` product and the size of an array on the stack,
which must be positive. -/
def expandtabs (s : Bytes) (tabsz : Int) : Res Bytes :=
  if s.length = 0 then .ok []
  else do
    let tabsize := if wrap32 tabsz ≤ 0 then 1 else wrap32 tabsz
    if wrap32 (tabsize * s.length) ≤ 0 then .ub
    else do
      let r ← tabsLoop (buf s) tabsize.toNat s.length 0 0 (wrap32 (tabsize * s.length)).toNat 0
      let c ← copy r.1 0 (s.length + r.2)
      mk (s.length + r.2) c

/-- `__eq__`, str.c:3699-3706. -/
def eq (a b : Bytes) : Bool := a.length = b.length ∧ a = b

/-- `__lt__`, str.c:3712-3721. -/
def lt : Bytes → Bytes → Bool
  | [], b => decide (0 < b.length)
  | _ :: _, [] => false
  | x :: a, y :: b => if x = y then lt a b else decide (x < y)

/-- `__contains__`, str.c:3794-3803: the number is cut to a byte. -/
def contains (s : Bytes) (n : Int) : Bool := s.any (fun c => (c : Int) = n % 256)

/-- `__getitem__`, str.c:3811-3817. -/
def getitem (s : Bytes) (ix : Int) : Res Nat :=
  let i := if ix < 0 then s.length + ix else ix
  if i < 0 ∨ i ≥ s.length then .raise .indexError else getB (buf s) i

end Verif.Bytes
