import Verif.Common
/-!
# Model of `fs.glob`

base/src/fs.act, lines 15-175. Strings are lists of code points; what the methods of `str` do on such lists is proved of
their C code elsewhere (C09 for `find`, C10 for `split`, C11 for indexing and slices); `Verif/Glob/Link.lean` connects the
functions below to it. Not modelled: the depth of the C stack (every call of `_glob_recursive` may recurse), and strings of
2^31 bytes or more.
-/
namespace Verif.Glob
open Verif

abbrev Text := List Nat

/-- `t[i]` for `i ≥ 0`, str.c (C11). -/
def at_ (t : Text) (i : Nat) : Res Nat :=
  match t[i]? with
  | some c => .ok c
  | none => .raise .indexError

/-- `i < len(t) and t[i] == x`, for a string `x`. -/
def isAt (t : Text) (i : Nat) (x : Text) : Res Bool :=
  if i < t.length then (at_ t i).bind fun c => .ok (decide ([c] = x)) else .ok false

/-- `i + 1 < len(t) and t[i] == '-'`. -/
def dashAt (t : Text) (i : Nat) : Res Bool :=
  if i + 1 < t.length then (at_ t i).bind fun c => .ok (decide (c = 45)) else .ok false

/-- `sub` stands at position `k`. -/
def here (t sub : Text) (k : Nat) : Bool := decide ((t.drop k).take sub.length = sub)

/-- `t.find(sub, i)` for `i ≥ 0`, str.c:1004-1014 (C09). -/
def findFrom (t sub : Text) (i : Nat) : Int :=
  match (List.range' i (t.length + 1 - i)).find? (here t sub) with
  | some k => k
  | none => -1

/-- `t.split(',')`, str.c (C10). -/
def splitComma : Text → List Text
  | [] => [[]]
  | c :: t =>
    if c = 44 then [] :: splitComma t
    else match splitComma t with
      | [] => [[c]]
      | a :: l => (c :: a) :: l

/-- fs.act:129-144: the loop over a character class. -/
def classLoop (cls : Text) (c : Nat) : Nat → Nat → Res Bool
  | 0, _ => .diverge
  | n + 1, i => do
    if i < cls.length then
      if ← dashAt cls (i + 1) then
        let lo ← at_ cls i
        let hi ← at_ cls (i + 2)
        if lo ≤ c ∧ c ≤ hi then return true else classLoop cls c n (i + 3)
      else
        let x ← at_ cls i
        if x = c then return true else classLoop cls c n (i + 1)
    else return false

/-- A call of `_glob_recursive` for the same path and separator: pattern, `p_idx`, `s_idx`. -/
abbrev Call := Text → Nat → Nat → Res Bool

/-- fs.act:74-78: the rest of the pattern at every position from here on. -/
def dirsLoop (call : Call) (pat : Text) (next : Nat) : List Nat → Res Bool
  | [] => return false
  | i :: l => do if ← call pat next i then return true else dirsLoop call pat next l

/-- fs.act:162-168: every option of a brace expression in its place. -/
def optLoop (call : Call) (pat : Text) (p close : Nat) : List Text → Res Bool
  | [] => return false
  | o :: l => do
    if ← call (pat.take p ++ o ++ pat.drop (close + 1)) 0 0 then return true else optLoop call pat p close l

/-- `a or b`, where `b` is only evaluated if needed. -/
def orElse (a : Res Bool) (b : Unit → Res Bool) : Res Bool := do if ← a then return true else b ()

/-- fs.act:172-175, and 109, 157: a literal character. -/
def literal (call : Call) (pat : Text) (p : Nat) (path : Text) (s : Nat) : Res Bool := do
  if s < path.length then
    let a ← at_ pat p
    let b ← at_ path s
    if a = b then call pat (p + 1) (s + 1) else return false
  else return false

/-- fs.act:58-63: a backslash before another character. -/
def escaped (call : Call) (pat : Text) (p : Nat) (path : Text) (s : Nat) : Res Bool := do
  if s < path.length then
    let a ← at_ pat (p + 1)
    let b ← at_ path s
    if a = b then call pat (p + 2) (s + 1) else return false
  else return false

/-- fs.act:65-82: `**`. -/
def dstar (call : Call) (sep pat : Text) (p : Nat) (path : Text) (s : Nat) : Res Bool := do
  if ← isAt pat (p + 2) sep then dirsLoop call pat (p + 3) (List.range' s (path.length + 1 - s))
  else orElse (call pat (p + 2) s) fun _ => if s < path.length then call pat p (s + 1) else return false

/-- fs.act:91-93. -/
def nextSep (sep path : Text) (s : Nat) : Int :=
  if findFrom path sep s = -1 then path.length else findFrom path sep s

/-- fs.act:84-98: `*`. (`next_sep_pattern` is computed but not used.) -/
def star (call : Call) (sep pat : Text) (p : Nat) (path : Text) (s : Nat) : Res Bool :=
  orElse (call pat (p + 1) s) fun _ =>
    if s < path.length ∧ (s : Int) < nextSep sep path s then call pat p (s + 1) else return false

/-- fs.act:119-122: the class without the mark of negation. -/
def negated (cls : Text) : Bool := cls.head? = some 33 || cls.head? = some 94
def unmarked (cls : Text) : Text := if negated cls then cls.drop 1 else cls

/-- fs.act:111-151: the character class between `p` and `close`. -/
def charClass (call : Call) (pat : Text) (p close : Nat) (path : Text) (s : Nat) : Res Bool := do
  if s ≥ path.length then return false
  else
    let cls := (pat.take close).drop (p + 1)
    let c ← at_ path s
    let m ← classLoop (unmarked cls) c ((unmarked cls).length + 1) 0
    if m != negated cls then call pat (close + 1) (s + 1) else return false

/-- fs.act:104-151. -/
def bracket (call : Call) (pat : Text) (p : Nat) (path : Text) (s : Nat) : Res Bool :=
  if findFrom pat [93] (p + 1) = -1 then literal call pat p path s
  else charClass call pat p (findFrom pat [93] (p + 1)).toNat path s

/-- fs.act:153-170. -/
def brace (call : Call) (pat : Text) (p : Nat) (path : Text) (s : Nat) : Res Bool :=
  if findFrom pat [125] (p + 1) = -1 then literal call pat p path s
  else
    let close := (findFrom pat [125] (p + 1)).toNat
    optLoop call pat p close (splitComma ((pat.take close).drop (p + 1)))

/-- fs.act:65: `pattern[p_idx:p_idx+2] == '**'` where both positions exist. -/
def twoStars (pat : Text) (p : Nat) : Bool := p + 1 < pat.length && (pat.take (p + 2)).drop p = [42, 42]

/-- `_glob_recursive`, fs.act:39-175: one call. -/
def body (call : Call) (sep pat : Text) (p : Nat) (path : Text) (s : Nat) : Res Bool := do
  if p = pat.length then return decide (s = path.length)
  else
    let c ← at_ pat p
    if p + 1 < pat.length ∧ c = 92 then escaped call pat p path s
    else if twoStars pat p then dstar call sep pat p path s
    else if c = 42 then star call sep pat p path s
    else if c = 63 then (if s < path.length then call pat (p + 1) (s + 1) else return false)
    else if c = 91 ∧ p + 1 < pat.length then bracket call pat p path s
    else if c = 123 ∧ p + 1 < pat.length then brace call pat p path s
    else literal call pat p path s

/-- The recursion; the number bounds its depth. -/
def rec_ (sep path : Text) : Nat → Call
  | 0 => fun _ _ _ => .diverge
  | n + 1 => fun pat p s => body (rec_ sep path n) sep pat p path s

/-- A depth that always suffices (`C74_total`). -/
def depth (pat path : Text) : Nat := (pat.length + 1) * (pat.length + path.length + 3)

/-- `glob`, fs.act:15-37; `sep` is the separator, by default `fs.sep`, which is "/". -/
def glob (pat path sep : Text) : Res Bool := rec_ sep path (depth pat path) pat 0 0

end Verif.Glob
