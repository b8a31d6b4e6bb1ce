import Verif.Str.Seq
import Verif.Str.Replace
import Verif.Hex.Model
/-!
# Model of `quote` and `unquote` (base/src/uri.act)

The methods of `str` are those of `Verif.Str` and `Verif.Hex`. Simplifications: `bytes` and
`bytearray` objects are lists of bytes; the set `allowed` is the list of its elements, of which a
member is sought with `==` (`Verif.Set` has the hash table).
-/
namespace Verif.Uri
open Verif Verif.Search Verif.Str

/-- A `str` object with these ASCII characters. -/
def asciiStr (l : List Nat) : Str := ⟨l.length, l.length, l ++ [0]⟩

/-- `_UNRESERVED`, uri.act:2. -/
def unreserved : Str := asciiStr
  (((List.range 26).map (97 + ·)) ++ ((List.range 26).map (65 + ·)) ++ ((List.range 10).map (48 + ·)) ++ [45, 46, 95, 126])

/-- `_HEX_DIGITS`, uri.act:3. -/
def hexDigits : Str := asciiStr [48, 49, 50, 51, 52, 53, 54, 55, 56, 57, 65, 66, 67, 68, 69, 70]

/-- `c in allowed`. -/
def isIn (c : Str) : List Str → Res Bool
  | [] => .ok false
  | x :: xs => do
    let b ← eq c x
    if b then return true else isIn c xs

/-- `_quote_byte`, uri.act:57-58. -/
def quoteByte (b : Nat) : Res Str := do
  let h ← getitem hexDigits (b / 16 : Nat)
  let l ← getitem hexDigits (b % 16 : Nat)
  let x ← add (asciiStr [37]) h
  add x l

/-- The body of the loop of `quote`, uri.act:17-21. -/
def quotePart (allowed : List Str) (b : Nat) : Res Str :=
  if b < 128 then do
    let c ← Hex.chr b
    let r ← isIn c allowed
    if r then Hex.chr b else quoteByte b
  else quoteByte b

/-- The loop of `quote`, uri.act:16-21. -/
def quoteLoop (allowed : List Str) : List Nat → Res (List Str)
  | [] => .ok []
  | b :: bs => do
    let p ← quotePart allowed b
    let r ← quoteLoop allowed bs
    return p :: r

/-- `quote`, uri.act:6-23. `text.encode()` is a copy of the bytes, str.c:945-950. -/
def quote (text safe : Str) : Res Str := do
  let a ← add unreserved safe
  let allowed ← iterate a (a.buf.length + 1) 0
  let parts ← quoteLoop allowed text.bytes
  join nullStr parts

/-- The loop of `str_transform`, str.c:468-475, over `n` characters. `up` is `utf8proc_toupper`. -/
def transformLoop (up : Nat → Nat) : Nat → List Nat → Res (List Nat)
  | 0, _ => .ok []
  | n + 1, p => do
    match ← Hex.iterate p with
    | none => .ub
    | some (cp, k) => do
      let r ← transformLoop up n (p.drop k)
      return Hex.encodeChar (up cp) ++ r

/-- `B_strD_upper`, str.c:1535-1537, and `str_transform`, str.c:461-482. -/
def upper (up : Nat → Nat) (s : Str) : Res Str :=
  if s.nchars = 0 then .ok nullStr
  else do
    let b ← transformLoop up s.nchars.toNat s.buf
    mkStr s.nchars b.length b

/-- `_hex_value`, uri.act:61-65. -/
def hexValue (up : Nat → Nat) (c : Str) : Res Int := do
  let u ← upper up c
  let i ← find hexDigits u none none
  if i = -1 then .raise .valueError else return i

/-- A `bytearray` gets an `int`, str.c:2724-2729. -/
def toByte (v : Int) : Nat := (v % 256).toNat

/-- The escape at position `i`, uri.act:40-43. -/
def escapeAt (up : Nat → Nat) (text : Str) (i : Int) : Res Nat := do
  let _ ← getslice text ⟨some i, some (i + 3), none⟩
  let h ← getitem text (i + 1)
  let hi ← hexValue up h
  let l ← getitem text (i + 2)
  let lo ← hexValue up l
  return toByte (hi * 16 + lo)

/-- The loop of `unquote`, uri.act:31-44: the bytes from position `i` on. -/
def unquoteLoop (up : Nat → Nat) (text : Str) : Nat → Int → Res (List Nat)
  | 0, _ => .diverge
  | f + 1, i =>
    if i < text.nchars then do
      let c ← getitem text i
      let b ← eq c (asciiStr [37])
      if !b then do
        let r ← unquoteLoop up text f (i + 1)
        return c.bytes ++ r
      else if i + 2 ≥ text.nchars then .raise .valueError
      else do
        let x ← escapeAt up text i
        let r ← unquoteLoop up text f (i + 3)
        return x :: r
    else .ok []

/-- `unquote`, uri.act:26-49. `bytearray.decode()` is `to$str` of the buffer, which has a zero byte at
its end, str.c:1983-1985; `to$str` (str.c:347-390) gives what `to_str_noc` does. A `ValueError` is
raised again as a `ValueError`. -/
def unquote (up : Nat → Nat) (text : Str) : Res Str := do
  let b ← unquoteLoop up text (text.nchars.toNat + 1) 0
  Hex.toStrNoc (b ++ [0])

/-- What is assumed of `utf8proc_toupper`: the ASCII letters, and that no other character has a
hexadecimal digit as its upper case. -/
structure UpperOk (up : Nat → Nat) : Prop where
  ascii : ∀ c, c < 128 → up c = if 97 ≤ c ∧ c ≤ 122 then c - 32 else c
  other : ∀ c, 128 ≤ c → CodePoint (up c) ∧ ¬ (48 ≤ up c ∧ up c ≤ 57) ∧ ¬ (65 ≤ up c ∧ up c ≤ 70)

end Verif.Uri
