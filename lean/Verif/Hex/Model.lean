import Verif.Str.Model
/-!
# Model of `hex`, `bin`, `chr`, `ord`, `bytes.hex` and `bytes.from_hex` (base/builtin/str.c)

The library utf8proc is not part of the repository (deps/libutf8proc has only a build file). Its two
functions used here are modelled after its published source; they are part of the trusted base.
-/
namespace Verif.Hex
open Verif Verif.Search Verif.Str

/-- Value of a hexadecimal digit, str.c:3150-3158 and 3161-3169 (and str.c:2067-2086). A byte from
128 on is a negative `char` and matches no case. -/
def hexVal (c : Nat) : Res Nat :=
  if 48 ≤ c ∧ c ≤ 57 then .ok (c - 48)
  else if 97 ≤ c ∧ c ≤ 102 then .ok (c - 97 + 10)
  else if 65 ≤ c ∧ c ≤ 70 then .ok (c - 65 + 10)
  else .raise .valueError

/-- Loop of `from_hex`, str.c:3142-3173: `n` bytes left, at offset `i`. -/
def fromHexLoop (buf : List Nat) : Nat → Int → Res (List Nat)
  | 0, _ => .ok []
  | n + 1, i => do
    let high ← getB buf i
    let low ← getB buf (i + 1)
    let hv ← hexVal high
    let lv ← hexVal low
    let r ← fromHexLoop buf n (i + 2)
    return (hv * 16 + lv) :: r

/-- `B_bytesD_from_hex` (str.c:3130-3176) and `B_bytearrayD_from_hex` (str.c:2049-2093), as the list
of bytes. `(high_val << 4) | low_val` is written as a sum: `low_val` is below 16. -/
def fromHex (s : Str) : Res (List Nat) :=
  if s.nbytes = 0 then .ok []
  else if s.nbytes.tmod 2 ≠ 0 then .raise .valueError
  else fromHexLoop s.buf (s.nbytes.tdiv 2).toNat 0

/-- `hex_digits[d]`, str.c:3186 and 3968. -/
def hexDigit (d : Nat) : Nat := if d < 10 then 48 + d else 87 + d

/-- Filling the buffer in `hex`, str.c:3189-3193. -/
def hexBytes (b : List Nat) : List Nat := b.flatMap fun x => [hexDigit (x / 16), hexDigit (x % 16)]

/-- `utf8proc_iterate` with a negative length (utf8proc.c): decodes the code point at the start;
`none` is an error. At most four bytes are read, and only as long as they are continuation bytes. -/
def iterate : List Nat → Res (Option (Nat × Nat))
  | [] => .ub
  | uc :: r =>
    if uc < 0x80 then .ok (some (uc, 1))
    else if uc < 0xc2 ∨ 0xf4 < uc then .ok none
    else match r with
      | [] => .ub
      | c1 :: r =>
        if c1 / 64 ≠ 2 then .ok none
        else if uc < 0xe0 then .ok (some (uc % 32 * 64 + c1 % 64, 2))
        else match r with
          | [] => .ub
          | c2 :: r =>
            if c2 / 64 ≠ 2 then .ok none
            else if uc < 0xf0 then
              if uc = 0xed ∧ c1 > 0x9f then .ok none
              else if uc % 16 * 4096 + c1 % 64 * 64 + c2 % 64 < 0x800 then .ok none
              else .ok (some (uc % 16 * 4096 + c1 % 64 * 64 + c2 % 64, 3))
            else match r with
              | [] => .ub
              | c3 :: _ =>
                if c3 / 64 ≠ 2 then .ok none
                else if uc = 0xf0 ∧ c1 < 0x90 then .ok none
                else if uc = 0xf4 ∧ c1 > 0x8f then .ok none
                else .ok (some (uc % 8 * 262144 + c1 % 64 * 4096 + c2 % 64 * 64 + c3 % 64, 4))

/-- `strlen`: the bytes before the first zero byte. -/
def cstr : List Nat → Res (List Nat)
  | [] => .ub
  | c :: r => if c = 0 then .ok [] else do
    let l ← cstr r
    return c :: l

/-- The loop of `to_str_noc` that counts code points, str.c:411-423. -/
def countLoop : Nat → List Nat → Int → Res Int
  | 0, _, _ => .diverge
  | f + 1, p, n =>
    match p with
    | [] => .ub
    | c :: r =>
      if c = 0 then .ok n
      else do
        match ← iterate (c :: r) with
        | none => .raise .valueError
        | some (_, k) => countLoop f ((c :: r).drop k) (n + 1)

/-- `to_str_noc`, str.c:393-426, of the memory from the given pointer on. -/
def toStrNoc (mem : List Nat) : Res Str := do
  let l ← cstr mem
  if l.all (· < 0x80) then return ⟨l.length, l.length, l ++ [0]⟩
  else do
    let n ← countLoop (mem.length + 1) mem 0
    return ⟨n, l.length, l ++ [0]⟩

/-- `B_bytesD_hex`, str.c:3178-3197 (`B_bytearrayD_hex`, str.c:2095-2112). The block holds the digits
only, no terminating zero; `after` is what happens to be in memory behind them. -/
def hexOfBytes (b after : List Nat) : Res Str :=
  if b = [] then .ok nullStr else toStrNoc (hexBytes b ++ after)

/-- The tests `if (u & mask) { u >>= s; n += k; }` in `B_hex` and `B_bin`. -/
def narrow (mask s k : Nat) (un : Nat × Nat) : Nat × Nat :=
  if un.1 &&& mask ≠ 0 then (un.1 >>> s, un.2 + k) else un

/-- Number of hexadecimal digits, str.c:3971-3983. -/
def nhexs (u : Nat) : Nat :=
  (narrow 0xf0 4 1 (narrow 0xff00 8 2 (narrow 0xffff0000 16 4 (narrow 0xffffffff00000000 32 8 (u, 1))))).2

/-- Number of bits, str.c:3914-3933. -/
def nbits (u : Nat) : Nat :=
  (narrow 0x2 1 1 (narrow 0xc 2 2 (narrow 0xf0 4 4 (narrow 0xff00 8 8 (narrow 0xffff0000 16 16
    (narrow 0xffffffff00000000 32 32 (u, 1))))))).2

/-- `hexdigits[(u>>(4*i)) & 0xf]` for `i = n-1, …, 0`, str.c:3995-3997. -/
def hexDigits (u : Nat) : Nat → List Nat
  | 0 => []
  | i + 1 => hexDigit ((u >>> (4 * i)) &&& 0xf) :: hexDigits u i

/-- `u & (1L << i) ? '1' : '0'` for `i = n-1, …, 0`, str.c:3944-3946. -/
def binDigits (u : Nat) : Nat → List Nat
  | 0 => []
  | i + 1 => (if u &&& (1 <<< i) ≠ 0 then 49 else 48) :: binDigits u i

/-- The sign, str.c:3937-3939 and 3988-3990. -/
def signBytes (v : Int) : List Nat := if v < 0 then [45] else []

/-- `B_hex`, str.c:3967-3999, for the value `v` of type `long`. `labs` of the least value wraps to
itself, which is `2^63` as an `unsigned long`: the absolute value in all cases. -/
def hex (v : Int) : Res Str :=
  mkStr ((signBytes v).length + 2 + nhexs v.natAbs) ((signBytes v).length + 2 + nhexs v.natAbs)
    (signBytes v ++ [48, 120] ++ hexDigits v.natAbs (nhexs v.natAbs))

/-- `B_bin`, str.c:3911-3948. -/
def bin (v : Int) : Res Str :=
  mkStr ((signBytes v).length + 2 + nbits v.natAbs) ((signBytes v).length + 2 + nbits v.natAbs)
    (signBytes v ++ [48, 98] ++ binDigits v.natAbs (nbits v.natAbs))

/-- `utf8proc_encode_char` (utf8proc.c): `[]` for a number that is no code point. Surrogates are
encoded. -/
def encodeChar (uc : Int) : List Nat :=
  if uc < 0 then []
  else if uc < 0x110000 then enc1 uc.toNat
  else []

/-- `B_chr`, str.c:3950-3965. The table of ASCII strings has the one-byte strings. -/
def chr (v : Int) : Res Str :=
  if v ≥ 0x110000 then .raise .valueError
  else if v > 0 ∧ v < 128 then .ok ⟨1, 1, [v.toNat, 0]⟩
  else
    let code := encodeChar (wrap32 v)
    if code = [] then .raise .valueError
    else mkStr 1 code.length code

/-- `B_ord`, str.c:4001-4009. -/
def ord (c : Str) : Res Int :=
  if c.nchars ≠ 1 then .raise .valueError
  else do
    match ← iterate c.buf with
    | none => .raise .valueError
    | some (cp, _) => return (cp : Int)

end Verif.Hex
