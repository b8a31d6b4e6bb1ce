import Verif.Common
/-!
# Model of the module `json` (base/src/json.ext.c, base/src/json.act) and of the writer and reader that
it calls (deps/libyyjson/yyjson.c)

A text is a list of code points; the text of a floating-point number is one element of it, so that how
digits of such numbers are found is left out. The UTF-8 form of texts, memory, and the depth of the C
stack are left out. yyjson writes and reads with loops and a stack of containers; the functions here
recurse over the document.
-/
namespace Verif.Json
open Verif

/-- A string: its code points. -/
abbrev Str := List Nat

/-- The classes of integers (`INT_ID`, `I8_ID`, …, json.ext.c:45-96). `I64_ID` is treated as `INT_ID`. -/
inductive Kind
  | int | i8 | i16 | i32 | u1 | u8 | u16 | u32 | u64 | bigint
  deriving DecidableEq, Repr

/-- Floating-point numbers: the finite ones, by their bit patterns, and the others. -/
inductive Fl
  | fin (bits : Nat) | inf | ninf | nan
  deriving DecidableEq, Repr

/-- The values of Acton, `?value`. A `dict` is the list of its items in order of insertion
(see `Verif.Dict`); `other` is a value of any further class. -/
inductive V
  | none
  | bool (b : Bool)
  | int (k : Kind) (n : Int)
  | float (f : Fl)
  | str (s : Str)
  | list (l : List V)
  | dict (d : List (Str × V))
  | other

/-- A document: `yyjson_mut_val`, `yyjson_val`. The integers of the subtypes `UINT`, `SINT` and of the
type `RAW` are all `num`: the text does not tell them apart. `huge` is the text of a number with a
decimal point or exponent that is beyond the range of `double`. -/
inductive D
  | null
  | bool (b : Bool)
  | num (n : Int)
  | real (f : Fl)
  | huge
  | str (s : Str)
  | arr (l : List D)
  | obj (d : List (Str × D))

/-! ## Encoding -/

/-- A string as C sees it: it ends at the first NUL. `fromB_str` (str.c), `yyjson_mut_str` (yyjson.h,
`strlen`), `to$str` (str.c:350-362). -/
def cstr (s : Str) : Str := s.takeWhile (fun c => decide (c ≠ 0))

/-- The decimal digits of a number, as code points. -/
def digits : Nat → Nat → Str
  | 0, _ => []
  | f + 1, n => if n < 10 then [48 + n] else digits f (n / 10) ++ [48 + n % 10]

/-- `get_str` (bigint.c), `write_num` for integers (yyjson.c). -/
def decimal (n : Int) : Str :=
  if n < 0 then 45 :: digits (n.natAbs + 1) n.natAbs else digits (n.natAbs + 1) n.natAbs

/-- An integer: `yyjson_mut_…_add_int`, `yyjson_mut_…_add_uint`, and `jsonQ_encode_bigint`
(json.ext.c:27-32). -/
def encInt (asStr : Bool) (k : Kind) (n : Int) : D :=
  if k = .bigint ∧ asStr = true then .str (decimal n) else .num n

mutual
/-- One value: the cases of `jsonQ_encode_dict` (json.ext.c:43-106) and of `jsonQ_encode_list_into`
(json.ext.c:113-182), which are the same. -/
def enc (asStr : Bool) : V → Res D
  | .none => .ok .null
  | .bool b => .ok (.bool b)
  | .int k n => .ok (encInt asStr k n)
  | .float f => .ok (.real f)
  | .str s => .ok (.str (cstr s))
  | .list l => do let x ← encL asStr l; return .arr x
  | .dict d => do let x ← encD asStr d; return .obj x
  | .other => .raise .valueError

/-- `jsonQ_encode_list_into`, json.ext.c:110-184. -/
def encL (asStr : Bool) : List V → Res (List D)
  | [] => .ok []
  | v :: l => do let x ← enc asStr v; let y ← encL asStr l; return x :: y

/-- `jsonQ_encode_dict`, json.ext.c:35-108. Keys are added without regard to those present. -/
def encD (asStr : Bool) : List (Str × V) → Res (List (Str × D))
  | [] => .ok []
  | (k, v) :: l => do let x ← enc asStr v; let y ← encD asStr l; return (cstr k, x) :: y
end

/-! ## Writing -/

/-- An element of a text: a code point, the text of a finite floating-point number, or the text of a
number with a decimal point or exponent beyond the range of `double`. -/
inductive T
  | ch (c : Nat)
  | real (bits : Nat)
  | huge
  deriving DecidableEq, Repr

/-- Code points as a text. -/
def w (s : Str) : List T := s.map .ch

/-- An upper case hexadecimal digit (`esc_hex_char_table`, yyjson.c:8442). -/
def hexDigit (n : Nat) : Nat := if n < 10 then 48 + n else 55 + n

/-- The text of a character in a string: `write_str` (yyjson.c:8641) with the tables `enc_table_cpy`
(8357) and `esc_single_char_table` (8511). -/
def escape (c : Nat) : Str :=
  if c = 34 then [92, 34]
  else if c = 92 then [92, 92]
  else if c = 8 then [92, 98]
  else if c = 9 then [92, 116]
  else if c = 10 then [92, 110]
  else if c = 12 then [92, 102]
  else if c = 13 then [92, 114]
  else if c < 32 then [92, 117, 48, 48, hexDigit (c / 16), hexDigit (c % 16)]
  else [c]

/-- A string in quotes. -/
def quote (s : Str) : List T := .ch 34 :: w (s.flatMap escape) ++ [.ch 34]

/-- A new line and the indentation, with `YYJSON_WRITE_PRETTY` (`write_indent`). -/
def line (p : Bool) (lvl : Nat) : List T := if p then w (10 :: List.replicate (4 * lvl) 32) else []

/-- What stands between a key and its value. -/
def colon (p : Bool) : List T := if p then w [58, 32] else w [58]

mutual
/-- One value at a level of indentation: `yyjson_mut_write_minify` (yyjson.c:9606-9783),
`yyjson_mut_write_pretty` (9793-9990), and `yyjson_mut_write_single` for an empty root. -/
def wr (p : Bool) (lvl : Nat) : D → List T
  | .null => w [110, 117, 108, 108]
  | .bool true => w [116, 114, 117, 101]
  | .bool false => w [102, 97, 108, 115, 101]
  | .num n => w (decimal n)
  | .real (.fin b) => [.real b]
  | .real _ => []
  | .huge => []
  | .str s => quote s
  | .arr [] => w [91, 93]
  | .arr (v :: l) => .ch 91 :: line p (lvl + 1) ++ wr p (lvl + 1) v ++ wrL p lvl l
  | .obj [] => w [123, 125]
  | .obj ((k, v) :: l) =>
    .ch 123 :: line p (lvl + 1) ++ quote k ++ colon p ++ wr p (lvl + 1) v ++ wrD p lvl l

/-- The further elements of an array. -/
def wrL (p : Bool) (lvl : Nat) : List D → List T
  | [] => line p lvl ++ [.ch 93]
  | v :: l => .ch 44 :: line p (lvl + 1) ++ wr p (lvl + 1) v ++ wrL p lvl l

/-- The further members of an object. -/
def wrD (p : Bool) (lvl : Nat) : List (Str × D) → List T
  | [] => line p lvl ++ [.ch 125]
  | (k, v) :: l => .ch 44 :: line p (lvl + 1) ++ quote k ++ colon p ++ wr p (lvl + 1) v ++ wrD p lvl l
end

mutual
/-- Whether the document can be written: `write_inf_or_nan` (yyjson.c:7720-7738) gives NULL. -/
def writable : D → Bool
  | .real (.fin _) => true
  | .real _ => false
  | .arr l => writableL l
  | .obj d => writableD d
  | _ => true

def writableL : List D → Bool
  | [] => true
  | v :: l => writable v && writableL l

def writableD : List (Str × D) → Bool
  | [] => true
  | (_, v) :: l => writable v && writableD l
end

/-- `yyjson_mut_write_opts`: the text or NULL. -/
def write (p : Bool) (d : D) : Option (List T) := if writable d then some (wr p 0 d) else none

/-- `to$str` of the result (json.ext.c:368, 386) reads the text; NULL is not tested for. -/
def toStr : Option (List T) → Res (List T)
  | some t => .ok t
  | none => .ub

/-- `jsonQ__encode`, json.ext.c:353-369. -/
def encode (p asStr : Bool) (d : List (Str × V)) : Res (List T) := do
  let x ← encD asStr d
  toStr (write p (.obj x))

/-- `jsonQ__encode_list`, json.ext.c:371-387. -/
def encodeList (p asStr : Bool) (l : List V) : Res (List T) := do
  let x ← encL asStr l
  toStr (write p (.arr x))

/-! ## Reading -/

/-- White space (`char_is_space`, yyjson.c). -/
def isSpace (c : Nat) : Bool := decide (c = 32 ∨ c = 9 ∨ c = 10 ∨ c = 13)

def skip : List T → List T
  | .ch c :: r => if isSpace c then skip r else .ch c :: r
  | ts => ts

def isDigit (c : Nat) : Bool := decide (48 ≤ c ∧ c ≤ 57)

/-- The digits of a number. -/
def rdDigits (acc : Nat) : List T → Nat × List T
  | .ch c :: r => if isDigit c then rdDigits (acc * 10 + (c - 48)) r else (acc, .ch c :: r)
  | ts => (acc, ts)

/-- A number without sign, `read_num` (yyjson.c:3885-4053): no zero in front, and no decimal point or
exponent behind, which would make it the text of a floating-point number. -/
def rdNat : List T → Option (Nat × List T)
  | .ch c :: r =>
    if c = 48 then
      match r with
      | .ch c' :: r' => if isDigit c' then none else some (0, .ch c' :: r')
      | r => some (0, r)
    else if isDigit c then some (rdDigits (c - 48) r) else none
  | _ => none

/-- A hexadecimal digit (yyjson.c:1020). -/
def hexVal : T → Option Nat
  | .ch c =>
    if 48 ≤ c ∧ c ≤ 57 then some (c - 48)
    else if 65 ≤ c ∧ c ≤ 70 then some (c - 55)
    else if 97 ≤ c ∧ c ≤ 102 then some (c - 87)
    else none
  | _ => none

/-- Four hexadecimal digits. -/
def rdHex4 : List T → Option (Nat × List T)
  | a :: b :: c :: d :: r => do
    let a ← hexVal a; let b ← hexVal b; let c ← hexVal c; let d ← hexVal d
    return (((a * 16 + b) * 16 + c) * 16 + d, r)
  | _ => none

/-- The single-character escapes. -/
def unescape (c : Nat) : Option Nat :=
  if c = 34 then some 34
  else if c = 92 then some 92
  else if c = 47 then some 47
  else if c = 98 then some 8
  else if c = 102 then some 12
  else if c = 110 then some 10
  else if c = 114 then some 13
  else if c = 116 then some 9
  else none

/-- `\uXXXX`, and the second half of a surrogate pair (`read_str`, yyjson.c). -/
def rdUni (ts : List T) : Option (Nat × List T) :=
  match rdHex4 ts with
  | none => none
  | some (u, r) =>
    if u < 0xD800 ∨ 0xDFFF < u then some (u, r)
    else if 0xDC00 ≤ u then none
    else match r with
      | .ch 92 :: .ch 117 :: r' =>
        match rdHex4 r' with
        | none => none
        | some (v, r'') =>
          if 0xDC00 ≤ v ∧ v ≤ 0xDFFF then some (0x10000 + (u - 0xD800) * 0x400 + (v - 0xDC00), r'')
          else none
      | _ => none

/-- One character of a string; `none` inside at the closing quote. -/
def rdChar : List T → Option (Option Nat × List T)
  | .ch c :: r =>
    if c = 34 then some (none, r)
    else if c = 92 then
      match r with
      | .ch e :: r' =>
        if e = 117 then
          match rdUni r' with
          | some (u, r'') => some (some u, r'')
          | none => none
        else
          match unescape e with
          | some u => some (some u, r')
          | none => none
      | _ => none
    else if c < 32 then none
    else some (some c, r)
  | _ => none

/-- The rest of a string behind its opening quote. The first argument bounds the recursion. -/
def rdStr : Nat → List T → Option (Str × List T)
  | 0, _ => none
  | f + 1, ts =>
    match rdChar ts with
    | none => none
    | some (none, r) => some ([], r)
    | some (some c, r) =>
      match rdStr f r with
      | none => none
      | some (s, r') => some (c :: s, r')

/-- The rest behind the character `c`. -/
def expect (c : Nat) : List T → Option (List T)
  | .ch d :: r => if d = c then some r else none
  | _ => none

/-- A string with its opening quote, the colon behind it and white space, as a key. -/
def rdKey (f : Nat) (ts : List T) : Option (Str × List T) :=
  match expect 34 ts with
  | none => none
  | some r =>
    match rdStr f r with
    | none => none
    | some (k, r') =>
      match expect 58 (skip r') with
      | some r'' => some (k, skip r'')
      | none => none

mutual
/-- A value (`read_root_pretty`, `read_root_minify` of yyjson.c). The first argument bounds the
recursion. -/
def rd : Nat → List T → Option (D × List T)
  | 0, _ => none
  | _ + 1, .ch 110 :: .ch 117 :: .ch 108 :: .ch 108 :: r => some (.null, r)
  | _ + 1, .ch 116 :: .ch 114 :: .ch 117 :: .ch 101 :: r => some (.bool true, r)
  | _ + 1, .ch 102 :: .ch 97 :: .ch 108 :: .ch 115 :: .ch 101 :: r => some (.bool false, r)
  | _ + 1, .real b :: r => some (.real (.fin b), r)
  | _ + 1, .huge :: r => some (.huge, r)
  | f + 1, .ch 34 :: r =>
    match rdStr f r with
    | none => none
    | some (s, r') => some (.str s, r')
  | f + 1, .ch 91 :: r =>
    match expect 93 (skip r) with
    | some r' => some (.arr [], r')
    | none =>
      match rdL f (skip r) with
      | none => none
      | some (l, r'') => some (.arr l, r'')
  | f + 1, .ch 123 :: r =>
    match expect 125 (skip r) with
    | some r' => some (.obj [], r')
    | none =>
      match rdD f (skip r) with
      | none => none
      | some (l, r'') => some (.obj l, r'')
  | _ + 1, .ch 45 :: r =>
    match rdNat r with
    | none => none
    | some (n, r') => some (.num (-(n : Int)), r')
  | _ + 1, r =>
    match rdNat r with
    | none => none
    | some (n, r') => some (.num n, r')

/-- The elements of an array and its closing bracket. -/
def rdL : Nat → List T → Option (List D × List T)
  | 0, _ => none
  | f + 1, ts =>
    match rd f ts with
    | none => none
    | some (v, r) =>
      match expect 93 (skip r) with
      | some r' => some ([v], r')
      | none =>
        match expect 44 (skip r) with
        | none => none
        | some r' =>
          match rdL f (skip r') with
          | none => none
          | some (l, r'') => some (v :: l, r'')

/-- The members of an object and its closing brace. -/
def rdD : Nat → List T → Option (List (Str × D) × List T)
  | 0, _ => none
  | f + 1, ts =>
    match rdKey f ts with
    | none => none
    | some (k, r0) =>
      match rd f r0 with
      | none => none
      | some (v, r) =>
        match expect 125 (skip r) with
        | some r' => some ([(k, v)], r')
        | none =>
          match expect 44 (skip r) with
          | none => none
          | some r' =>
            match rdD f (skip r') with
            | none => none
            | some (l, r'') => some ((k, v) :: l, r'')
end

/-- `yyjson_read_opts`: one value and nothing but white space around it. -/
def read (ts : List T) : Option D :=
  match rd (ts.length + 1) (skip ts) with
  | some (d, r) => if skip r = [] then some d else none
  | none => none

/-! ## Decoding -/

/-- `jsonQ_decode_integer`, json.ext.c:188-208. The reader gives `UINT` for the numbers from 0 below
2^64, `SINT` for the negative ones from -2^63, and `RAW` for the others (yyjson.c:3964-4053). -/
def decInt (n : Int) : V :=
  if n < -2 ^ 63 ∨ 2 ^ 64 ≤ n then .int .bigint n
  else if 2 ^ 63 ≤ n then .int .u64 n
  else .int .int n

/-- `B_dictD_setitem`: replace the value of a key that is there, or add an item (see `Verif.Dict`). -/
def setitem (k : Str) (v : V) : List (Str × V) → List (Str × V)
  | [] => [(k, v)]
  | (j, u) :: l => if j = k then (j, v) :: l else (j, u) :: setitem k v l

mutual
/-- One value: the cases of `jsonQ_decode_obj` (json.ext.c:220-257) and `jsonQ_decode_arr` (269-306). -/
def dec : D → Res V
  | .null => .ok .none
  | .bool b => .ok (.bool b)
  | .num n => .ok (decInt n)
  | .real f => .ok (.float f)
  | .huge => .raise .valueError
  | .str s => .ok (.str (cstr s))
  | .arr l => do let x ← decL l; return .list x
  | .obj d => do let x ← decD [] d; return .dict x

/-- `jsonQ_decode_arr`, json.ext.c:262-309. -/
def decL : List D → Res (List V)
  | [] => .ok []
  | v :: l => do let x ← dec v; let y ← decL l; return x :: y

/-- `jsonQ_decode_obj`, json.ext.c:210-260; the first argument is the dictionary so far. -/
def decD (acc : List (Str × V)) : List (Str × D) → Res (List (Str × V))
  | [] => .ok acc
  | (k, v) :: l => do let x ← dec v; decD (setitem (cstr k) x acc) l
end

/-- The text that is read ends at the first NUL (`strlen`, json.ext.c:314, 335). -/
def cut (ts : List T) : List T := ts.takeWhile (fun t => decide (t ≠ .ch 0))

/-- `jsonQ__decode`, json.ext.c:311-330. The iterator over a root that is no object is empty
(yyjson.h:5508-5519). -/
def decode (ts : List T) : Res (List (Str × V)) :=
  match read (cut ts) with
  | none => .raise .valueError
  | some (.obj d) => decD [] d
  | some _ => .ok []

/-- `jsonQ__decode_list`, json.ext.c:332-351. -/
def decodeList (ts : List T) : Res (List V) :=
  match read (cut ts) with
  | none => .raise .valueError
  | some (.arr l) => decL l
  | some _ => .raise .valueError

end Verif.Json
