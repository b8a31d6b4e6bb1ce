import Verif.Common

/-!
Model of the names of the Acton compiler and of the C identifiers generated for them:
`compiler/lib/src/Acton/Syntax.hs`, `Names.hs` and `CodeGen.hs`.

Strings are lists of code points. Source locations are left out.
-/
namespace Verif.Names

/-- A string. -/
abbrev Txt := List Nat

/-- `Prefix`, Syntax.hs:124-125. -/
inductive Pre
  | globvar | xistvar | tempvar | witness | normPass | cpsPass | lliftPass | boxPass
  deriving DecidableEq

/-- `Name`, Syntax.hs:127. The numbers of internal names are counters, never negative. -/
inductive Name
  | name (s : Txt)
  | derived (n s : Name)
  | internal (p : Pre) (s : Txt) (i : Nat)
  deriving DecidableEq

/-- `prefix`, Syntax.hs:141-148: G, E, V, W, N, C, L, U. -/
def letter : Pre → Nat
  | .globvar => 71
  | .xistvar => 69
  | .tempvar => 86
  | .witness => 87
  | .normPass => 78
  | .cpsPass => 67
  | .lliftPass => 76
  | .boxPass => 85

/-- A digit as a character, lower case. -/
def digit (d : Nat) : Nat := if d < 10 then 48 + d else 87 + d

/-- The digits of a number to a base; the fuel is the number plus one. -/
def digitsF (b : Nat) : Nat → Nat → Txt
  | 0, _ => []
  | f + 1, n => if n < b then [digit n] else digitsF b f (n / b) ++ [digit (n % b)]

/-- `show` and `showHex` of a number that is not negative. -/
def digits (b n : Nat) : Txt := digitsF b (n + 1) n

/-- `unique`, Syntax.hs:149-150. -/
def unique (i : Nat) : Txt := if i = 0 then [] else digits 10 i

/-- Is it an internal name? Syntax.hs:138. -/
def isInternal : Name → Bool
  | .internal _ _ _ => true
  | _ => false

/-- `nstr`, Syntax.hs:132-150. `esc` there leaves every string as it is (the escape is
commented out). -/
def nstr : Name → Txt
  | .name s => s
  | .derived n s => if isInternal s then nstr n ++ nstr s else nstr n ++ [68, 95] ++ nstr s
  | .internal p s i => [letter p, 95] ++ unique i ++ s

/-- `isAlpha` in `mkCident`, CodeGen.hs:763: an ASCII letter, `_` or `$`. -/
def isAlpha (c : Nat) : Bool :=
  (97 ≤ c && c ≤ 122) || (65 ≤ c && c ≤ 90) || c == 95 || c == 36

/-- `isAlphaNum`, CodeGen.hs:764. -/
def isAlphaNum (c : Nat) : Bool := isAlpha c || (48 ≤ c && c ≤ 57)

/-- `hex`, CodeGen.hs:768: `X_`, the code point in hexadecimal, `_`. -/
def hex (c : Nat) : Txt := [88, 95] ++ digits 16 c ++ [95]

/-- `esc`, CodeGen.hs:765-767. -/
def esc : Txt → Txt
  | [] => []
  | c :: s => if isAlphaNum c then c :: esc s else hex c ++ esc s

/-- `"complex"`. -/
def complex_ : Txt := [99, 111, 109, 112, 108, 101, 120]

/-- `"__complex__"`. -/
def complexM : Txt := [95, 95, 99, 111, 109, 112, 108, 101, 120, 95, 95]

/-- `"complx"`. -/
def complx : Txt := [99, 111, 109, 112, 108, 120]

/-- `"__complx__"`. -/
def complxM : Txt := [95, 95, 99, 111, 109, 112, 108, 120, 95, 95]

/-- `"A_complex"`. -/
def aComplex : Txt := [65, 95, 99, 111, 109, 112, 108, 101, 120]

/-- `"A___complex__"`. -/
def aComplexM : Txt := [65, 95, 95, 95, 99, 111, 109, 112, 108, 101, 120, 95, 95]

/-- `mkCident`, CodeGen.hs:754-768. It is not defined for the empty string. -/
def mkCident (s : Txt) : Option Txt :=
  if s = complex_ then some complx
  else if s = complexM then some complxM
  else if s = complx then some aComplex
  else if s = complxM then some aComplexM
  else
    match s with
    | [] => none
    | c :: s => if isAlpha c then some (c :: esc s) else some (hex c ++ esc s)

/-- `rws` of `unCkeyword`, CodeGen.hs:773-832. -/
def cKeywords : List Txt := [
  /- alignas -/ [97, 108, 105, 103, 110, 97, 115],
  /- alignof -/ [97, 108, 105, 103, 110, 111, 102],
  /- auto -/ [97, 117, 116, 111],
  /- bool -/ [98, 111, 111, 108],
  /- break -/ [98, 114, 101, 97, 107],
  /- case -/ [99, 97, 115, 101],
  /- char -/ [99, 104, 97, 114],
  /- const -/ [99, 111, 110, 115, 116],
  /- constexpr -/ [99, 111, 110, 115, 116, 101, 120, 112, 114],
  /- continue -/ [99, 111, 110, 116, 105, 110, 117, 101],
  /- default -/ [100, 101, 102, 97, 117, 108, 116],
  /- do -/ [100, 111],
  /- double -/ [100, 111, 117, 98, 108, 101],
  /- else -/ [101, 108, 115, 101],
  /- enum -/ [101, 110, 117, 109],
  /- extern -/ [101, 120, 116, 101, 114, 110],
  /- false -/ [102, 97, 108, 115, 101],
  /- float -/ [102, 108, 111, 97, 116],
  /- for -/ [102, 111, 114],
  /- goto -/ [103, 111, 116, 111],
  /- if -/ [105, 102],
  /- inline -/ [105, 110, 108, 105, 110, 101],
  /- int -/ [105, 110, 116],
  /- long -/ [108, 111, 110, 103],
  /- nullptr -/ [110, 117, 108, 108, 112, 116, 114],
  /- register -/ [114, 101, 103, 105, 115, 116, 101, 114],
  /- restrict -/ [114, 101, 115, 116, 114, 105, 99, 116],
  /- return -/ [114, 101, 116, 117, 114, 110],
  /- short -/ [115, 104, 111, 114, 116],
  /- signed -/ [115, 105, 103, 110, 101, 100],
  /- sizeof -/ [115, 105, 122, 101, 111, 102],
  /- static -/ [115, 116, 97, 116, 105, 99],
  /- static_assert -/ [115, 116, 97, 116, 105, 99, 95, 97, 115, 115, 101, 114, 116],
  /- struct -/ [115, 116, 114, 117, 99, 116],
  /- switch -/ [115, 119, 105, 116, 99, 104],
  /- thread_local -/ [116, 104, 114, 101, 97, 100, 95, 108, 111, 99, 97, 108],
  /- true -/ [116, 114, 117, 101],
  /- typedef -/ [116, 121, 112, 101, 100, 101, 102],
  /- typeof -/ [116, 121, 112, 101, 111, 102],
  /- typeof_unqual -/ [116, 121, 112, 101, 111, 102, 95, 117, 110, 113, 117, 97, 108],
  /- union -/ [117, 110, 105, 111, 110],
  /- unsigned -/ [117, 110, 115, 105, 103, 110, 101, 100],
  /- void -/ [118, 111, 105, 100],
  /- volatile -/ [118, 111, 108, 97, 116, 105, 108, 101],
  /- while -/ [119, 104, 105, 108, 101],
  /- _Alignas -/ [95, 65, 108, 105, 103, 110, 97, 115],
  /- _Alignof -/ [95, 65, 108, 105, 103, 110, 111, 102],
  /- _Atomic -/ [95, 65, 116, 111, 109, 105, 99],
  /- _BitInt -/ [95, 66, 105, 116, 73, 110, 116],
  /- _Bool -/ [95, 66, 111, 111, 108],
  /- _Complex -/ [95, 67, 111, 109, 112, 108, 101, 120],
  /- _Decimal128 -/ [95, 68, 101, 99, 105, 109, 97, 108, 49, 50, 56],
  /- _Decimal32 -/ [95, 68, 101, 99, 105, 109, 97, 108, 51, 50],
  /- _Decimal64 -/ [95, 68, 101, 99, 105, 109, 97, 108, 54, 52],
  /- _Generic -/ [95, 71, 101, 110, 101, 114, 105, 99],
  /- _Imaginary -/ [95, 73, 109, 97, 103, 105, 110, 97, 114, 121],
  /- _Noreturn -/ [95, 78, 111, 114, 101, 116, 117, 114, 110],
  /- _Static_assert -/ [95, 83, 116, 97, 116, 105, 99, 95, 97, 115, 115, 101, 114, 116],
  /- _Thread_local -/ [95, 84, 104, 114, 101, 97, 100, 95, 108, 111, 99, 97, 108]]

/-- `unCkeyword`, CodeGen.hs:770-773, and `preEscape`, CodeGen.hs:836. -/
def unCkeyword (s : Txt) : Txt := if s ∈ cKeywords then [65, 95] ++ s else s

/-- `gen` of a name, CodeGen.hs:742-743. -/
def genName (n : Name) : Option Txt := do
  let s ← mkCident (nstr n)
  some (unCkeyword s)

/-- Qualified names after `unalias`. `mPrim` and `mBuiltin` (Builtin.hs) are told apart from
other modules. -/
inductive QName
  | prim (n : Name)
  | builtin (n : Name)
  | glob (m : List Name) (n : Name)
  | loc (n : Name)
  deriving DecidableEq

/-- `gen` of every part of the name of a module, CodeGen.hs:729-730. -/
def genParts : List Name → Option (List Txt)
  | [] => some []
  | n :: ns => do
    let s ← genName n
    let r ← genParts ns
    some (s :: r)

/-- `punctuate (text "Q_")` and `hcat`, CodeGen.hs:730. -/
def punct : List Txt → Txt
  | [] => []
  | [s] => s
  | s :: ss => s ++ [81, 95] ++ punct ss

/-- `gen` of a qualified name, CodeGen.hs:732-740. `rawstr` is `nstr` here, as `nstr` does
not escape. -/
def genQ : QName → Option Txt
  | .prim n => some (36 :: nstr n)
  | .builtin n => some ([66, 95] ++ nstr n)
  | .glob m n => do
    let ps ← genParts m
    let s ← mkCident (nstr n)
    some (punct ps ++ [81, 95] ++ s)
  | .loc n => genName n

/-- `rws` of `isKeyword`, Syntax.hs:844-850, in the order of the source. -/
def keywords : List Txt := [
  /- False -/ [70, 97, 108, 115, 101],
  /- None -/ [78, 111, 110, 101],
  /- NotImplemented -/ [78, 111, 116, 73, 109, 112, 108, 101, 109, 101, 110, 116, 101, 100],
  /- Self -/ [83, 101, 108, 102],
  /- True -/ [84, 114, 117, 101],
  /- action -/ [97, 99, 116, 105, 111, 110],
  /- after -/ [97, 102, 116, 101, 114],
  /- and -/ [97, 110, 100],
  /- as -/ [97, 115],
  /- assert -/ [97, 115, 115, 101, 114, 116],
  /- async -/ [97, 115, 121, 110, 99],
  /- await -/ [97, 119, 97, 105, 116],
  /- break -/ [98, 114, 101, 97, 107],
  /- continue -/ [99, 111, 110, 116, 105, 110, 117, 101],
  /- def -/ [100, 101, 102],
  /- del -/ [100, 101, 108],
  /- elif -/ [101, 108, 105, 102],
  /- else -/ [101, 108, 115, 101],
  /- except -/ [101, 120, 99, 101, 112, 116],
  /- finally -/ [102, 105, 110, 97, 108, 108, 121],
  /- for -/ [102, 111, 114],
  /- if -/ [105, 102],
  /- in -/ [105, 110],
  /- is -/ [105, 115],
  /- isinstance -/ [105, 115, 105, 110, 115, 116, 97, 110, 99, 101],
  /- lambda -/ [108, 97, 109, 98, 100, 97],
  /- mut -/ [109, 117, 116],
  /- not -/ [110, 111, 116],
  /- or -/ [111, 114],
  /- pass -/ [112, 97, 115, 115],
  /- proc -/ [112, 114, 111, 99],
  /- pure -/ [112, 117, 114, 101],
  /- raise -/ [114, 97, 105, 115, 101],
  /- return -/ [114, 101, 116, 117, 114, 110],
  /- try -/ [116, 114, 121],
  /- var -/ [118, 97, 114],
  /- while -/ [119, 104, 105, 108, 101],
  /- with -/ [119, 105, 116, 104],
  /- yield -/ [121, 105, 101, 108, 100],
  /- _ -/ [95]]

end Verif.Names
