import Mathlib.Data.List.Forall2
/-!
# Model of the reader of build.zig.zon; C171, C172

compiler/lib/src/Acton/Zon.hs. A parser takes the rest of the text and gives the value and the
new rest; alternatives of megaparsec that fail after they have read something fail as a whole.

Simplifications: spaces, letters and digits are those of ASCII (Haskell takes those of Unicode);
multi-line strings and character literals are left out; `\u{...}` with a surrogate, which Zig
refuses, gives another character here. Recursion is bounded by `fuel`, which `parseZon` sets to
more than the length of the text.
-/
namespace Verif.Zon

abbrev Text := List Char

/-- `ZonValue`, Zon.hs:42-50. -/
inductive Z
  | struct (fs : List (Text × Z))
  | array (vs : List Z)
  | str (s : Text)
  | enum (n : Text)
  | bool (b : Bool)
  | null
  | num (s : Text)

/-- `space1`: what counts as space. -/
def isSpace (c : Char) : Bool := c = ' ' || (9 ≤ c.toNat && c.toNat ≤ 13)

/-- `sc`, Zon.hs:63-64: spaces and comments from `//` to the end of the line; the flag tells
whether a comment is being read. -/
def sc : Bool → Text → Text
  | _, [] => []
  | true, c :: s => if c = '\n' then sc false s else sc true s
  | false, c :: s => if isSpace c then sc false s
    else if c = '/' ∧ s.head? = some '/' then sc true s
    else c :: s

/-- `hexDigitChar`. -/
def isHex (c : Char) : Bool := c.isDigit || ('a' ≤ c && c ≤ 'f') || ('A' ≤ c && c ≤ 'F')

/-- The value of a hexadecimal digit. -/
def hexDigit (c : Char) : Nat :=
  if c.isDigit then c.toNat - 48 else if 'a' ≤ c then c.toNat - 87 else c.toNat - 55

/-- `chrHex`, Zon.hs:152-154. -/
def chrHex (ds : Text) : Char :=
  let v := ds.foldl (fun a d => 16 * a + hexDigit d) 0
  if v ≤ 0x10FFFF then Char.ofNat v else Char.ofNat 0xFFFD

/-- `many`: the longest beginning of characters that fulfil `p`, and the rest. -/
def many (p : Char → Bool) (s : Text) : Text × Text := (s.takeWhile p, s.dropWhile p)

/-- The case `\xNN` of `pEscape`. -/
def escX (s : Text) : Option (Char × Text) :=
  match s with
  | a :: b :: r => if isHex a && isHex b then some (chrHex [a, b], r) else none
  | _ => none

/-- The case `\u{...}` of `pEscape`. -/
def escU (s : Text) : Option (Char × Text) :=
  match s with
  | '{' :: r =>
    match many isHex r with
    | ([], _) => none
    | (ds, '}' :: r') => some (chrHex ds, r')
    | _ => none
  | _ => none

/-- `pEscape`, Zon.hs:137-154. -/
def escape : Text → Option (Char × Text)
  | [] => none
  | c :: s =>
    if c = 'n' then some ('\n', s)
    else if c = 'r' then some ('\r', s)
    else if c = 't' then some ('\t', s)
    else if c = 'x' then escX s
    else if c = 'u' then escU s
    else some (c, s)

/-- `pStringRaw` after the first quote, Zon.hs:131-135. -/
def strRaw : Nat → Text → Option (Text × Text)
  | 0, _ => none
  | _, [] => none
  | n + 1, c :: s =>
    if c = '"' then some ([], s)
    else if c = '\\' then
      match escape s with
      | none => none
      | some (d, r) => (strRaw n r).map (fun x => (d :: x.1, x.2))
    else if c = '\n' then none
    else (strRaw n s).map (fun x => (c :: x.1, x.2))

/-- A character of a bare identifier after the first. -/
def isIdent (c : Char) : Bool := c.isAlphanum || c = '_'

/-- `pFieldName`, Zon.hs:110-115. -/
def fieldName (s : Text) : Option (Text × Text) :=
  match s with
  | '@' :: '"' :: r => strRaw (r.length + 1) r
  | c :: r => if c.isAlpha || c = '_' then some (c :: (many isIdent r).1, (many isIdent r).2) else none
  | [] => none

/-- `pFieldHead`, Zon.hs:98-99. -/
def fieldHead (s : Text) : Bool :=
  match s with
  | '.' :: r => match fieldName r with
    | some (_, r') => (sc false r').head? = some '='
    | none => false
  | _ => false

/-- A character of a number after the first, Zon.hs:179. -/
def numChar (c : Char) : Bool := c.isAlphanum || c = '.' || c = '_' || c = '+' || c = '-'

/-- The keywords of `pBoolNull`, Zon.hs:120-126, with the character that follows. -/
def keyword (w : Text) (s : Text) : Option Text :=
  if w <+: s then
    match s.drop w.length with
    | [] => some []
    | c :: r => if isIdent c then none else some (sc false (c :: r))
  else none

/-- `pBoolNull`, `pNumber`, Zon.hs:120-126, 176-180. -/
def plain (s : Text) : Option (Z × Text) :=
  match keyword ['t', 'r', 'u', 'e'] s with
  | some r => some (.bool true, r)
  | none => match keyword ['f', 'a', 'l', 's', 'e'] s with
    | some r => some (.bool false, r)
    | none => match keyword ['n', 'u', 'l', 'l'] s with
      | some r => some (.null, r)
      | none => match s with
        | [] => none
        | c :: r => if c.isDigit || c = '-' || c = '+' then
            some (.num (c :: (many numChar r).1), sc false (many numChar r).2)
          else none

mutual
/-- `pValue`, `pStructOrArray`, `pString`, `pEnum`, Zon.hs:74-95, 117-118, 128-129. -/
def value : Nat → Text → Option (Z × Text)
  | 0, _ => none
  | n + 1, s =>
    match s with
    | '.' :: '{' :: r =>
      match sc false r with
      | '}' :: r' => some (.struct [], sc false r')
      | r1 =>
        if fieldHead r1 then
          match fields n r1 with
          | some (fs, '}' :: r') => some (.struct fs, sc false r')
          | _ => none
        else
          match elems n r1 with
          | some (vs, '}' :: r') => some (.array vs, sc false r')
          | _ => none
    | '.' :: r => (fieldName r).map (fun x => (.enum x.1, sc false x.2))
    | '"' :: r => (strRaw (r.length + 1) r).map (fun x => (.str x.1, sc false x.2))
    | _ => plain s
/-- `pField` and `sepEndBy1`, Zon.hs:94, 101-107. -/
def fields : Nat → Text → Option (List (Text × Z) × Text)
  | 0, _ => none
  | n + 1, s =>
    match s with
    | '.' :: r =>
      match fieldName r with
      | none => none
      | some (name, r1) =>
        match sc false r1 with
        | '=' :: r2 =>
          match value n (sc false r2) with
          | none => none
          | some (v, ',' :: r3) =>
            match sc false r3 with
            | '}' :: r4 => some ([(name, v)], '}' :: r4)
            | r4 => (fields n r4).map (fun x => ((name, v) :: x.1, x.2))
          | some (v, r3) => some ([(name, v)], r3)
        | _ => none
    | _ => none
/-- `sepEndBy1` of values, Zon.hs:95. -/
def elems : Nat → Text → Option (List Z × Text)
  | 0, _ => none
  | n + 1, s =>
    match value n s with
    | none => none
    | some (v, ',' :: r3) =>
      match sc false r3 with
      | '}' :: r4 => some ([v], '}' :: r4)
      | r4 => (elems n r4).map (fun x => (v :: x.1, x.2))
    | some (v, r3) => some ([v], r3)
end

/-- `parseZon`, Zon.hs:184-192. -/
def parseZon (s : Text) : Option Z :=
  let t := sc false (s.dropWhile (· = Char.ofNat 0xFEFF))
  match value (t.length + 1) t with
  | some (v, []) => some v
  | _ => none

/-! ## Specification: the texts of values -/

/-- What stands between tokens: spaces and comments. -/
inductive Gap : Text → Prop
  | nil : Gap []
  | space {c g} : c ∈ [' ', '\t', '\n', '\r'] → Gap g → Gap (c :: g)
  | comment {t g} : '\n' ∉ t → Gap g → Gap ('/' :: '/' :: t ++ '\n' :: g)

/-- A piece of a string literal. -/
inductive Item
  | plain (c : Char)
  | esc (c : Char)
  | hex (a b : Char)
  | uni (ds : Text)

/-- Pieces that Zig takes, except for surrogates. -/
def Item.Ok : Item → Prop
  | .plain c => c ≠ '"' ∧ c ≠ '\\' ∧ c ≠ '\n'
  | .esc c => c ∈ ['n', 'r', 't', '\\', '"', '\'']
  | .hex a b => isHex a = true ∧ isHex b = true
  | .uni ds => ds ≠ [] ∧ (∀ d ∈ ds, isHex d = true) ∧ ds.foldl (fun a d => 16 * a + hexDigit d) 0 ≤ 0x10FFFF

/-- How a piece is written. -/
def Item.text : Item → Text
  | .plain c => [c]
  | .esc c => ['\\', c]
  | .hex a b => ['\\', 'x', a, b]
  | .uni ds => '\\' :: 'u' :: '{' :: ds ++ ['}']

/-- The character of an escape. -/
def escChar (c : Char) : Char := if c = 'n' then '\n' else if c = 'r' then '\r' else if c = 't' then '\t' else c

/-- The character that a piece stands for; `\xNN` as the character of that number. -/
def Item.char : Item → Char
  | .plain c => c
  | .esc c => escChar c
  | .hex a b => Char.ofNat (16 * hexDigit a + hexDigit b)
  | .uni ds => Char.ofNat (ds.foldl (fun a d => 16 * a + hexDigit d) 0)

/-- The bytes that a piece stands for in Zig: `\xNN` is one byte, everything else is in UTF-8. -/
def Item.bytes : Item → List UInt8
  | .plain c => String.utf8EncodeChar c
  | .esc c => String.utf8EncodeChar (escChar c)
  | .hex a b => [UInt8.ofNat (16 * hexDigit a + hexDigit b)]
  | .uni ds => String.utf8EncodeChar (Char.ofNat (ds.foldl (fun a d => 16 * a + hexDigit d) 0))

/-- The text of pieces. -/
def texts (is : List Item) : Text := is.flatMap Item.text

/-- Names of fields and enums, and their texts. -/
inductive Name : Text → Text → Prop
  | bare {c cs} : (c.isAlpha || c = '_') = true → (∀ d ∈ cs, isIdent d = true) → Name (c :: cs) (c :: cs)
  | quoted {is : List Item} : (∀ i ∈ is, i.Ok) → Name (is.map Item.char) ('@' :: '"' :: texts is ++ ['"'])

/-- What a text stands for. -/
inductive Thing
  | value (v : Z)
  | fields (fs : List (Text × Z))
  | elems (vs : List Z)

/-- The texts of values, of the fields of a struct and of the elements of an array (up to the
closing brace). -/
inductive Gr : Thing → Text → Prop
  | str {is : List Item} : (∀ i ∈ is, i.Ok) → Gr (.value (.str (is.map Item.char))) ('"' :: texts is ++ ['"'])
  | enum {n t} : Name n t → Gr (.value (.enum n)) ('.' :: t)
  | tru : Gr (.value (.bool true)) ['t', 'r', 'u', 'e']
  | fls : Gr (.value (.bool false)) ['f', 'a', 'l', 's', 'e']
  | null : Gr (.value .null) ['n', 'u', 'l', 'l']
  | num {c cs} : (c.isDigit || c = '-' || c = '+') = true → (∀ d ∈ cs, numChar d = true) → Gr (.value (.num (c :: cs))) (c :: cs)
  | empty {g} : Gap g → Gr (.value (.struct [])) ('.' :: '{' :: g ++ ['}'])
  | struct {g fs t} : Gap g → Gr (.fields fs) t → Gr (.value (.struct fs)) ('.' :: '{' :: g ++ t ++ ['}'])
  | array {g vs t} : Gap g → Gr (.elems vs) t → Gr (.value (.array vs)) ('.' :: '{' :: g ++ t ++ ['}'])
  | field {n t g1 g2 v s g3} : Name n t → Gap g1 → Gap g2 → Gr (.value v) s → Gap g3 →
      Gr (.fields [(n, v)]) ('.' :: t ++ g1 ++ '=' :: g2 ++ s ++ g3)
  | fieldComma {n t g1 g2 v s g3 g4} : Name n t → Gap g1 → Gap g2 → Gr (.value v) s → Gap g3 → Gap g4 →
      Gr (.fields [(n, v)]) ('.' :: t ++ g1 ++ '=' :: g2 ++ s ++ g3 ++ ',' :: g4)
  | fieldCons {n t g1 g2 v s g3 g4 fs u} : Name n t → Gap g1 → Gap g2 → Gr (.value v) s → Gap g3 → Gap g4 → Gr (.fields fs) u →
      Gr (.fields ((n, v) :: fs)) ('.' :: t ++ g1 ++ '=' :: g2 ++ s ++ g3 ++ ',' :: g4 ++ u)
  | elem {v s g3} : Gr (.value v) s → Gap g3 → Gr (.elems [v]) (s ++ g3)
  | elemComma {v s g3 g4} : Gr (.value v) s → Gap g3 → Gap g4 → Gr (.elems [v]) (s ++ g3 ++ ',' :: g4)
  | elemCons {v s g3 g4 vs u} : Gr (.value v) s → Gap g3 → Gap g4 → Gr (.elems vs) u →
      Gr (.elems (v :: vs)) (s ++ g3 ++ ',' :: g4 ++ u)

end Verif.Zon
