import Verif.Xml.Model
import Verif.Str.Spec
/-!
# Specification: XML

A reader for the part of XML 1.0 that encoded trees belong to (no document type, comments, processing instructions and CDATA
sections: none of `<!`, `<?` can occur in an encoded tree), after the productions and constraints of the recommendation;
numbers in brackets are those of the productions. `resolve` are namespaces as libxml2 treats them.
-/
namespace Verif.Xml
open Verif Verif.Str

/-- [2] Char. -/
def isChar (c : Nat) : Bool :=
  c = 9 || c = 10 || c = 13 || (32 ≤ c && c ≤ 0xD7FF) || (0xE000 ≤ c && c ≤ 0xFFFD) || (0x10000 ≤ c && c ≤ 0x10FFFF)

/-- [3] S. -/
def isSpace (c : Nat) : Bool := c = 32 || c = 9 || c = 10 || c = 13

/-- [4] NameStartChar. -/
def isStart (c : Nat) : Bool :=
  c = 58 || (65 ≤ c && c ≤ 90) || c = 95 || (97 ≤ c && c ≤ 122) || (0xC0 ≤ c && c ≤ 0xD6) || (0xD8 ≤ c && c ≤ 0xF6) ||
  (0xF8 ≤ c && c ≤ 0x2FF) || (0x370 ≤ c && c ≤ 0x37D) || (0x37F ≤ c && c ≤ 0x1FFF) || (0x200C ≤ c && c ≤ 0x200D) ||
  (0x2070 ≤ c && c ≤ 0x218F) || (0x2C00 ≤ c && c ≤ 0x2FEF) || (0x3001 ≤ c && c ≤ 0xD7FF) || (0xF900 ≤ c && c ≤ 0xFDCF) ||
  (0xFDF0 ≤ c && c ≤ 0xFFFD) || (0x10000 ≤ c && c ≤ 0xEFFFF)

/-- [4a] NameChar. -/
def isName (c : Nat) : Bool :=
  isStart c || c = 45 || c = 46 || (48 ≤ c && c ≤ 57) || c = 0xB7 || (0x300 ≤ c && c ≤ 0x36F) || (0x203F ≤ c && c ≤ 0x2040)

/-- [5] Name. -/
def name : Text → Option (Text × Text)
  | [] => none
  | c :: t => if isStart c then some (c :: t.takeWhile isName, t.dropWhile isName) else none

/-- `t` without the beginning `p`. -/
def after (p t : Text) : Option Text := if t.take p.length = p then some (t.drop p.length) else none

/-- [68], section 4.6: the references to the predefined entities, after the `&`. -/
def reference (t : Text) : Option (Nat × Text) :=
  match after [97, 109, 112, 59] t with
  | some r => some (38, r)
  | none => match after [108, 116, 59] t with
    | some r => some (60, r)
    | none => match after [103, 116, 59] t with
      | some r => some (62, r)
      | none => match after [113, 117, 111, 116, 59] t with
        | some r => some (34, r)
        | none => match after [97, 112, 111, 115, 59] t with
          | some r => some (39, r)
          | none => none

/-- Put a character in front of what has been read. -/
def push (c : Nat) : Option (Text × Text) → Option (Text × Text)
  | none => none
  | some (u, r) => some (c :: u, r)

/-- [10] AttValue after the quote `q`, with the normalization of section 3.3.3. The number bounds the length. -/
def attValue (q : Nat) : Nat → Text → Option (Text × Text)
  | 0, _ => none
  | _, [] => none
  | n + 1, c :: t =>
    if c = q then some ([], t)
    else if c = 60 then none
    else if c = 38 then
      match reference t with
      | none => none
      | some (d, r) => push d (attValue q n r)
    else push (if isSpace c then 32 else c) (attValue q n t)

/-- [41] Attribute. -/
def oneAttr (t : Text) : Option ((Text × Text) × Text) :=
  match name t with
  | none => none
  | some (k, r) => match r.dropWhile isSpace with
    | 61 :: r => match r.dropWhile isSpace with
      | q :: r => if q = 34 ∨ q = 39 then
          match attValue q (r.length + 1) r with
          | none => none
          | some (v, r) => some ((k, v), r)
        else none
      | [] => none
    | _ => none

/-- [40], [44]: the attributes of a tag, and the rest, which begins with `>` or `/>`. -/
def attributes : Nat → Text → Option (List (Text × Text) × Text)
  | 0, _ => none
  | n + 1, t =>
    let r := t.dropWhile isSpace
    if r.head? = some 62 ∨ r.head? = some 47 then some ([], r)
    else if r.length < t.length then
      match oneAttr r with
      | none => none
      | some (a, r) => match attributes n r with
        | none => none
        | some (l, r) => some (a :: l, r)
    else none

/-- [14] CharData and references, up to the next `<`; `]]>` is not allowed. -/
def charData : Nat → Text → Option (Text × Text)
  | 0, _ => none
  | _, [] => some ([], [])
  | n + 1, c :: t =>
    if c = 60 then some ([], c :: t)
    else if c = 93 ∧ t.take 2 = [93, 62] then none
    else if c = 38 then
      match reference t with
      | none => none
      | some (d, r) => push d (charData n r)
    else push c (charData n t)

/-- An element as it is written. -/
inductive Raw where
  | text (t : Text)
  | elem (name : Text) (attrs : List (Text × Text)) (content : List Raw)

def textItem (t : Text) : List Raw := if t = [] then [] else [.text t]

mutual
/-- [39] element, after the `<`, with the constraints on matching tags and unique attributes. -/
def element : Nat → Text → Option (Raw × Text)
  | 0, _ => none
  | n + 1, t => match name t with
    | none => none
    | some (k, r) => match attributes (r.length + 1) r with
      | none => none
      | some (l, r) => if (l.map Prod.fst).Nodup then
          match r with
          | 47 :: 62 :: r => some (.elem k l [], r)
          | 62 :: r => match content n r with
            | none => none
            | some (c, r) => match after (60 :: 47 :: k) r with
              | none => none
              | some r => match r.dropWhile isSpace with
                | 62 :: r => some (.elem k l c, r)
                | _ => none
          | _ => none
        else none
/-- [43] content, up to the `</`. -/
def content : Nat → Text → Option (List Raw × Text)
  | 0, _ => none
  | n + 1, t => match charData (t.length + 1) t with
    | none => none
    | some (u, r) => match r with
      | 60 :: 47 :: r => some (textItem u, 60 :: 47 :: r)
      | 60 :: r => match element n r with
        | none => none
        | some (e, r) => match content n r with
          | none => none
          | some (l, r) => some (textItem u ++ e :: l, r)
      | _ => none
end

/-- Section 2.11: ends of lines. -/
def eol : Text → Text
  | [] => []
  | 13 :: 10 :: t => 10 :: eol t
  | c :: t => (if c = 13 then 10 else c) :: eol t

/-- [1] document. -/
def document (t : Text) : Option Raw :=
  if t.all isChar then
    match (eol t).dropWhile isSpace with
    | 60 :: r => match element (r.length + 1) r with
      | none => none
      | some (e, r) => if r.all isSpace then some e else none
    | _ => none
  else none

/-! ### Namespaces -/

/-- Prefix and local name. -/
def splitName (n : Text) : Option Text × Text :=
  match n.dropWhile (· ≠ 58) with
  | _ :: l => (some (n.takeWhile (· ≠ 58)), l)
  | [] => (none, n)

def xmlns : Text := [120, 109, 108, 110, 115]
def xmlPrefix : Text := [120, 109, 108]

/-- An attribute that declares a namespace: its prefix and name. -/
def declares (a : Text × Text) : Option (Option Text × Text) :=
  if a.1 = xmlns then some (none, a.2)
  else if (splitName a.1).1 = some xmlns then some (some (splitName a.1).2, a.2)
  else none

/-- A name in the scope of some prefixes: if the prefix is not declared, it stays part of the name. -/
def resolveName (scope : List Text) (n : Text) : Option Text × Text :=
  match splitName n with
  | (none, l) => (none, l)
  | (some p, l) => if p ∈ scope then (some p, l) else (none, n)

mutual
/-- The tree that libxml2 builds, in the scope of some prefixes. -/
def resolve (scope : List Text) : Raw → XNode
  | .text t => .text t
  | .elem n attrs c =>
    let defs := attrs.filterMap declares
    let scope' := defs.filterMap Prod.fst ++ scope
    let q := resolveName scope' n
    .elem q.2 q.1 defs
      ((attrs.filter fun a => (declares a).isNone).map fun a => ((resolveName scope' a.1).1, (resolveName scope' a.1).2, a.2))
      (resolves scope' c)
def resolves (scope : List Text) : List Raw → List XNode
  | [] => []
  | r :: l => resolve scope r :: resolves scope l
end

/-- Reading a text: what libxml2 delivers for it, if it is a document. -/
def parse (t : Text) : Option XNode := (document t).map (resolve [xmlPrefix])

/-! ### Trees -/

/-- The strings of a node represent the texts of a tree. -/
def OptRepr : Option Str → Option Text → Prop
  | none, none => True
  | some s, some t => Repr s t
  | _, _ => False

inductive NsRepr : List (Option Str × Str) → List (Option Text × Text) → Prop
  | nil : NsRepr [] []
  | cons {p h q g l m} : OptRepr p q → Repr h g → NsRepr l m → NsRepr ((p, h) :: l) ((q, g) :: m)

inductive AttrRepr : List (Str × Str) → List (Text × Text) → Prop
  | nil : AttrRepr [] []
  | cons {k v a b l m} : Repr k a → Repr v b → AttrRepr l m → AttrRepr ((k, v) :: l) ((a, b) :: m)

mutual
inductive NodeRepr : Node → Tree → Prop
  | mk {tag nsdefs pre attrs ch tx tl tag' nsdefs' pre' attrs' ch' tx' tl'} : Repr tag tag' → NsRepr nsdefs nsdefs' →
      OptRepr pre pre' → AttrRepr attrs attrs' → NodesRepr ch ch' → OptRepr tx tx' → OptRepr tl tl' →
      NodeRepr (.mk tag nsdefs pre attrs ch tx tl) (.mk tag' nsdefs' pre' attrs' ch' tx' tl')
inductive NodesRepr : List Node → List Tree → Prop
  | nil : NodesRepr [] []
  | cons {n t l m} : NodeRepr n t → NodesRepr l m → NodesRepr (n :: l) (t :: m)
end

/-- The layout of encoded trees: character data and values with escapes … -/
def escChar (quotes : Bool) (c : Nat) : Text :=
  if c = 38 then [38, 97, 109, 112, 59] else if c = 60 then [38, 108, 116, 59]
  else if c = 34 ∧ quotes = true then [38, 113, 117, 111, 116, 59] else [c]

def esc (quotes : Bool) (t : Text) : Text := t.flatMap (escChar quotes)

def escOpt : Option Text → Text
  | none => []
  | some t => esc false t

/-- … names with prefixes … -/
def qname : Option Text → Text → Text
  | none, n => n
  | some p, n => p ++ 58 :: n

/-- … attributes … -/
def renderAttrs : List (Text × Text) → Text
  | [] => []
  | (k, v) :: l => 32 :: k ++ [61, 34] ++ esc true v ++ 34 :: renderAttrs l

/-- … and declarations of namespaces, which are written like attributes. -/
def nsAttr (d : Option Text × Text) : Text × Text :=
  match d.1 with
  | none => ([120, 109, 108, 110, 115], d.2)
  | some p => ([120, 109, 108, 110, 115, 58] ++ p, d.2)

mutual
/-- The text of a tree. With `pretty`, every element is on a line of its own, indented by two spaces for each level. -/
def render (pretty : Bool) (depth : Nat) : Tree → Text
  | .mk tag ns pre attrs ch tx tl =>
    let indent := if pretty then List.replicate (2 * depth) 32 else []
    let nl := if pretty then [10] else []
    indent ++ 60 :: qname pre tag ++ renderAttrs (ns.map nsAttr ++ attrs) ++
      (if tx.isNone && ch.isEmpty then [47, 62]
        else 62 :: escOpt tx ++ (if ch.isEmpty then [] else nl ++ joinWith nl (renders pretty (depth + 1) ch) ++ nl ++ indent) ++
          [60, 47] ++ qname pre tag ++ [62]) ++ escOpt tl
def renders (pretty : Bool) (depth : Nat) : List Tree → List Text
  | [] => []
  | t :: l => render pretty depth t :: renders pretty depth l
end

/-- An empty text is the same as none. -/
def normText : Option Text → Option Text
  | some [] => none
  | t => t

mutual
/-- A tree with empty texts left out. -/
def norm : Tree → Tree
  | .mk tag ns pre at_ ch tx tl => .mk tag ns pre at_ (norms ch) (normText tx) (normText tl)
def norms : List Tree → List Tree
  | [] => []
  | t :: l => norm t :: norms l
end

/-! ### What a tree of libxml2 stands for -/

/-- Nodes between elements, and their character data: text and CDATA sections, with comments passed over. -/
inductive Gap : List XNode → Text → Prop
  | nil : Gap [] []
  | text {t l u} : Gap l u → Gap (.text t :: l) (t ++ u)
  | cdata {t l u} : Gap l u → Gap (.cdata t :: l) (t ++ u)
  | comment {l u} : Gap l u → Gap (.comment :: l) u

mutual
/-- `Shows x t`: the tree of libxml2 `x` stands for `t`. The character data before the first child is the text of an element;
its attributes are the pairs of names, with prefixes, and values. -/
inductive Shows : XNode → Tree → Prop
  | mk {name ns defs props g t l ch} : Gap g t → ShowsAll l ch →
      Shows (.elem name ns defs props (g ++ l))
        (.mk name defs ns (props.map fun a => (qname a.1 a.2.1, a.2.2)) ch (normText (some t)) none)
/-- Elements, each with the character data after it as its tail. -/
inductive ShowsAll : List XNode → List Tree → Prop
  | nil : ShowsAll [] []
  | cons {name ns defs props c tag nsdefs pre attrs ch tx g t l m} :
      Shows (.elem name ns defs props c) (.mk tag nsdefs pre attrs ch tx none) → Gap g t → ShowsAll l m →
      ShowsAll (.elem name ns defs props c :: (g ++ l)) (.mk tag nsdefs pre attrs ch tx (normText (some t)) :: m)
end

/-- No node of an unsupported type, and the local names of the attributes of an element are different. -/
inductive Clean : XNode → Prop
  | text {t} : Clean (.text t)
  | cdata {t} : Clean (.cdata t)
  | comment : Clean .comment
  | elem {name ns defs props ch} : (props.map fun a => a.2.1).Nodup → (∀ c ∈ ch, Clean c) → Clean (.elem name ns defs props ch)

/-- A node of an unsupported type occurs. -/
inductive Unsupported : XNode → Prop
  | here : Unsupported .other
  | inside {name ns defs props ch c} : c ∈ ch → Unsupported c → Unsupported (.elem name ns defs props ch)

/-- [Namespaces, 4] NCName. -/
def NCName (t : Text) : Prop := ∃ c u, t = c :: u ∧ isStart c = true ∧ (∀ d ∈ u, isName d = true) ∧ 58 ∉ t

/-- Character data that survives: characters of XML, no carriage return, and no `]]>`. -/
def Plain (t : Text) : Prop := (∀ c ∈ t, isChar c = true ∧ c ≠ 13) ∧ ∀ a b, t ≠ a ++ 93 :: 93 :: 62 :: b

/-- Attribute values that survive: characters of XML, no white space other than spaces. -/
def PlainValue (t : Text) : Prop := ∀ c ∈ t, isChar c = true ∧ c ≠ 13 ∧ c ≠ 10 ∧ c ≠ 9

def PlainOpt : Option Text → Prop
  | none => True
  | some t => Plain t

/-- A declaration of a namespace: `xml` and `xmlns` are reserved, a prefix needs a name. -/
def GoodNs (d : Option Text × Text) : Prop :=
  PlainValue d.2 ∧ ∀ p, d.1 = some p → NCName p ∧ p ≠ xmlns ∧ p ≠ xmlPrefix ∧ d.2 ≠ []

/-- The name of an attribute: with or without prefix, not a declaration. -/
def GoodAttr (a : Text × Text) : Prop :=
  PlainValue a.2 ∧ ((NCName a.1 ∧ a.1 ≠ xmlns) ∨ ∃ p l, a.1 = p ++ 58 :: l ∧ NCName p ∧ NCName l ∧ p ≠ xmlns)

mutual
/-- A tree that can be written as XML, in the scope of some prefixes. The last condition on the attributes (different local
names) is not one of XML. -/
inductive Good : List Text → Tree → Prop
  | mk {scope tag ns pre attrs ch tx tl} : NCName tag → (∀ d ∈ ns, GoodNs d) → (ns.map Prod.fst).Nodup →
      (∀ p, pre = some p → NCName p ∧ p ∈ ns.filterMap Prod.fst ++ scope) →
      (∀ a ∈ attrs, GoodAttr a) → (attrs.map Prod.fst).Nodup →
      (attrs.map fun a => (resolveName (ns.filterMap Prod.fst ++ scope) a.1).2).Nodup →
      Goods (ns.filterMap Prod.fst ++ scope) ch → PlainOpt tx → PlainOpt tl → Good scope (.mk tag ns pre attrs ch tx tl)
inductive Goods : List Text → List Tree → Prop
  | nil {scope} : Goods scope []
  | cons {scope t l} : Good scope t → Goods scope l → Goods scope (t :: l)
end

end Verif.Xml
