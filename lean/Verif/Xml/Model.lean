import Verif.Str.Model
/-!
# Model of the module `xml`

base/src/xml.ext.c. Encoding is modelled on the structures of strings (sizes computed in a first pass, bytes written in a
second one; `Str.mkStr` is undefined if the number of bytes written is not the size computed). Decoding is modelled from the
tree that libxml2 delivers (libxml2 is not part of the repository). Recursion on the C stack is not bounded here.
-/
namespace Verif.Xml
open Verif Verif.Str

/-- `xmlQ_Node`, base/src/xml.act:1-22; `None` is NULL. -/
inductive Node where
  | mk (tag : Str) (nsdefs : List (Option Str × Str)) (pre : Option Str) (attributes : List (Str × Str)) (children : List Node)
      (text tail : Option Str)

/-- One byte in `count_xml_escape_extra`, xml.ext.c:27-35. -/
def extra1 (quotes : Bool) (b : Nat) : Int :=
  if b = 38 then 4 else if b = 60 then 3 else if b = 34 then (if quotes then 5 else 0) else 0

/-- `count_xml_escape_extra`, xml.ext.c:19-37 (`int` arithmetic, which wraps: wrapping once is the same as at every step). -/
def extra (s : Str) (quotes : Bool) : Int := wrap32 ((s.bytes.map (extra1 quotes)).sum)

/-- One byte in `copy_with_xml_escape`, xml.ext.c:46-65. -/
def escape1 (quotes : Bool) (b : Nat) : List Nat :=
  if b = 38 then [38, 97, 109, 112, 59]
  else if b = 60 then [38, 108, 116, 59]
  else if b = 34 then (if quotes then [38, 113, 117, 111, 116, 59] else [b])
  else [b]

/-- `copy_with_xml_escape`, xml.ext.c:41-68. -/
def escape (s : Str) (quotes : Bool) : List Nat := s.bytes.flatMap (escape1 quotes)

/-- A size (number of bytes or of characters, according to `f`) of a prefix that may be missing, with one more for a colon. -/
def opt1 (f : Str → Int) : Option Str → Int
  | none => 0
  | some s => f s + 1

/-- A size of a text that may be missing, with the extra bytes. -/
def optE (f : Str → Int) : Option Str → Int
  | none => 0
  | some s => f s + extra s false

/-- First loop of `xmlQ_encode_nsdefs`, xml.ext.c:391-403. -/
def nsSize (f : Str → Int) : List (Option Str × Str) → Int
  | [] => 0
  | (p, h) :: l => opt1 f p + f h + extra h true + 9 + nsSize f l

/-- The bytes written for a prefix with a colon before it, xml.ext.c:414-417. -/
def colonBefore : Option Str → List Nat
  | none => []
  | some p => 58 :: p.bytes

/-- Second loop of `xmlQ_encode_nsdefs`, xml.ext.c:407-422. -/
def nsBytes : List (Option Str × Str) → List Nat
  | [] => []
  | (p, h) :: l => 32 :: [120, 109, 108, 110, 115] ++ colonBefore p ++ [61, 34] ++ escape h true ++ 34 :: nsBytes l

/-- `xmlQ_encode_nsdefs`, xml.ext.c:388-424. -/
def encodeNsdefs (l : List (Option Str × Str)) : Res Str :=
  mkStr (wrap32 (nsSize Str.nchars l)) (wrap32 (nsSize Str.nbytes l)) (nsBytes l)

/-- First loop of `xmlQ_encode_attrs`, xml.ext.c:430-440. -/
def attrSize (f : Str → Int) : List (Str × Str) → Int
  | [] => 0
  | (k, v) :: l => f k + f v + extra v true + 4 + attrSize f l

/-- Second loop of `xmlQ_encode_attrs`, xml.ext.c:445-455. -/
def attrBytes : List (Str × Str) → List Nat
  | [] => []
  | (k, v) :: l => 32 :: k.bytes ++ [61, 34] ++ escape v true ++ 34 :: attrBytes l

/-- `xmlQ_encode_attrs`, xml.ext.c:427-457. -/
def encodeAttrs (l : List (Str × Str)) : Res Str :=
  mkStr (wrap32 (attrSize Str.nchars l)) (wrap32 (attrSize Str.nbytes l)) (attrBytes l)

/-- `to$str("\n")`. -/
def newline : Str := ⟨1, 1, [10, 0]⟩

/-- The size computed for a node, xml.ext.c:280-302; `f` is `nbytes` or `nchars`. -/
def nodeSize (f : Str → Int) (tag : Str) (pre : Option Str) (ns attrs : Str) (text tail : Option Str) (children : Str)
    (empty has pretty : Bool) (indent : Int) : Int :=
  wrap32 (indent + (if empty then 1 else 2) * (f tag + opt1 f pre) + f ns + f attrs +
    (if empty then 0 else optE f text) + (if empty then 0 else if has && pretty then 1 else 0) +
    (if empty then 0 else f children) + (if empty then 0 else if has && pretty then 1 + indent else 0) + optE f tail +
    (if empty then 3 else 5))

/-- The bytes of a prefix with a colon after it, xml.ext.c:317-321, 358-362. -/
def colonAfter : Option Str → List Nat
  | none => []
  | some p => p.bytes ++ [58]

/-- The bytes of text or tail, xml.ext.c:337-340, 369-371. -/
def escapeOpt : Option Str → List Nat
  | none => []
  | some s => escape s false

/-- The bytes between opening and closing tag, xml.ext.c:335-355. -/
def inner (text : Option Str) (children : Str) (has pretty : Bool) (indent : Nat) : List Nat :=
  escapeOpt text ++ (if has then (if pretty then [10] else []) ++ children.bytes ++
    (if pretty then 10 :: List.replicate indent 32 else []) else [])

/-- The bytes written for a node, xml.ext.c:305-371. -/
def nodeBytes (tag : Str) (pre : Option Str) (ns attrs : Str) (text tail : Option Str) (children : Str)
    (empty has pretty : Bool) (indent : Nat) : List Nat :=
  List.replicate indent 32 ++ 60 :: colonAfter pre ++ tag.bytes ++ ns.bytes ++ attrs.bytes ++
    (if empty then [47, 62]
      else 62 :: inner text children has pretty indent ++ [60, 47] ++ colonAfter pre ++ tag.bytes ++ [62]) ++ escapeOpt tail

/-- xml.ext.c:255-277: the children as one string. -/
def joinChildren (pretty : Bool) (l : List Str) : Res Str :=
  if l.length > 0 then (if pretty then join newline l else join nullStr l) else .ok nullStr

mutual
/-- `xmlQ_node2str`, xml.ext.c:236-374. `depth * 2` is an `int`. -/
def node2str (pretty : Bool) (depth : Nat) : Node → Res Str
  | .mk tag nsdefs pre attributes children text tail => do
    let ns ← encodeNsdefs nsdefs
    let attrs ← encodeAttrs attributes
    let l ← nodes2str pretty (depth + 1) children
    let ch ← joinChildren pretty l
    let empty := text.isNone && children.length == 0
    let has := decide (children.length > 0)
    let indent : Int := if pretty then wrap32 (2 * depth) else 0
    mkStr (nodeSize Str.nchars tag pre ns attrs text tail ch empty has pretty indent)
      (nodeSize Str.nbytes tag pre ns attrs text tail ch empty has pretty indent)
      (nodeBytes tag pre ns attrs text tail ch empty has pretty indent.toNat)
/-- xml.ext.c:261-264. -/
def nodes2str (pretty : Bool) (depth : Nat) : List Node → Res (List Str)
  | [] => .ok []
  | n :: l => do
    let s ← node2str pretty depth n
    let r ← nodes2str pretty depth l
    return s :: r
end

/-- `xmlQ_NodeD_encode`, xml.ext.c:459-462. -/
def encode (n : Node) (pretty : Bool) : Res Str := node2str pretty 0 n

/-! ### Decoding

The strings in a tree of libxml2 are C strings; here they are sequences of code points (`to$str` counts and copies them). -/

abbrev Text := List Nat

/-- `xmlNode` of libxml2: element nodes, text, CDATA sections, comments, and the other types (processing instructions,
entity references …). `ns` is `node->ns->prefix`, `nsDef` the list of prefixes and names, `props` the list of
`attr->ns->prefix`, `attr->name` and the value. -/
inductive XNode where
  | text (content : Text)
  | cdata (content : Text)
  | comment
  | other
  | elem (name : Text) (ns : Option Text) (nsDef : List (Option Text × Text)) (props : List (Option Text × Text × Text))
      (children : List XNode)

/-- `xmlQ_Node` with its strings as sequences of code points. -/
inductive Tree where
  | mk (tag : Text) (nsdefs : List (Option Text × Text)) (pre : Option Text) (attributes : List (Text × Text)) (children : List Tree)
      (text tail : Option Text)

/-- `child->tail = …`, xml.ext.c:186. -/
def Tree.setTail : Tree → Option Text → Tree
  | .mk tag ns pre at_ ch tx _, tl => .mk tag ns pre at_ ch tx tl

/-- `xmlGetProp` of libxml2: the value of the first attribute with this local name, in any namespace. -/
def getProp (name : Text) : List (Option Text × Text × Text) → Option Text
  | [] => none
  | (_, n, v) :: l => if n = name then some v else getProp name l

/-- xml.ext.c:150-169: one attribute. -/
def attrOf (all : List (Option Text × Text × Text)) (a : Option Text × Text × Text) : Text × Text :=
  (match a.1 with
    | some p => p ++ 58 :: a.2.1
    | none => a.2.1, (getProp a.2.1 all).getD [])

/-- Both passes of `collect_text_cdata_nodes`, xml.ext.c:82-125: the character data up to the next element. An unsupported node
raises (`XmlParseError` is a `ValueError`). -/
def collect : List XNode → Res Text
  | [] => .ok []
  | .elem .. :: _ => .ok []
  | .text t :: l => do let u ← collect l; return t ++ u
  | .cdata t :: l => do let u ← collect l; return t ++ u
  | .comment :: l => collect l
  | .other :: _ => .raise .valueError

/-- The result of `collect_text_cdata_nodes`: NULL if there is no character data, xml.ext.c:105-108. -/
def someText (t : Text) : Option Text := if t.length = 0 then none else some t

mutual
/-- `$NodePtr2Node`, xml.ext.c:132-191. -/
def ptr2node : XNode → Res Tree
  | .elem name ns nsDef props children => do
    let t ← collect children
    let ch ← elems children
    return .mk name nsDef ns (props.map (attrOf props)) ch (someText t) none
  | _ => .raise .valueError
/-- The loop over the children, xml.ext.c:182-188. `collect_text_cdata_nodes` has moved the cursor to the next element: the
nodes before it are passed over here. -/
def elems : List XNode → Res (List Tree)
  | [] => .ok []
  | .elem n ns d p c :: l => do
    let child ← ptr2node (.elem n ns d p c)
    let tl ← collect l
    let rest ← elems l
    return child.setTail (someText tl) :: rest
  | .text _ :: l => elems l
  | .cdata _ :: l => elems l
  | .comment :: l => elems l
  | .other :: l => elems l
end

end Verif.Xml
