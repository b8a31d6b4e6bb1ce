import Verif.Ty.Model

/-!
Model of the method resolution order of the Acton compiler and of the lookup of
attributes, `compiler/lib/src/Acton/Env.hs`.

The environment is the list of the classes and protocols declared so far, newest first.
Modules, imports and aliases of names are left out: a name stands for a resolved `QName`.
-/
namespace Verif.Mro
open Verif.Ty

/-- `TCon`, Syntax.hs:235. -/
structure Con where
  name : Nat
  args : List Ty
  deriving DecidableEq, Repr

/-- `Either QName QName`, the steps of a `WPath` (NameInfo.hs:353): `left` for the first
base, `right` for another one. -/
inductive Step
  | left (n : Nat)
  | right (n : Nat)
  deriving DecidableEq, Repr

/-- `WTCon`, NameInfo.hs:355. -/
structure Entry where
  path : List Step
  con : Con
  deriving DecidableEq, Repr

/-- Compile errors of this part: "Inconsistent resolution order for" (Env.hs:1052),
"Inconsistent protocol instantiations" (Env.hs:1058), "Actor subclassing not allowed"
(Env.hs:1033), "Classes with direct extensions" (Types.hs:1038) and an unknown name
(Env.hs:834). -/
inductive Err
  | order
  | inst
  | actor
  | direct
  | unknown
  deriving DecidableEq, Repr

/-- Which of `NAct`, `NClass`, `NProto` a name is bound to (Env.hs:827-832). -/
inductive Sort_
  | actor
  | cls
  | proto
  deriving DecidableEq, Repr

/-- `NClass q us te`, `NProto q us te` (Env.hs:829-830): `tvs` is `qbound q`, `anc` the
stored ancestors `us`, `attrs` the names and infos of `te`. The field `bases`, the bases
written in the declaration, is not kept by the compiler; no function of the model reads
it, only statements do. -/
structure Info where
  sort : Sort_
  name : Nat
  tvs : List Nat
  bases : List Con
  anc : List Entry
  attrs : List (Nat × Nat)
  deriving DecidableEq

/-- `EnvF`, cut down to the declared classes and protocols. -/
abbrev Env := List Info

/-- `findQName`, restricted to classes and protocols. -/
def findInfo (env : Env) (n : Nat) : Option Info :=
  match env with
  | [] => none
  | i :: rest => if i.name = n then some i else findInfo rest n

/-- `vsubst` on `TCon`, Subst.hs:237-238. -/
def substCon (s : List (Nat × Ty)) (c : Con) : Con := ⟨c.name, Ty.vsubsts s c.args⟩

/-- `vsubst` on `WTCon`, NameInfo.hs:382-383. -/
def substEntry (s : List (Nat × Ty)) (e : Entry) : Entry := ⟨e.path, substCon s e.con⟩

/-- `findCon`, Env.hs:819-825, first component, for a name bound to `i`. -/
def conAnc (i : Info) (ts : List Ty) : List Entry :=
  if i.tvs.map Ty.var = ts then i.anc
  else i.anc.map (substEntry (i.tvs.zip ts))

/-- `findCon`, Env.hs:819-825, first component. -/
def findCon (env : Env) (c : Con) : Except Err (List Entry) :=
  match findInfo env c.name with
  | none => .error .unknown
  | some i => .ok (conAnc i c.args)

/-- `us'` of `mro`, Env.hs:1042, for the bases after the first. -/
def tagRest (us : List Con) : List Entry := us.map (fun u => ⟨[.right u.name], u⟩)

/-- `us'` of `mro`, Env.hs:1042. -/
def tags (us : List Con) : List Entry :=
  match us with
  | [] => []
  | u :: us => ⟨[.left u.name], u⟩ :: tagRest us

/-- `lin`, Env.hs:1044-1046. -/
def lin (env : Env) (e : Entry) : Except Err (List Entry) :=
  match findCon env e.con with
  | .error x => .error x
  | .ok us => .ok (e :: us.map (fun e' => ⟨e.path ++ e'.path, e'.con⟩))

/-- `map lin us'`, Env.hs:1040. -/
def lins (env : Env) : List Entry → Except Err (List (List Entry))
  | [] => .ok []
  | e :: es =>
    match lin env e with
    | .error x => .error x
    | .ok l =>
      match lins env es with
      | .error x => .error x
      | .ok ls => .ok (l :: ls)

/-- The non-empty lists, as heads and tails, Env.hs:1053. -/
def headTails : List (List Entry) → List (Entry × List Entry)
  | [] => []
  | [] :: ls => headTails ls
  | (h :: t) :: ls => (h, t) :: headTails ls

/-- `absent`, Env.hs:1061-1062. -/
def absent (h : Entry) (us : List Entry) : Bool :=
  !(us.map (fun e => e.con.name)).contains h.con.name

/-- The first element of `good`, Env.hs:1054: the first head that is absent in all
tails. -/
def firstGood (tails : List (List Entry)) : List Entry → Option Entry
  | [] => none
  | h :: hs => if tails.all (absent h) then some h else firstGood tails hs

/-- The list comprehension of Env.hs:1051 with `equal`, Env.hs:1056-1059: drop the heads
that are equal to `h`. -/
def advance (h : Entry) : List (Entry × List Entry) → Except Err (List (List Entry))
  | [] => .ok []
  | (hd, tl) :: rest =>
    if hd.con.name = h.con.name then
      if hd.con.args = h.con.args then
        match advance h rest with
        | .error x => .error x
        | .ok ls => .ok (tl :: ls)
      else .error .inst
    else
      match advance h rest with
      | .error x => .error x
      | .ok ls => .ok ((hd :: tl) :: ls)

/-- Number of entries in a list of lists, bounds the rounds of `merge`. -/
def total : List (List Entry) → Nat
  | [] => 0
  | l :: ls => l.length + total ls

/-- `merge`, Env.hs:1048-1054. Every round removes at least the chosen head, so
`total lists + 1` rounds are enough (`merge_fuel`); a run out of rounds counts as an error
of its own (`none`). -/
def mergeF (fuel : Nat) (out : List Entry) (lists : List (List Entry)) :
    Option (Except Err (List Entry)) :=
  match fuel with
  | 0 => none
  | fuel + 1 =>
    let ht := headTails lists
    if ht = [] then some (.ok out.reverse)
    else
      match firstGood (ht.map Prod.snd) (ht.map Prod.fst) with
      | none => some (.error .order)
      | some h =>
        match advance h ht with
        | .error x => some (.error x)
        | .ok ls => mergeF fuel (h :: out) ls

/-- `merge` with enough rounds. The second case does not occur. -/
def merge (out : List Entry) (lists : List (List Entry)) : Except Err (List Entry) :=
  match mergeF (total lists + 1) out lists with
  | some r => r
  | none => .error .unknown

/-- `mro`, Env.hs:1039-1040. -/
def mro (env : Env) (us : List Con) : Except Err (List Entry) :=
  match lins env (tags us) with
  | .error x => .error x
  | .ok ls => merge [] (ls ++ [tags us])

/-- `isActor`, `isProto`: the sort a name is bound to. -/
def sortOf (env : Env) (n : Nat) : Option Sort_ :=
  match findInfo env n with
  | none => none
  | some i => some i.sort

/-- `mro2`, Env.hs:1030-1035. -/
def mro2 (env : Env) (us : List Con) : Except Err (List Entry × List Entry) :=
  match us with
  | [] => .ok ([], [])
  | u :: us =>
    if sortOf env u.name = some .actor then .error .actor
    else if sortOf env u.name = some .proto then
      match mro env (u :: us) with
      | .error x => .error x
      | .ok r => .ok ([], r)
    else
      match mro env [u] with
      | .error x => .error x
      | .ok a =>
        match mro env us with
        | .error x => .error x
        | .ok p => .ok (a, p)

/-- The declaration of a protocol, Types.hs:1088-1107: it stores `mro1 env us`. -/
def declProto (env : Env) (n : Nat) (tvs : List Nat) (us : List Con)
    (te : List (Nat × Nat)) : Except Err Env :=
  match mro env us with
  | .error x => .error x
  | .ok r => .ok (⟨.proto, n, tvs, us, r, te⟩ :: env)

/-- The class at the root, `value` (`cValue`, Types.hs:1058). -/
def valueName : Nat := 0

/-- The class a class declaration inherits from: its first base, or `value` if it has none
(Types.hs:1057-1058); `value` itself inherits from nothing. Only for the ghost field
`bases`. -/
def classBases (n : Nat) (us : List Con) : List Con :=
  match us with
  | u :: _ => [u]
  | [] => if n = valueName then [] else [⟨valueName, []⟩]

/-- `as'`, Types.hs:1058; `leftpath [cValue]` is Syntax.hs:270-271. -/
def classAnc (n : Nat) (as_ : List Entry) : List Entry :=
  if as_ = [] ∧ n ≠ valueName then [⟨[.left valueName], ⟨valueName, []⟩⟩] else as_

/-- The declaration of a class, Types.hs:1037-1058: protocols among the bases are refused,
the ancestors `as'` are stored. -/
def declClass (env : Env) (n : Nat) (tvs : List Nat) (us : List Con)
    (te : List (Nat × Nat)) : Except Err Env :=
  match mro2 env us with
  | .error x => .error x
  | .ok (a, p) =>
    if p = [] then .ok (⟨.cls, n, tvs, classBases n us, classAnc n a, te⟩ :: env)
    else .error .direct

/-- The declaration of an actor, Types.hs:1025-1035 and Env.hs:828: it has no ancestors. -/
def declActor (env : Env) (n : Nat) (tvs : List Nat) (te : List (Nat × Nat)) : Env :=
  ⟨.actor, n, tvs, [], [], te⟩ :: env

/-- `findAncestry`, Env.hs:765-766. -/
def findAncestry (env : Env) (c : Con) : Except Err (List Entry) :=
  match findCon env c with
  | .error x => .error x
  | .ok us => .ok (⟨[], c⟩ :: us)

/-- Attributes declared by the class of a name: `te` of `findCon`, Env.hs:819-830 (the
substitution in the infos is left out). -/
def attrsOf (env : Env) (n : Nat) : List (Nat × Nat) :=
  match findInfo env n with
  | none => []
  | some i => i.attrs

/-- `scan` of `findAttrInfoIn`, Env.hs:873-877. -/
def scan (n : Nat) (r : Option Nat) : List (Nat × Nat) → Option Nat
  | [] => r
  | (x, i) :: xs => if x = n then scan n (some i) xs else scan n r xs

/-- `findAttrInfoIn`, Env.hs:871-877: the last binding. -/
def findAttrInfoIn (n : Nat) (te : List (Nat × Nat)) : Option Nat := scan n none te

/-- `go` of `findAttr`, Env.hs:853-856. -/
def attrGo (env : Env) (n : Nat) : List Entry → Option (Entry × Nat)
  | [] => none
  | e :: es =>
    match findAttrInfoIn n (attrsOf env e.con.name) with
    | some i => some (e, i)
    | none => attrGo env n es

/-- `findAttr`, Env.hs:852-861: the entry (with its witness path) that the attribute is
taken from, and its info. -/
def findAttr (env : Env) (c : Con) (n : Nat) : Except Err (Option (Entry × Nat)) :=
  match findAncestry env c with
  | .error x => .error x
  | .ok es => .ok (attrGo env n es)

/-- `dom aenv` of `attributes`, Env.hs:843, for an ancestry. -/
def aenvDom (env : Env) : List Entry → List Nat
  | [] => []
  | e :: es => ((attrsOf env e.con.name).reverse.map Prod.fst) ++ aenvDom env es

/-- `nub`: the first occurrences, given the elements already seen. -/
def nubFrom (seen : List Nat) : List Nat → List Nat
  | [] => []
  | x :: xs => if x ∈ seen then nubFrom seen xs else x :: nubFrom (x :: seen) xs

/-- `ns` of `attributes`, Env.hs:842: the attributes of a class in offset order. -/
def layout (env : Env) (c : Con) : Except Err (List Nat) :=
  match findAncestry env c with
  | .error x => .error x
  | .ok es => .ok (nubFrom [] (aenvDom env es).reverse)

end Verif.Mro
