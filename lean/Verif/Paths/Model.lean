import Verif.Common
import Verif.Str.Spec
/-!
# Model of the path functions of base/src/file.act

Strings are lists of code points. `str.split` with a separator and `str.join` are the functions
modelled in the area Str (C-level code base/builtin/str.c:1374-1447, 1178-1210); here they are
used with the separator `/` only, through `splitSlash` and `Str.joinWith`, and
`splitSlash_splits` in Lemmas shows that `splitSlash` delivers the pieces that the area Str proves
`B_strD_split` to deliver.
-/
namespace Verif.Paths

/-- A string: its code points. -/
abbrev Path := List Nat

/-- `'/'`. -/
def slash : Nat := 47

/-- `'.'`. -/
def dot : Path := [46]

/-- `'..'`. -/
def dotdot : Path := [46, 46]

/-- Put one code point in front of the first piece. -/
def pushHead (c : Nat) : List Path → List Path
  | [] => [[c]]
  | q :: qs => (c :: q) :: qs

/-- `p.split('/')`, base/builtin/str.c:1374-1447. -/
def splitSlash : Path → List Path
  | [] => [[]]
  | c :: p => if c = slash then [] :: splitSlash p else pushHead c (splitSlash p)

/-- The loops that collect the non-empty components, base/src/file.act:32-40, 99-102. -/
def parts (p : Path) : List Path := (splitSlash p).filter (· ≠ [])

/-- The length of the common prefix, base/src/file.act:43-47. -/
def common : List Path → List Path → Nat
  | t :: ts, f :: fs => if t ≠ f then 0 else common ts fs + 1
  | _, _ => 0

/-- The components of the result, base/src/file.act:49-64. -/
def relParts (tp fp : List Path) : List Path :=
  List.replicate (fp.length - common tp fp) dotdot ++ tp.drop (common tp fp)

/-- The end of `get_relative_path`, base/src/file.act:66-71. -/
def joinRel (rel : List Path) : Path := if rel = [] then dot else Str.joinWith [slash] rel

/-- `s.startswith('/')`, base/src/file.act:28, 88, 90. -/
def startsSlash (s : Path) : Bool := s.head? = some slash

/-- `get_relative_path`, base/src/file.act:13-71. -/
def getRelative (target frm : Path) : Res Path :=
  if ¬ startsSlash target ∨ ¬ startsSlash frm then .raise .valueError
  else .ok (joinRel (relParts (parts target) (parts frm)))

/-- The loop over the components of the relative path, base/src/file.act:110-120. -/
def resolveLoop : List Path → List Path → Res (List Path)
  | res, [] => .ok res
  | res, p :: ps =>
    if p = dotdot then (if res = [] then .raise .valueError else resolveLoop res.dropLast ps)
    else resolveLoop (res ++ [p]) ps

/-- The end of `resolve_relative_path`, base/src/file.act:122-125. -/
def joinAbs (res : List Path) : Path := if res = [] then [slash] else slash :: Str.joinWith [slash] res

/-- `resolve_relative_path`, base/src/file.act:74-125. -/
def resolve (start rel : Path) : Res Path :=
  if ¬ startsSlash start then .raise .valueError
  else if startsSlash rel then .ok rel
  else if rel = [] ∨ rel = dot then .ok start
  else do
    let res ← resolveLoop (parts start) ((splitSlash rel).filter (· ≠ dot))
    .ok (joinAbs res)

end Verif.Paths
