import Verif.Mro.Model

/-!
Model of the tests on types that the type solver of the Acton compiler builds on: whether one type can
be used for another (`castable`), and the least common supertype and greatest common subtype (`lub`,
`glb`), `compiler/lib/src/Acton/Env.hs:1066-1306`.

The functions of the compiler recurse through the bounds of type variables and through type aliases,
whose depth no type bounds; the model bounds the depth by a number. `castable` has no negation, so a
larger number only makes more types castable. Simplifications of types are those of `Verif.Ty`
(no `TUnboxed`); modules, imports and aliases of names are left out.
-/
namespace Verif.Cast
open Verif.Ty Verif.Mro

/-- `EnvF`, cut down to classes, protocols and actors (`cls`), type aliases (`NType q t`: the variables
bound by `q`, and `t`), the bounds of the type variables in scope (`NTVar _ c ps`), and the names in
`covariant` (Subst.hs:586). -/
structure Env where
  cls : Mro.Env
  als : Nat → Option (List Nat × Ty)
  bound : Nat → Option Con
  cov : List Nat

/-- `findCon` (Env.hs:819-834), first component; an alias has no ancestors (Env.hs:831), and an unknown
name, which stops the compiler, neither. -/
def anc (E : Env) (c : Con) : List Con :=
  match findCon E.cls c with
  | .ok es => es.map Entry.con
  | .error _ => []

/-- `findAncestor` (Env.hs:768-769), without the witness. -/
def findAncestor (E : Env) (c : Con) (n : Nat) : Option Con := (c :: anc E c).find? (fun c' => c'.name == n)

/-- The stored ancestors of a name (`findConName`, Env.hs:826-834). -/
def ancOf (E : Env) (n : Nat) : List Con :=
  match findInfo E.cls n with
  | some i => i.anc.map Entry.con
  | none => []

/-- `hasAncestor` (Env.hs:771-776). -/
def hasAncestor (E : Env) (c c' : Con) : Bool := ((ancOf E c.name).map Con.name).contains c'.name

/-- `commonAncestors` (Env.hs:778-780). -/
def commonAncestors (E : Env) (c1 c2 : Con) : List Con :=
  (c1 :: anc E c1).filter (fun c => ((c2 :: anc E c2).map Con.name).contains c.name)

/-- `tExpand` (Env.hs:809-812). -/
def expand (E : Env) (n : Nat) (ts : List Ty) : Option Ty :=
  match E.als n with
  | some (tvs, t) => some (Ty.vsubst (tvs.zip ts) t)
  | none => none

/-- `findTVBound` (Env.hs:1016-1019), as a type. -/
def boundTy (E : Env) (v : Nat) : Option Ty :=
  match E.bound v with
  | some c => some (.con c.name c.args)
  | none => none

/-- `all (uncurry f) (ts `zip` us)` (Env.hs:1075). -/
def allZip (f : Ty → Ty → Bool) : List Ty → List Ty → Bool
  | t :: ts, u :: us => f t u && allZip f ts us
  | _, _ => true

/-- `castable'` (Env.hs:1095-1103). -/
def castFX : FX → FX → Bool
  | .pure, .pure => true
  | .pure, .mutable => true
  | .pure, .proc => true
  | .mutable, .mutable => true
  | .mutable, .proc => true
  | .proc, .proc => true
  | .action, .action => true
  | .action, .proc => true
  | _, _ => false

/-- Apply a test, false without argument. -/
def test (f : Ty → Bool) : Option Ty → Bool
  | some t => f t
  | none => false

/-- The clauses of `castable` (Env.hs:1069-1122); `rec_` stands for the recursive calls. -/
def castStep (E : Env) (rec_ : Ty → Ty → Bool) : Ty → Ty → Bool
  | .wild, _ => true
  | _, .wild => true
  | .con c1 a1, .con c2 a2 =>
    if c1 = c2 ∧ c1 ∈ E.cov then allZip rec_ a1 a2
    else
      match findAncestor E ⟨c1, a1⟩ c2 with
      | some c' => decide (a2 = c'.args)
      | none =>
        match expand E c1 a1 with
        | some t1' => rec_ t1' (.con c2 a2)
        | none => test (rec_ (.con c1 a1)) (expand E c2 a2)
  | .con c1 a1, .opt t =>
    match expand E c1 a1 with
    | some t1' => rec_ t1' (.opt t)
    | none => rec_ (.con c1 a1) t
  | .con c1 a1, t2 => test (fun t1' => rec_ t1' t2) (expand E c1 a1)
  | .var v, .con c2 a2 =>
    match expand E c2 a2 with
    | some t2' => rec_ (.var v) t2'
    | none => test (fun t1' => rec_ t1' (.con c2 a2)) (boundTy E v)
  | t1, .con c2 a2 => test (rec_ t1) (expand E c2 a2)
  | .fn fx1 p1 k1 t1, .fn fx2 p2 k2 t2 =>
    rec_ fx1 fx2 && rec_ p2 p1 && rec_ k2 k1 && rec_ t1 t2
  | .tup p1 k1, .tup p2 k2 => rec_ p1 p2 && rec_ k1 k2
  | .opt t1, .opt t2 => rec_ t1 t2
  | .none_, .opt _ => true
  | .none_, .none_ => true
  | .fx f1, .fx f2 => castFX f1 f2
  | .nil k1, .nil k2 => decide (k1 = k2)
  | .row k1 n1 t1 r1, .row k2 n2 t2 r2 =>
    decide (k1 = k2 ∧ n1 = n2) && rec_ t1 t2 && rec_ r1 r2
  | .star k1 r1, .star k2 r2 => decide (k1 = k2) && rec_ r1 r2
  | .var v1, .var v2 => if v1 = v2 then true else test (fun t1' => rec_ t1' (.var v2)) (boundTy E v1)
  | .var v1, t2 => test (fun t1' => rec_ t1' t2) (boundTy E v1)
  | _, .var _ => false
  | t1, .opt t2 => rec_ t1 t2
  | _, _ => false

/-- `castable` (Env.hs:1069-1122), to depth `n`. -/
def castable (E : Env) : Nat → Ty → Ty → Bool
  | 0 => fun _ _ => false
  | n + 1 => castStep E (castable E n)

/-- `glfx` (Env.hs:1169-1184). -/
def glFX : FX → FX → Option FX
  | .pure, .action => none
  | .mutable, .action => none
  | .action, .pure => none
  | .action, .mutable => none
  | .pure, _ => some .pure
  | _, .pure => some .pure
  | .mutable, _ => some .mutable
  | _, .mutable => some .mutable
  | .proc, .proc => some .proc
  | _, _ => some .action

/-- `lufx` (Env.hs:1262-1277). -/
def luFX : FX → FX → FX
  | .pure, .pure => .pure
  | .pure, .mutable => .mutable
  | .mutable, .pure => .mutable
  | .mutable, .mutable => .mutable
  | .action, .action => .action
  | _, _ => .proc

/-- `posRow` (Syntax.hs:386): the label of a positional component is `nWild`, here 0. -/
def posRow (t r : Ty) : Ty := .row .prow 0 t r

/-- `lub` of two classes (Env.hs:1229-1234). -/
def lubCon (E : Env) (c1 c2 : Con) : Option Con :=
  if c1.name = c2.name then some c1
  else if hasAncestor E c1 c2 then some c2
  else if hasAncestor E c2 c1 then some c1
  else (commonAncestors E c1 c2).head?

/-- `glb` of two classes (Env.hs:1140-1143). -/
def glbCon (E : Env) (c1 c2 : Con) : Option Con :=
  if c1.name = c2.name then some c1
  else if hasAncestor E c1 c2 then some c1
  else if hasAncestor E c2 c1 then some c2
  else none

/-- A class as a type. -/
def conTy (c : Con) : Ty := .con c.name c.args

/-- The clauses of `lub` after those for type constructors (Env.hs:1241-1287): `rec_` is `lub`,
`rows` is `lub2` and `pars` is `glb2`. -/
def lubRest (rec_ : Ty → Ty → Option Ty) (rows pars : Ty → Ty → Ty → Ty → Option (Ty × Ty)) :
    Ty → Ty → Option Ty
  | .fn e1 p1 k1 t1, .fn e2 p2 k2 t2 =>
    (rec_ e1 e2).bind fun e => (pars p1 k1 p2 k2).bind fun pk =>
      (rec_ t1 t2).bind fun t => some (.fn e pk.1 pk.2 t)
  | .tup p1 k1, .tup p2 k2 => (rows p1 k1 p2 k2).bind fun pk => some (.tup pk.1 pk.2)
  | .opt t1, .opt t2 => (rec_ t1 t2).map Ty.optOf
  | .none_, .none_ => some .none_
  | .none_, .opt t2 => some (.opt t2)
  | .opt t1, .none_ => some (.opt t1)
  | .none_, t2 => some (Ty.optOf t2)
  | t1, .none_ => some (Ty.optOf t1)
  | .opt t1, t2 => (rec_ t1 t2).map Ty.optOf
  | t1, .opt t2 => (rec_ t1 t2).map Ty.optOf
  | .fx f1, .fx f2 => some (.fx (luFX f1 f2))
  | .nil k1, .nil k2 => if k1 = k2 then some (.nil k1) else none
  | .row k1 n1 t1 r1, .row k2 n2 t2 r2 =>
    if k1 = k2 ∧ n1 = n2 then
      (rec_ t1 t2).bind fun t => (rec_ r1 r2).bind fun r => some (.row k1 n1 t r)
    else none
  | .star k1 r1, .star k2 r2 => if k1 = k2 then (rec_ r1 r2).map (.star k1) else none
  | _, _ => none

/-- The clauses of `glb` after those for type constructors (Env.hs:1150-1193): `rec_` is `glb`,
`rows` is `glb2` and `pars` is `lub2`. -/
def glbRest (rec_ : Ty → Ty → Option Ty) (rows pars : Ty → Ty → Ty → Ty → Option (Ty × Ty)) :
    Ty → Ty → Option Ty
  | .fn e1 p1 k1 t1, .fn e2 p2 k2 t2 =>
    (rec_ e1 e2).bind fun e => (pars p1 k1 p2 k2).bind fun pk =>
      (rec_ t1 t2).bind fun t => some (.fn e pk.1 pk.2 t)
  | .tup p1 k1, .tup p2 k2 => (rows p1 k1 p2 k2).bind fun pk => some (.tup pk.1 pk.2)
  | .opt t1, .opt t2 => (rec_ t1 t2).map Ty.optOf
  | .none_, _ => some .none_
  | _, .none_ => some .none_
  | .opt t1, t2 => rec_ t1 t2
  | t1, .opt t2 => rec_ t1 t2
  | .fx f1, .fx f2 => (glFX f1 f2).map .fx
  | .nil k1, .nil k2 => if k1 = k2 then some (.nil k1) else none
  | .row k1 n1 t1 r1, .row k2 n2 t2 r2 =>
    if k1 = k2 ∧ n1 = n2 then
      (rec_ t1 t2).bind fun t => (rec_ r1 r2).bind fun r => some (.row k1 n1 t r)
    else none
  | .star k1 r1, .star k2 r2 => if k1 = k2 then (rec_ r1 r2).map (.star k1) else none
  | _, _ => none

/-- The clauses of `lub` (Env.hs:1218-1287); `rec_`, `rows` and `pars` are as in `lubRest`. -/
def lubStep (E : Env) (rec_ : Ty → Ty → Option Ty) (rows pars : Ty → Ty → Ty → Ty → Option (Ty × Ty)) :
    Ty → Ty → Option Ty
  | .wild, _ => some .wild
  | _, .wild => some .wild
  | .var v1, .var v2 =>
    if v1 = v2 then some (.var v1) else (boundTy E v2).bind (fun t => rec_ (.var v1) t)
  | t1, .var v => (boundTy E v).bind (fun t => rec_ t1 t)
  | .var v, t2 => (boundTy E v).bind (fun t => rec_ t t2)
  | .uni _, _ => some .wild
  | _, .uni _ => some .wild
  | .con c1 a1, .con c2 a2 =>
    match lubCon E ⟨c1, a1⟩ ⟨c2, a2⟩ with
    | some c => some (conTy c)
    | none =>
      match expand E c1 a1 with
      | some t1' => rec_ t1' (.con c2 a2)
      | none => (expand E c2 a2).bind (fun t2' => rec_ (.con c1 a1) t2')
  | .con c1 a1, t2 =>
    match expand E c1 a1 with
    | some t1' => rec_ t1' t2
    | none => lubRest rec_ rows pars (.con c1 a1) t2
  | t1, .con c2 a2 =>
    match expand E c2 a2 with
    | some t2' => rec_ t1 t2'
    | none => lubRest rec_ rows pars t1 (.con c2 a2)
  | t1, t2 => lubRest rec_ rows pars t1 t2

/-- The clauses of `lub2` (Env.hs:1291-1301); `rec_` is `lub`, `rows` is `lub2`. -/
def lub2Step (rec_ : Ty → Ty → Option Ty) (rows : Ty → Ty → Ty → Ty → Option (Ty × Ty)) :
    Ty → Ty → Ty → Ty → Option (Ty × Ty)
  | .row _ _ t1 p1, k1, .row _ _ t2 p2, k2 =>
    (rec_ t1 t2).bind fun t => (rows p1 k1 p2 k2).bind fun pk => some (posRow t pk.1, pk.2)
  | .row _ _ t1 p1, k1, .nil q, .row q' l t2 k2 =>
    rows p1 (.row .krow l t1 k1) (.nil q) (.row q' l t2 k2)
  | .nil q, .row q' l t1 k1, .row _ _ t2 p2, k2 =>
    rows (.nil q) (.row q' l t1 k1) p2 (.row .krow l t2 k2)
  | p1, k1, p2, k2 =>
    (rec_ p1 p2).bind fun p => (rec_ k1 k2).bind fun k => some (p, k)

/-- The clauses of `glb` (Env.hs:1132-1193); `rec_`, `rows` and `pars` are as in `glbRest`. -/
def glbStep (E : Env) (rec_ : Ty → Ty → Option Ty) (rows pars : Ty → Ty → Ty → Ty → Option (Ty × Ty)) :
    Ty → Ty → Option Ty
  | .wild, _ => some .wild
  | _, .wild => some .wild
  | .var v1, .var v2 => if v1 = v2 then some (.var v1) else none
  | .uni _, _ => some .wild
  | _, .uni _ => some .wild
  | .con c1 a1, .con c2 a2 =>
    match glbCon E ⟨c1, a1⟩ ⟨c2, a2⟩ with
    | some c => some (conTy c)
    | none =>
      match expand E c1 a1 with
      | some t1' => rec_ t1' (.con c2 a2)
      | none => (expand E c2 a2).bind (fun t2' => rec_ (.con c1 a1) t2')
  | .con c1 a1, t2 =>
    match expand E c1 a1 with
    | some t1' => rec_ t1' t2
    | none => glbRest rec_ rows pars (.con c1 a1) t2
  | t1, .con c2 a2 =>
    match expand E c2 a2 with
    | some t2' => rec_ t1 t2'
    | none => glbRest rec_ rows pars t1 (.con c2 a2)
  | t1, t2 => glbRest rec_ rows pars t1 t2

/-- The clauses of `glb2` (Env.hs:1196-1206); `rec_` is `glb`, `rows` is `glb2`. -/
def glb2Step (rec_ : Ty → Ty → Option Ty) (rows : Ty → Ty → Ty → Ty → Option (Ty × Ty)) :
    Ty → Ty → Ty → Ty → Option (Ty × Ty)
  | .row _ _ t1 p1, k1, .row _ _ t2 p2, k2 =>
    (rec_ t1 t2).bind fun t => (rows p1 k1 p2 k2).bind fun pk => some (posRow t pk.1, pk.2)
  | .row q l t1 p1, k1, .nil q', .row _ _ t2 k2 =>
    rows (.row q l t1 p1) k1 (posRow t2 (.nil q')) k2
  | .nil q, .row _ _ t1 k1, .row q' l t2 p2, k2 =>
    rows (posRow t1 (.nil q)) k1 (.row q' l t2 p2) k2
  | p1, k1, p2, k2 =>
    (rec_ p1 p2).bind fun p => (rec_ k1 k2).bind fun k => some (p, k)

mutual
/-- `lub`, to depth `n`. -/
def lub (E : Env) : Nat → Ty → Ty → Option Ty
  | 0 => fun _ _ => none
  | n + 1 => lubStep E (lub E n) (lub2 E n) (glb2 E n)
/-- `lub2`, to depth `n`. -/
def lub2 (E : Env) : Nat → Ty → Ty → Ty → Ty → Option (Ty × Ty)
  | 0 => fun _ _ _ _ => none
  | n + 1 => lub2Step (lub E n) (lub2 E n)
/-- `glb`, to depth `n`. -/
def glb (E : Env) : Nat → Ty → Ty → Option Ty
  | 0 => fun _ _ => none
  | n + 1 => glbStep E (glb E n) (glb2 E n) (lub2 E n)
/-- `glb2`, to depth `n`. -/
def glb2 (E : Env) : Nat → Ty → Ty → Ty → Ty → Option (Ty × Ty)
  | 0 => fun _ _ _ _ => none
  | n + 1 => glb2Step (glb E n) (glb2 E n)
end

/-- `lubfold` (Env.hs:1304-1306). -/
def lubfold (E : Env) (n : Nat) (ts : List Ty) : Option Ty :=
  match ts.filter (· ≠ .wild) with
  | [] => some .wild
  | t :: ts => ts.foldlM (lub E n) t

/-- `glbfold` (Env.hs:1209-1211). -/
def glbfold (E : Env) (n : Nat) (ts : List Ty) : Option Ty :=
  match ts.filter (· ≠ .wild) with
  | [] => some .wild
  | t :: ts => ts.foldlM (glb E n) t

end Verif.Cast
