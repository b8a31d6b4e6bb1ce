/-!
# Lambda lifting

`compiler/lib/src/Acton/LambdaLifter.hs`, first half: functions declared inside functions become
top-level functions with additional parameters for the local variables they use.

Modelled: the free names of a declaration group (`expand`, `iterexpand`, lines 151-158, and the
`where` part of `llSuite`, lines 194-199), the environment (`extLocals`, `extFree`, `extNames`,
`findFree`, `liftedName`, `extraArgs`, lines 122-146), `llSuite` (lines 180-207), `ll` of statements,
of `Def`, and of calls; `envOf` (`QuickType.hs` lines 425-440), `free`, `bound` and `assigned`
(`Names.hs` lines 195-242), `fallsthru` (`Env.hs` line 1316).

Simplifications:
* the statements are assignment to one name, `if` with one branch and `else`, `while` without
  `else`, `return`, and declaration of functions; expressions are names, calls of functions by name
  and other operations, told apart by a number;
* functions are only called: references to functions as values, lambdas, and what is made of them
  (`closureConvert`) are left out, as are classes and all types;
* the name of a lifted function is its number in the supply (`newName`, lines 82-83);
* the code runs `iterexpand` until nothing changes; the model stops after a number of rounds that is
  shown to be enough (`C114_rounds`).
-/

namespace Verif.Lift

abbrev Nm := Nat

/-- Function names of the lifted program: a name of the module, or one from the supply. -/
inductive TName where
  | top (f : Nm)
  | lift (k : Nat)
  deriving DecidableEq, Repr

/-- Expressions, lists of them, suites, declaration groups. -/
inductive Srt where
  | e
  | es
  | s
  | ds

/-- Syntax, with `φ` for function names. -/
inductive Syn (φ : Type) : Srt → Type where
  | var (x : Nm) : Syn φ .e
  | op (k : Nat) (as : Syn φ .es) : Syn φ .e
  | call (f : φ) (as : Syn φ .es) : Syn φ .e
  | enil : Syn φ .es
  | econs (a : Syn φ .e) (as : Syn φ .es) : Syn φ .es
  | done : Syn φ .s
  | assign (x : Nm) (a : Syn φ .e) (r : Syn φ .s) : Syn φ .s
  | ifs (c : Syn φ .e) (b1 b2 r : Syn φ .s) : Syn φ .s
  | whl (c : Syn φ .e) (b r : Syn φ .s) : Syn φ .s
  | ret (a : Syn φ .e) (r : Syn φ .s) : Syn φ .s
  | decl (ds : Syn φ .ds) (r : Syn φ .s) : Syn φ .s
  | dnil : Syn φ .ds
  | dcons (f : φ) (ps : List Nm) (b : Syn φ .s) (ds : Syn φ .ds) : Syn φ .ds
  deriving DecidableEq

namespace Syn

/-- `bound ds`: the functions that a group declares. -/
def names : {s : Srt} → Syn Nm s → List Nm
  | _, .dcons f _ _ ds => f :: ds.names
  | _, _ => []

/-- `assigned`, and `bound` (`Names.hs` lines 218-237), of a suite: all names that it assigns or
declares outside inner functions. -/
def assigned : {s : Srt} → Syn Nm s → List Nm
  | _, .done => []
  | _, .assign x _ r => x :: r.assigned
  | _, .ifs _ b1 b2 r => b1.assigned ++ b2.assigned ++ r.assigned
  | _, .whl _ b r => b.assigned ++ r.assigned
  | _, .ret _ r => r.assigned
  | _, .decl ds r => ds.names ++ r.assigned
  | _, _ => []

/-- `free` (`Names.hs` lines 195-216, 241-242). -/
def free : {s : Srt} → Syn Nm s → List Nm
  | _, .var x => [x]
  | _, .op _ as => as.free
  | _, .call f as => f :: as.free
  | _, .enil => []
  | _, .econs a as => a.free ++ as.free
  | _, .done => []
  | _, .assign _ a r => a.free ++ r.free
  | _, .ifs c b1 b2 r => c.free ++ b1.free ++ b2.free ++ r.free
  | _, .whl c b r => c.free ++ b.free ++ r.free
  | _, .ret a r => a.free ++ r.free
  | _, .decl ds r => ds.free.filter (· ∉ ds.names) ++ r.free
  | _, .dnil => []
  | _, .dcons _ ps b ds => b.free.filter (· ∉ ps ++ b.assigned) ++ ds.free

/-- `fallsthru` (`Env.hs` lines 1311-1330): the end of the suite can be reached. -/
def falls : {s : Srt} → Syn Nm s → Bool
  | _, .done => true
  | _, .assign _ _ r => r.falls
  | _, .ifs _ b1 b2 r => (b1.falls || b2.falls) && r.falls
  | _, .whl _ _ r => r.falls
  | _, .ret _ _ => false
  | _, .decl _ r => r.falls
  | _, _ => false

/-- `commonEnvOf` (`QuickType.hs` lines 437-440), for two suites: the variables of the first that can
reach its end, as far as the other, if it can too, binds them. -/
def common (f1 f2 : Bool) (v1 v2 bound2 : List Nm) : List Nm :=
  if f1 then (if f2 then v1.filter (· ∈ bound2) else v1) else if f2 then v2 else []

/-- The variables of `envOf` (`QuickType.hs` lines 425-435). -/
def envVars : {s : Srt} → Syn Nm s → List Nm
  | _, .done => []
  | _, .assign x _ r => x :: r.envVars
  | _, .ifs _ b1 b2 r => common b1.falls b2.falls b1.envVars b2.envVars b2.assigned ++ r.envVars
  | _, .whl _ _ r => r.envVars
  | _, .ret _ r => r.envVars
  | _, .decl _ r => r.envVars
  | _, _ => []

/-- The definitions of a group. -/
def defs {φ : Type} : {s : Srt} → Syn φ s → List (φ × List Nm × Syn φ .s)
  | _, .dcons f ps b ds => (f, ps, b) :: ds.defs
  | _, _ => []

end Syn

/-- `free d` of a definition. -/
def freeDef (ps : List Nm) (b : Syn Nm .s) : List Nm := b.free.filter (· ∉ ps ++ b.assigned)

/-- `nub`. -/
def nub (xs : List Nm) : List Nm := xs.foldl (fun acc x => if x ∈ acc then acc else acc ++ [x]) []

/-- Maps from functions to names (`freemapX`). -/
abbrev FMap := List (Nm × List Nm)

/-- `expand`, lines 151-152. -/
def expand (F0 F : FMap) : FMap :=
  F.map fun p => (p.1, nub (p.2 ++ (p.2.filterMap (F0.lookup ·)).flatten))

/-- `len`, line 158. -/
def lens (F : FMap) : List Nat := F.map (·.2.length)

/-- `iterexpand`, lines 154-158, for at most `n` rounds. -/
def iterexpand : Nat → FMap → FMap
  | 0, F => F
  | n + 1, F => if lens F = lens (expand F F) then F else iterexpand n (expand F F)

/-- Rounds that are enough: no list grows beyond the names there are. -/
def rounds (F : FMap) : Nat := F.length * (F.flatMap (·.2)).length + 1

/-- `funfree0`, line 197. -/
def funfree0 (ds : Syn Nm .ds) : FMap := ds.defs.map fun d => (d.1, nub (freeDef d.2.1 d.2.2))

/-- `funfree1`, line 196. -/
def funfree1 (F : FMap) (ds : Syn Nm .ds) : FMap :=
  expand F (iterexpand (rounds (funfree0 ds)) (funfree0 ds))

/-- The parameters of the definitions of that name, line 195. -/
def params (ds : Syn Nm .ds) (f : Nm) : List Nm :=
  (ds.defs.filter (·.1 = f)).flatMap (·.2.1)

/-- `funfree`, line 195; `\\` (`Utils.hs` line 76) removes all occurrences. -/
def funfree (F : FMap) (ds : Syn Nm .ds) : FMap :=
  (funfree1 F ds).map fun p => (p.1, p.2.filter (· ∉ params ds p.1))

/-- The environment (`LiftX`, lines 101-108). -/
structure LEnv where
  /-- `localsX` -/
  L : List Nm
  /-- `freemapX` -/
  F : FMap
  /-- `namemapX` -/
  N : List (Nm × Nat)

namespace LEnv

/-- `extLocals`, lines 127-128. -/
def extLocals (env : LEnv) (vs : List Nm) : LEnv :=
  { env with L := vs ++ env.L.filter (· ∉ vs) }

/-- `findFree`, lines 135-137. -/
def findFree (env : LEnv) (f : Nm) : Option (List Nm) :=
  (env.F.lookup f).map fun vs => vs.filter (· ∈ env.L)

/-- `liftedName`, lines 140-142. -/
def tname (env : LEnv) (f : Nm) : TName :=
  match env.N.lookup f with
  | some k => .lift k
  | none => .top f

/-- `extraArgs`, lines 144-146. -/
def extraArgs (env : LEnv) (f : Nm) : List Nm := (env.findFree f).getD []

/-- The environment after a group, lines 182-183 and 194: `extFree`, `extNames`, with `c` the next
of the supply. -/
def group (env : LEnv) (c : Nat) (ds : Syn Nm .ds) : LEnv :=
  { env with
    F := funfree env.F ds ++ env.F
    N := ds.names.zip (List.range' c ds.names.length) ++ env.N }

end LEnv

/-- `addArgs`, line 162. -/
def addArgs (vs : List Nm) (as : Syn TName .es) : Syn TName .es :=
  vs.foldr (fun v as => .econs (.var v) as) as

/-- `ll` of an expression, lines 321-322 and 329-331 (`freefun`, lines 249-259). -/
def llE (env : LEnv) : Syn Nm .e → Syn TName .e
  | .var x => .var x
  | .op k as => .op k (llEs as)
  | .call f as => .call (env.tname f) (addArgs (env.extraArgs f) (llEs as))
where
  llEs : Syn Nm .es → Syn TName .es
    | .enil => .enil
    | .econs a as => .econs (llE env a) (llEs as)

/-- A lifted definition: name, parameters, body. -/
abbrev TDef := TName × List Nm × Syn TName .s

/-- What lifting returns: the suite, the definitions for the top level, the rest of the supply. -/
structure Out where
  s : Syn TName .s
  top : List TDef
  c : Nat

mutual
/-- `llSuite` inside a function, lines 180-186 and 200-201, with `ll` of statements, lines 210-229. -/
def llS (env : LEnv) (c : Nat) : Syn Nm .s → Out
  | .done => ⟨.done, [], c⟩
  | .assign x a r =>
    let o := llS (env.extLocals [x]) c r
    ⟨.assign x (llE env a) o.s, o.top, o.c⟩
  | .ifs e b1 b2 r =>
    let o1 := llS env c b1
    let o2 := llS env o1.c b2
    let o := llS (env.extLocals
      (Syn.common b1.falls b2.falls b1.envVars b2.envVars b2.assigned)) o2.c r
    ⟨.ifs (llE env e) o1.s o2.s o.s, o1.top ++ o2.top ++ o.top, o.c⟩
  | .whl e b r =>
    let o1 := llS env c b
    let o := llS env o1.c r
    ⟨.whl (llE env e) o1.s o.s, o1.top ++ o.top, o.c⟩
  | .ret a r =>
    let o := llS env c r
    ⟨.ret (llE env a) o.s, o.top, o.c⟩
  | .decl ds r =>
    let env1 := env.group c ds
    let d := llD env1 (c + ds.names.length) ds
    let o := llS env1 d.2.2 r
    ⟨o.s, d.2.1 ++ d.1 ++ o.top, o.c⟩
/-- `ll` of the definitions of a group, lines 231-239: the definitions, those lifted out of them,
and the rest of the supply. -/
def llD (env : LEnv) (c : Nat) : Syn Nm .ds → List TDef × List TDef × Nat
  | .dnil => ([], [], c)
  | .dcons f ps b ds =>
    let o := llS (env.extLocals ps) c b
    let d := llD env o.c ds
    ((env.tname f, env.extraArgs f ++ ps, o.s) :: d.1, o.top ++ d.2.1, d.2.2)
end

/-- `liftModule`, lines 31-32, for a module that is one group of functions: lines 190-193, where the
environment is empty. -/
def liftModule (ds : Syn Nm .ds) : List TDef :=
  let d := llD ⟨[], [], []⟩ 1 ds
  d.2.1 ++ d.1

end Verif.Lift
