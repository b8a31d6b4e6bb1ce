import Verif.Common
import Mathlib.Data.List.Dedup
/-!
# Which modules a build compiles: compiler/lib/src/Acton/Compile.hs

Projects and tasks are numbers. Sets of the original are lists here, of which only the elements count. The
closures of the original recur on work lists; here they get a number of steps that is enough (the theorems of
`Projects.lean` and `Select.lean` say what they compute, so they would fail if it was not).
-/
namespace Verif.Plan

/-! ## Projects -/

/-- `projMap`: the projects with the projects that they depend on (`projDeps`, without their names). -/
abbrev Ctxs := List (Nat × List Nat)

/-- `M.lookup` -/
def find (ctxs : Ctxs) (d : Nat) : Option (List Nat) := (ctxs.find? (·.1 = d)).map (·.2)

/-- `depsOf` (Compile.hs:5431) -/
def depsOf (ctxs : Ctxs) (d : Nat) : List Nat := (find ctxs d).getD []

/-- `dfs` (Compile.hs:5433-5438): `seen` is handed to the dependencies, but not from one to the next. -/
def dfs (ctxs : Ctxs) : Nat → List Nat → List Nat → Nat → List Nat
  | 0, _, acc, _ => acc
  | f + 1, seen, acc, node =>
    if node ∈ seen then acc
    else node :: (depsOf ctxs node).foldl (fun a n => dfs ctxs f (node :: seen) a n) acc

/-- `projDepClosure` (Compile.hs:5428-5429) -/
def projDepClosure (ctxs : Ctxs) (root : Nat) : List Nat := (dfs ctxs (ctxs.length + 1) [] [] root).reverse

/-- `go` and `step` (Compile.hs:5286-5301), the list being the projects of the directories. -/
def typesGo (ctxs : Ctxs) : Nat → List Nat → Nat → List Nat × List Nat
  | 0, seen, _ => (seen, [])
  | f + 1, seen, node =>
    match find ctxs node with
    | none => (seen, [])
    | some ds => ds.foldl (fun r d =>
        match find ctxs d with
        | none => (d :: r.1, r.2)
        | some _ =>
          if d ∈ r.1 then r
          else
            let q := typesGo ctxs f (d :: r.1) d
            (q.1, r.2 ++ [d] ++ q.2)) (node :: seen, [])

/-- `depTypePathsFromMap` (Compile.hs:5283-5284) -/
def depTypePaths (ctxs : Ctxs) (root : Nat) : List Nat := (typesGo ctxs (ctxs.length + 1) [] root).2

/-! ## Providers of imports -/

/-- Module names: the parts of the path. -/
abbrev Mod := List Nat

/-- `resolveProviders` (Compile.hs:1546-1571) of one import behind `imps'`, without `addLib`: an entry for each
project of the search order that declares the module; `M.fromList` keeps the last. -/
def provider (mods : Nat → List Mod) (p0 : Nat) (own : Mod → Mod) (order : List Nat) (mn : Mod) : Option (Nat × Mod) :=
  if own mn ∈ mods p0 then some (p0, own mn)
  else ((order.filter fun p => mn ∈ mods p).map fun p => (p, mn)).getLast?

/-- `findTyFile` (Env.hs:1377-1386) on the search path of a project (Compile.hs:4761-4764), without the user's
and the system's directories. A project has the interfaces of its modules. -/
def searched (mods : Nat → List Mod) (p0 : Nat) (paths : List Nat) (mn : Mod) : Option Nat :=
  (p0 :: paths).find? fun p => mn ∈ mods p

/-! ## Tasks -/

abbrev Key := Nat

/-- `GlobalTask`: the key, and the keys of the providers of its imports. -/
structure Task where
  key : Key
  deps : List Key

/-- `M.findWithDefault [] k` of a map from keys to lists, the tasks having different keys. -/
def deps (ts : List Task) (k : Key) : List Key := ((ts.find? (·.key = k)).map (·.deps)).getD []

/-- The dependencies that are tasks (Compile.hs:1706-1709, 1852-1855). -/
def inner (ts : List Task) : List Task := ts.map fun t => ⟨t.key, t.deps.filter fun d => d ∈ ts.map (·.key)⟩

/-- `revMap` (Compile.hs:1710-1713): the tasks that depend on `k`. -/
def rev (ts : List Task) (k : Key) : List Key := (ts.flatMap fun t => (t.deps.filter (· = k)).map fun _ => t.key).reverse

/-- Steps enough for a work list that starts with `n` elements. -/
def enough (ts : List Task) (g : Key → List Key) (n : Nat) : Nat := n + (ts.map fun t => 1 + (g t.key).length).sum

/-- `reachable` (Compile.hs:1676-1684, 1872-1880) -/
def goReach (g : Key → List Key) : Nat → List Key → List Key → List Key
  | 0, _, seen => seen
  | _ + 1, [], seen => seen
  | f + 1, k :: ks, seen => if k ∈ seen then goReach g f ks seen else goReach g f (g k ++ ks) (k :: seen)

def reachable (ts : List Task) (start : List Key) : List Key := goReach (deps ts) (enough ts (deps ts) start.length) start []

/-- `selectNeededTasks` (Compile.hs:1642-1658). `lookup` gives the task of a file, `named` those with a file of
that name, `builtin` are the tasks of `__builtin__`. -/
def selectNeeded {F : Type} (ts : List Task) (lookup : F → Option Key) (named : F → List Key) (builtin : List Key)
    (files : List F) : List Task :=
  let req := files.filterMap lookup
  let req' := if req = [] then files.flatMap named else req
  let start := if req' = [] then ts.map (·.key) else req' ++ builtin
  ts.filter fun t => t.key ∈ reachable ts start

/-- Steps enough for a work list whose elements are marked when they are put there. -/
def enough2 (ts : List Task) (g : Key → List Key) (n : Nat) : Nat :=
  n + ts.length * (ts.map fun t => (g t.key).length).sum

/-- `reverseClosure` (Compile.hs:1720-1728), and `go` (Compile.hs:1767-1772) -/
def goMark (g : Key → List Key) : Nat → List Key → List Key → List Key
  | 0, _, seen => seen
  | _ + 1, [], seen => seen
  | f + 1, k :: ks, seen =>
    let new := (g k).filter (· ∉ seen)
    goMark g f (ks ++ new) (new ++ seen)

/-- `affected` (Compile.hs:1714) -/
def affected (ts : List Task) (changed : List Key) : List Key :=
  goMark (rev (inner ts)) (enough2 ts (rev (inner ts)) changed.length) changed changed

/-- `reaches` (Compile.hs:1758-1765); `dbp` tells the providers whose code is generated late. -/
def reaches (g : Key → List Key) (dbp : Key → Bool) : Nat → List Key → Key → Bool
  | 0, _, _ => false
  | f + 1, seen, k =>
    if k ∈ seen then false
    else if dbp k then true
    else (g k).any (reaches g dbp f (k :: seen))

/-- `pathKeys` (Compile.hs:1745, 1767-1772) -/
def pathKeys (ts : List Task) (dbp : Key → Bool) (aff : List Key) : List Key :=
  let g := fun k => (deps (inner ts) k).filter (reaches (deps (inner ts)) dbp (ts.length + 1) [])
  goMark g (enough2 ts g aff.length) aff []

/-- `reverseReachable` (Compile.hs:1774-1781) -/
def goRev (g : Key → List Key) : Nat → List Key → List Key → List Key
  | 0, _, seen => seen
  | _ + 1, [], seen => seen
  | f + 1, k :: ks, seen => if k ∈ seen then goRev g f ks seen else goRev g f (ks ++ g k) (k :: seen)

/-- `dbpProviderPathClosure` (Compile.hs:1732-1781) -/
def pathClosure (ts : List Task) (dbp : Key → Bool) (aff : List Key) : List Key :=
  let ps := pathKeys ts dbp aff
  let prov := ps.filter dbp
  ps ++ goRev (rev (inner ts)) (enough ts (rev (inner ts)) prov.length) prov []

/-- `selectAffectedTasks` (Compile.hs:1691-1718) on the keys of the changed files. -/
def selectAffected (ts : List Task) (dbp : Key → Bool) (changed : List Key) : List Task :=
  if changed = [] then ts
  else ts.filter fun t => t.key ∈ affected ts changed ++ pathClosure ts dbp (affected ts changed)

/-- `addLibraries` (Compile.hs:1863-1868) -/
def addLibs (groups : List (List Key)) (keys : List Key) : List Key :=
  groups.foldl (fun acc g => if g.any (· ∈ acc) then acc ++ g else acc) keys

/-- One turn of `close` (Compile.hs:1859-1860) -/
def turn (ts : List Task) (groups : List (List Key)) (keys : List Key) : List Key :=
  addLibs groups (reachable (inner ts) (addLibs groups keys))

/-- `close` (Compile.hs:1859-1861) -/
def close (ts : List Task) (groups : List (List Key)) : Nat → List Key → List Key
  | 0, keys => keys
  | f + 1, keys =>
    if (turn ts groups keys).all (· ∈ keys) && keys.all (· ∈ turn ts groups keys) then keys
    else close ts groups f (turn ts groups keys)

/-- `expandBuildLibraryTasks` (Compile.hs:1845-1857); `groups` are the keys of the libraries' modules, all of them
tasks (Compile.hs:1822-1829). -/
def expand (ts : List Task) (groups : List (List Key)) (selected : List Key) : List Task :=
  ts.filter fun t => t.key ∈ close ts groups (ts.length + 1) selected

end Verif.Plan
