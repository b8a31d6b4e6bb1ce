import Verif.Zon.Deps
/-!
# Model of the seeding of Zig's package cache; C174, C175

`seedTransitiveZigDeps` in `fetchDependencies`, compiler/lib/src/Acton/Compile.hs:5131-5170: the
dependencies of Zig packages that are given as directories are fetched before Zig runs.

Simplifications: a directory is its normalised name, `resolve` stands for `normalizePathSafe (dir
</> p)`, and the file system and the servers do not change during the walk; `serves u` is the hash
of the archive that a download from `u` gives, `none` if it fails; messages are left out. Recursion
is bounded by `fuel`; `none` means that it was not enough.
-/
namespace Verif.Seed

open Verif.Zon (Text Dep)

abbrev Dir := Text

/-- What the walk finds: `manifest d` is `readZonDependencies` of `d/build.zig.zon`, `none` if it
cannot be parsed, no dependencies if there is no such file (Zon.hs:219-227). -/
structure World where
  manifest : Dir → Option (List (Text × Dep))
  resolve : Dir → Text → Dir
  serves : Text → Option Text

/-- `zigSeen` (directories with prefix `d:`, hashes with prefix `h:`), the hashes in the cache, and
the downloads so far with address and expected hash. -/
structure St where
  dirs : List Dir
  hashes : List Text
  cache : List Text
  log : List (Text × Text)

/-- `fetchOne` with a hash that is not in the cache, Compile.hs:5172-5197, 5213-5223: what was
downloaded is in the cache, also if it has another hash than expected. -/
def fetch (W : World) (s : St) (u h : Text) : St :=
  { s with log := (u, h) :: s.log,
           cache := match W.serves u with | some k => k :: s.cache | none => s.cache }

/-- The case of an address and a hash in `goDep`, Compile.hs:5149-5155; `claimVisited`,
Compile.hs:5169-5170. -/
def seedHash (W : World) (s : St) (u h : Text) : St :=
  if h ∈ s.hashes then s
  else if h ∈ s.cache then { s with hashes := h :: s.hashes }
  else fetch W { s with hashes := h :: s.hashes } u h

/-- `goDep`, Compile.hs:5146-5166, with `goDir` as `rec`. -/
def goDep (W : World) (rec : St → Dir → Option St) (pkg : Dir) (s : St) (nd : Text × Dep) : Option St :=
  if nd.2.lzy then some s
  else match nd.2.path with
    | some (c :: p) => rec s (W.resolve pkg (c :: p))
    | _ => match nd.2.url, nd.2.hash with
      | some u, some h => some (seedHash W s u h)
      | _, _ => some s

/-- `forM_ deps (goDep dirAbs)`. -/
def goDeps (W : World) (rec : St → Dir → Option St) (pkg : Dir) : List (Text × Dep) → St → Option St
  | [], s => some s
  | nd :: ds, s => (goDep W rec pkg s nd).bind (goDeps W rec pkg ds)

/-- `goDir`, Compile.hs:5133-5144. -/
def goDir (W : World) : Nat → St → Dir → Option St
  | 0, _, _ => none
  | n + 1, s, d =>
    if d ∈ s.dirs then some s
    else match W.manifest d with
      | none => some { s with dirs := d :: s.dirs }
      | some deps => goDeps W (goDir W n) d deps { s with dirs := d :: s.dirs }

/-- The packages given as directories, project after project, Compile.hs:5040-5044. -/
def goAll (W : World) (n : Nat) : List Dir → St → Option St
  | [], s => some s
  | d :: ds, s => (goDir W n s d).bind (goAll W n ds)

/-- The state at the beginning, with what the cache has. -/
def start (cache : List Text) : St := ⟨[], [], cache, []⟩

/-! ## Specification -/

/-- A package in `d` has the package in `e` as a dependency that is a directory. -/
def Local (W : World) (d e : Dir) : Prop :=
  ∃ deps name dep p, W.manifest d = some deps ∧ (name, dep) ∈ deps ∧ dep.lzy = false ∧ dep.path = some p ∧ p ≠ [] ∧ e = W.resolve d p

/-- The packages in directories that a build reads. -/
inductive Reach (W : World) (roots : List Dir) : Dir → Prop
  | root {d} : d ∈ roots → Reach W roots d
  | step {d e} : Reach W roots d → Local W d e → Reach W roots e

/-- A package in `d` has an archive at `u` with hash `h` as a dependency. -/
def Archive (W : World) (d : Dir) (u h : Text) : Prop :=
  ∃ deps name dep, W.manifest d = some deps ∧ (name, dep) ∈ deps ∧ dep.lzy = false ∧ (∀ p, dep.path = some p → p = []) ∧
    dep.url = some u ∧ dep.hash = some h

/-- The archives that a build needs, with an address. -/
def Needs (W : World) (roots : List Dir) (u h : Text) : Prop := ∃ d, Reach W roots d ∧ Archive W d u h

/-- Only finitely many directories have a manifest with dependencies. -/
def Finite (W : World) (ms : List Dir) : Prop := ∀ d, d ∉ ms → ∀ deps, W.manifest d = some deps → deps = []

end Verif.Seed
