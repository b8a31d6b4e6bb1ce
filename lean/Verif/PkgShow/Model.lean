import Mathlib.Data.List.Basic
/-!
# Model of `acton pkg show`; C176, C177

`pkgShow`, compiler/acton/Main.hs:1147-1200: prints the tree of the dependencies of a project.

Simplifications: a directory is its normalised name; the file system does not change. `spec d` is
`loadBuildSpec d`, `none` if it fails; `resolve` is `resolveDepBase` (Compile.hs:5305-5313). A line
is kept as what it shows. Recursion is bounded by `fuel`; `none` means that it was not enough.
-/
namespace Verif.PkgShow

abbrev Text := List Char

/-- `PkgDep`, compiler/lib/src/Acton/BuildSpec.hs:56-62; `other` stands for the fields that are only
compared. -/
structure Dep where
  path : Option Text
  hash : Option Text
  other : List Text
  deriving DecidableEq

structure World where
  spec : Text → Option (List (Text × Dep))
  resolve : Text → Text → Dep → Option Text
  exist : Text → Bool

/-- A line: `describeDep dep`, then ` overridden -> ` with `describeDep chosen` if `over` is set,
then ` (not fetched)` if `missing` is set, Main.hs:1184-1188. -/
structure Line where
  depth : Nat
  name : Text
  dep : Dep
  chosen : Dep
  over : Bool
  missing : Bool
  dir : Text

/-- What is printed, the result of `showTree`, and whether an error ended it. -/
structure Out where
  lines : List Line
  part : Bool
  failed : Bool

/-- `isHashDep`, Main.hs:1166-1171. -/
def isHash (d : Dep) : Bool :=
  match d.path with
  | some (_ :: _) => false
  | _ => d.hash.isSome

/-- `M.lookup`. -/
def look (k : Text) : List (Text × Dep) → Option Dep
  | [] => none
  | (n, d) :: r => if k = n then some d else look k r

/-- `chosen` and `conflict`, Main.hs:1178-1181. -/
def choose (pins : List (Text × Dep)) (name : Text) (dep : Dep) : Dep × Bool :=
  match look name pins with
  | none => (dep, false)
  | some pin => if pin = dep then (dep, false) else (pin, true)

/-- Lines in front of what follows. -/
def Out.after (o : Out) (ls : List Line) : Out := { o with lines := ls ++ o.lines }

/-- The line of a dependency, Main.hs:1184-1188. -/
def lineOf (W : World) (depth : Nat) (name : Text) (dep : Dep) (c : Dep × Bool) (base : Text) : Line :=
  ⟨depth, name, dep, c.1, c.2, isHash c.1 && !W.exist base, base⟩

/-- `foldM (step pins dir depth)`, Main.hs:1175-1200, with `showTree` of the dependency as `rec`. -/
def steps (W : World) (pins : List (Text × Dep)) (rec : Text → Option Out) (dir : Text) (depth : Nat) :
    List (Text × Dep) → Bool → Option Out
  | [], part => some ⟨[], part, false⟩
  | (name, dep) :: ds, part =>
    match W.resolve dir name (choose pins name dep).1 with
    | none => some ⟨[], part, true⟩
    | some base =>
      if W.exist base then
        match rec base with
        | none => none
        | some o =>
          if o.failed then some (o.after [lineOf W depth name dep (choose pins name dep) base])
          else (steps W pins rec dir depth ds (part || o.part)).map
            (fun r => r.after (lineOf W depth name dep (choose pins name dep) base :: o.lines))
      else if isHash (choose pins name dep).1 then
        (steps W pins rec dir depth ds true).map (fun r => r.after [lineOf W depth name dep (choose pins name dep) base])
      else some ⟨[lineOf W depth name dep (choose pins name dep) base], part, true⟩

/-- `loadBuildSpec` and `showTree`, Main.hs:1173-1175, 1198-1199. -/
def tree (W : World) (pins : List (Text × Dep)) : Nat → Nat → Text → Option Out
  | 0, _, _ => none
  | n + 1, depth, dir =>
    match W.spec dir with
    | none => some ⟨[], false, true⟩
    | some deps => steps W pins (tree W pins n (depth + 1)) dir depth deps false

/-! ## Specification -/

/-- The dependency that counts for a name: that of the root, if it has one. (Names are not repeated in
`pins`, which is a map; were they, the first would count.) -/
def Counts (pins : List (Text × Dep)) (name : Text) (dep c : Dep) : Prop :=
  (∃ pre post, pins = pre ++ (name, c) :: post ∧ ∀ x ∈ pre, x.1 ≠ name) ∨ ((∀ x ∈ pins, x.1 ≠ name) ∧ c = dep)

/-- The dependency is an archive: it has a hash, and no path or an empty one. -/
def Archive (d : Dep) : Prop := (∃ h, d.hash = some h) ∧ (d.path = none ∨ d.path = some [])

/-- The project in `d` declares `dep` under `name`, `c` counts for it and is in `e`. -/
def Declares (W : World) (pins : List (Text × Dep)) (d : Text) (name : Text) (dep c : Dep) (e : Text) : Prop :=
  ∃ deps, W.spec d = some deps ∧ (name, dep) ∈ deps ∧ Counts pins name dep c ∧ W.resolve d name c = some e

/-- The project in `d` depends on the one in `e`, which exists. -/
def Edge (W : World) (pins : List (Text × Dep)) (d e : Text) : Prop :=
  ∃ name dep c, Declares W pins d name dep c e ∧ W.exist e = true

/-- The projects of the tree, with the number of dependencies that lead to them. -/
inductive Path (W : World) (pins : List (Text × Dep)) (root : Text) : Nat → Text → Prop
  | root : Path W pins root 0 root
  | step {k d e} : Path W pins root k d → Edge W pins d e → Path W pins root (k + 1) e

end Verif.PkgShow
