import Mathlib.Data.List.Basic
import Mathlib.Data.List.Dedup

/-!
# Incremental builds

`compiler/lib/src/Acton/Compile.hs`: what `runFrontPasses` (lines 2292-2740) records about a module,
and how `doOne` (lines 3320-4110) decides in a later build whether the module has to go through the
front passes again, only has its implementation hashes refreshed, or is taken as it was recorded.
`Hashing.hs`: `mergePubDeps` (851-862), `assembleNameHashes` (1560-1590), `refreshImplHashes`
(1611-1637), `moduleHashesFromHashMaps` (1639-1669).

Simplifications:
* parsing, name resolution, kind and type inference are one function `front`, given by the user of
  the model;  what it sees of other modules are the public hashes of their public names, which stand
  for the interfaces they are hashes of;  the hash of the bytes of a source stands for the source;
* the combination of hashes (`computeHashesSortedDeps`, modelled in `Verif.Hash`) and the hash of a
  module are functions given by the user of the model; an empty hash is `none`;
* every item of a module has a `NameInfo` and every name of the interface has an item; names are
  recorded in the order in which `front` gives them;
* the recorded dependencies are kept with the names that have them; the index of dependencies in
  the file, from which the code reads them (`depIndexEntries`), is left out;
* the order of `pubDeps`, which is not hashed, is not that of `mergeSortedDistinct`;
* `__builtin__` is a module like others; modules outside of the project, options that force work,
  generated code and its up-to-date check, deferred back jobs and files are left out; a module
  whose provider has failed is treated by the scheduler (`Verif.Build`), here it fails because its
  import is missing.
-/

namespace Verif.Incr

variable {κ ν η σ τ : Type} [DecidableEq κ] [DecidableEq ν] [DecidableEq η]

/-- The typed item of a name (`implItems`, Compile.hs lines 2505-2507, 2583-2588): the hash of the
item itself, and the names that it mentions, of the module and of others, in the order of `Ord`. -/
structure Impl (κ ν η : Type) where
  own : η
  locals : List ν
  ext : List (κ × ν)

/-- What the front passes find out about a name (Compile.hs lines 2546-2590): the hash of its
`NameInfo` itself, the names mentioned in it, and its typed item if it has one. -/
structure Entry (κ ν η : Type) where
  name : ν
  self : η
  sigLocals : List ν
  sigExt : List (κ × ν)
  impl : Option (Impl κ ν η)

/-- The names that the item mentions in other modules. -/
def Entry.implExt (e : Entry κ ν η) : List (κ × ν) :=
  match e.impl with
  | some i => i.ext
  | none => []

/-- The names that the item mentions in its module. -/
def Entry.implLocals (e : Entry κ ν η) : List ν :=
  match e.impl with
  | some i => i.locals
  | none => []

/-- The hash of the item. -/
def Entry.own (e : Entry κ ν η) : Option η := e.impl.map Impl.own

/-- The result of the front passes before final hashing: the names and the rest (`nmod`,
`tchecked`). -/
structure Typed (κ ν η τ : Type) where
  entries : List (Entry κ ν η)
  content : τ

/-- What is recorded for a name (`NameHashInfo`, InterfaceFiles.hs lines 180-213). -/
structure Row (κ ν η : Type) where
  name : ν
  pub : Option η
  impl : Option η
  own : Option η
  locals : List ν
  pubDeps : List ((κ × ν) × η)
  implDeps : List ((κ × ν) × η)

/-- What is recorded for a module in its `.tydb` file: its source, its typed contents, the rows of
its names, the hashes of its dependencies as modules (`DepModuleInfo`), and its own hashes. -/
structure Rec (κ ν η σ τ : Type) where
  src : σ
  typed : Typed κ ν η τ
  rows : List (Row κ ν η)
  depMods : List (κ × η × η)
  pubH : η
  implH : η

/-- The functions that the model is given.  `final` is `computeHashesSortedDeps` (Hashing.hs lines
1415-1500), applied to the hashes, local and external dependencies of all names; `whole` is
`hashNameHashMapEntriesForNames` with its tag (lines 788-791); `key` is `sortOn nameKey` for names;
`isPub` is `isPublicName`, `derived` is `isDerivedName` (lines 838-841); `imps` are the modules that
a source imports; `front` are the front passes, which are given the public hashes of the public
names of the modules there are. -/
structure Compiler (κ ν η σ τ : Type) where
  final : (ν → Option η) → (ν → List ν) → (ν → List ((κ × ν) × η)) → ν → Option η
  whole : Nat → List (ν × Option η) → η
  key : List ν → List ν
  isPub : ν → Bool
  derived : ν → Bool
  imps : σ → List κ
  front : σ → (κ → Option (ν → Option η)) → Option (Typed κ ν η τ)

variable (C : Compiler κ ν η σ τ)

/-- The modules that are there. -/
abbrev Look (κ ν η σ τ : Type) := κ → Option (Rec κ ν η σ τ)

/-- The row of a name. -/
def rowIn (rows : List (Row κ ν η)) (n : ν) : Option (Row κ ν η) :=
  rows.find? (fun r => decide (r.name = n))

/-- The row of a public name of a module (`frNameHashes = publicNameHashes nameHashes`, Compile.hs
lines 1030-1031, 2728). -/
def Rec.find (r : Rec κ ν η σ τ) (n : ν) : Option (Row κ ν η) :=
  if C.isPub n then rowIn r.rows n else none

/-- `resolveNameHash` (Compile.hs lines 3485-3500). -/
def find (look : Look κ ν η σ τ) (d : κ × ν) : Option (Row κ ν η) :=
  (look d.1).bind (fun r => r.find C d.2)

/-- The current hash of one kind of a name, if it is there and not empty
(`lookupName`, Compile.hs lines 2413-2423). -/
def hashOf (get : Row κ ν η → Option η) (look : Look κ ν η σ τ) (d : κ × ν) : Option η :=
  (find C look d).bind get

/-- What the front passes see of other modules. -/
def seen (look : Look κ ν η σ τ) (m : κ) : Option (ν → Option η) :=
  (look m).map (fun r n => (r.find C n).bind Row.pub)

/-- `resolveDepHashes` for one name (Compile.hs lines 2392-2411). -/
def resolve (get : Row κ ν η → Option η) (look : Look κ ν η σ τ) :
    List (κ × ν) → Option (List ((κ × ν) × η))
  | [] => some []
  | d :: ds =>
      match hashOf C get look d, resolve get look ds with
      | some h, some l => some ((d, h) :: l)
      | _, _ => none

/-- `pubExtDeps` of a name: `mergePubDeps` (Hashing.hs lines 851-862).  Derived names are left out
of what the item mentions. -/
def pubExt (e : Entry κ ν η) : List (κ × ν) :=
  e.sigExt ++ e.implExt.filter (fun d => !C.derived d.2 && !decide (d ∈ e.sigExt))

/-- The entry of a name. -/
def Typed.entry (t : Typed κ ν η τ) (n : ν) : Option (Entry κ ν η) :=
  t.entries.find? (fun e => decide (e.name = n))

/-- The argument `selfHashes` or `localDeps` or `extDeps` of `final`: a map given by the entries. -/
def Typed.map {α : Type} (t : Typed κ ν η τ) (f : Entry κ ν η → α) (dflt : α) (n : ν) : α :=
  match t.entry n with
  | some e => f e
  | none => dflt

/-- The external dependencies of a name with their hashes. -/
def resolved (get : Row κ ν η → Option η) (look : Look κ ν η σ τ) (ds : List (κ × ν)) :
    List ((κ × ν) × η) := (resolve C get look ds).getD []

/-- `pubHashes` (Compile.hs line 2617): from the signatures only. -/
def pubHash (look : Look κ ν η σ τ) (t : Typed κ ν η τ) : ν → Option η :=
  C.final (t.map (fun e => some e.self) none) (t.map Entry.sigLocals [])
    (t.map (fun e => resolved C Row.pub look e.sigExt) [])

/-- `implHashes` (Compile.hs line 2618). -/
def implHash (look : Look κ ν η σ τ) (t : Typed κ ν η τ) : ν → Option η :=
  C.final (t.map Entry.own none) (t.map Entry.implLocals [])
    (t.map (fun e => resolved C Row.impl look e.implExt) [])

/-- `assembleNameHashes` for one name (Hashing.hs lines 1560-1590). -/
def rowOf (look : Look κ ν η σ τ) (t : Typed κ ν η τ) (e : Entry κ ν η) : Row κ ν η where
  name := e.name
  pub := pubHash C look t e.name
  impl := implHash C look t e.name
  own := e.own
  locals := C.key e.implLocals
  pubDeps := resolved C Row.pub look (pubExt C e)
  implDeps := resolved C Row.impl look e.implExt

/-- `modulePubHashFromHashMap` (Hashing.hs lines 1651-1656). -/
def modPub (rows : List (Row κ ν η)) : η :=
  C.whole 3 ((rows.filter (fun r => C.isPub r.name)).map (fun r => (r.name, r.pub)))

/-- `moduleImplHashFromNameHashes` (Hashing.hs lines 1659-1669). -/
def modImpl (rows : List (Row κ ν η)) : η := C.whole 4 (rows.map (fun r => (r.name, r.impl)))

/-- The recorded public dependencies of all names. -/
def pubIdx (rows : List (Row κ ν η)) : List ((κ × ν) × η) := rows.flatMap Row.pubDeps

/-- The recorded implementation dependencies of all names. -/
def implIdx (rows : List (Row κ ν η)) : List ((κ × ν) × η) := rows.flatMap Row.implDeps

/-- The modules of the recorded dependencies (`extMods`, Compile.hs line 2597;
`depModulesFromNameHashes`, lines 3629-3643). -/
def extMods (rows : List (Row κ ν η)) : List κ :=
  ((pubIdx rows ++ implIdx rows).map (fun x => x.1.1)).dedup

/-- `resolveDepModuleHashes` (Compile.hs lines 2356-2374, 3645-3656); what is not there is left out,
which does not happen where all names are there. -/
def depMods (look : Look κ ν η σ τ) (ms : List κ) : List (κ × η × η) :=
  ms.filterMap (fun m => (look m).map (fun r => (m, r.pubH, r.implH)))

/-- All dependencies of a name have hashes. -/
def okEntry (look : Look κ ν η σ τ) (e : Entry κ ν η) : Bool :=
  (resolve C Row.pub look (pubExt C e)).isSome && (resolve C Row.impl look e.implExt).isSome

/-- The record that is written after the front passes (Compile.hs lines 2617-2648). -/
def record (look : Look κ ν η σ τ) (s : σ) (t : Typed κ ν η τ) : Rec κ ν η σ τ :=
  let rows := t.entries.map (rowOf C look t)
  { src := s, typed := t, rows := rows, depMods := depMods look (extMods rows)
    pubH := modPub C rows, implH := modImpl C rows }

/-- Every import is there (`resolveImportHashes`, Compile.hs lines 2343-2354; `checkImportHashes`,
lines 3513-3560, whose list of changed modules is not used, line 3826). -/
def importsThere (look : Look κ ν η σ τ) (s : σ) : Bool :=
  (C.imps s).all (fun m => (look m).isSome)

/-- `runFrontPasses` (Compile.hs lines 2292-2740): the new record, or diagnostics. -/
def compile (look : Look κ ν η σ τ) (s : σ) : Option (Rec κ ν η σ τ) :=
  if importsThere C look s then
    match C.front s (seen C look) with
    | some t => if t.entries.all (okEntry C look) then some (record C look s t) else none
    | none => none
  else none

/-- `checkDepModuleRows` for one module (Compile.hs lines 3721-3747): whether its hash of one kind
is not the recorded one. -/
def changedMod (get : Rec κ ν η σ τ → η) (look : Look κ ν η σ τ) (m : κ) (h : η) : Bool :=
  match look m with
  | some r => !decide (get r = h)
  | none => true

/-- `changedPubMods` (Compile.hs line 3745). -/
def changedPub (look : Look κ ν η σ τ) (r : Rec κ ν η σ τ) (m : κ) : Bool :=
  r.depMods.any (fun e => decide (e.1 = m) && changedMod Rec.pubH look e.1 e.2.1)

/-- `changedImplMods` (Compile.hs line 3746). -/
def changedImpl (look : Look κ ν η σ τ) (r : Rec κ ν η σ τ) (m : κ) : Bool :=
  r.depMods.any (fun e => decide (e.1 = m) && changedMod Rec.implH look e.1 e.2.2)

/-- `pubDeltas` and `pubMissing` (Compile.hs lines 3773-3782) are not both empty: a recorded public
hash in a changed module is not the current one. -/
def pubChanges (look : Look κ ν η σ τ) (r : Rec κ ν η σ τ) : Bool :=
  (pubIdx r.rows).any (fun x => changedPub look r x.1.1 &&
    !decide (hashOf C Row.pub look x.1 = some x.2))

/-- `implMissing` is not empty (Compile.hs lines 3790-3792). -/
def implMissing (look : Look κ ν η σ τ) (r : Rec κ ν η σ τ) : Bool :=
  (implIdx r.rows).any (fun x => changedImpl look r x.1.1 &&
    (hashOf C Row.impl look x.1).isNone)

/-- `implDeltas` is not empty (Compile.hs lines 3784-3789). -/
def implDeltas (look : Look κ ν η σ τ) (r : Rec κ ν η σ τ) : Bool :=
  (implIdx r.rows).any (fun x => changedImpl look r x.1.1 &&
    (match hashOf C Row.impl look x.1 with
      | some h => !decide (h = x.2)
      | none => false))

/-- `rowMissingMods` is not empty (Compile.hs lines 3748-3763): a changed module without recorded
names. -/
def rowMissing (look : Look κ ν η σ τ) (r : Rec κ ν η σ τ) : Bool :=
  r.depMods.any (fun e => (changedPub look r e.1 || changedImpl look r e.1) &&
    !(pubIdx r.rows ++ implIdx r.rows).any (fun x => decide (x.1.1 = e.1)))

/-- What is done with a module. -/
inductive Action where
  | front
  | refresh
  | reuse
deriving DecidableEq

/-- The decision for a module with a record of its present source (Compile.hs lines 3838-3870,
4104-4108). -/
def decision (look : Look κ ν η σ τ) (r : Rec κ ν η σ τ) : Action :=
  if pubChanges C look r || implMissing C look r || rowMissing look r then .front
  else if implDeltas C look r then .refresh
  else .reuse

/-- A map given by the recorded rows. -/
def rowMap {α : Type} (rows : List (Row κ ν η)) (f : Row κ ν η → α) (dflt : α) (n : ν) : α :=
  match rowIn rows n with
  | some r => f r
  | none => dflt

/-- The current implementation hashes of the recorded dependencies of a name that has an item. -/
def newDeps (look : Look κ ν η σ τ) (r : Row κ ν η) : List ((κ × ν) × η) :=
  if r.own.isSome then resolved C Row.impl look (r.implDeps.map Prod.fst) else []

/-- `refreshImplHashes` for one name (Hashing.hs lines 1611-1637).  The local dependencies are taken
in the order in which they are recorded. -/
def refreshRow (look : Look κ ν η σ τ) (rows : List (Row κ ν η)) (r : Row κ ν η) : Row κ ν η :=
  if r.own.isSome then
    { r with
      impl := C.final (rowMap rows Row.own none)
        (rowMap rows (fun r => if r.own.isSome then r.locals else []) [])
        (rowMap rows (newDeps C look) []) r.name
      locals := C.key r.locals
      implDeps := newDeps C look r }
  else r

/-- `runImplRefresh` (Compile.hs lines 3925-4063): the hashes are recomputed from what is recorded;
if some dependency has no hash now, the front passes are run. -/
def refresh (look : Look κ ν η σ τ) (r : Rec κ ν η σ τ) : Option (Rec κ ν η σ τ) :=
  if r.rows.all (fun x => !x.own.isSome ||
      (resolve C Row.impl look (x.implDeps.map Prod.fst)).isSome) then
    let rows := r.rows.map (refreshRow C look r.rows)
    if (extMods rows).all (fun m => (look m).isSome) then
      some { r with rows := rows, depMods := depMods look (extMods rows), implH := modImpl C rows }
    else compile C look r.src
  else compile C look r.src

/-- `doOne` (Compile.hs lines 3795-4108), with `readModuleHeader` (lines 1908-2035), which finds out
whether the record is one of the present source. -/
def step [DecidableEq σ] (look : Look κ ν η σ τ) (stored : Option (Rec κ ν η σ τ)) (s : σ) :
    Option (Rec κ ν η σ τ) :=
  match stored with
  | none => compile C look s
  | some r =>
      if r.src = s then
        if importsThere C look s then
          match decision C look r with
          | .front => compile C look s
          | .refresh => refresh C look r
          | .reuse => some r
        else none
      else compile C look s

/-- A build: modules with their sources in an order in which each comes after those it imports; the
results so far; and the records on disk. -/
def build [DecidableEq σ] : List (κ × σ) → Look κ ν η σ τ → (κ → Option (Rec κ ν η σ τ)) →
    Look κ ν η σ τ × (κ → Option (Rec κ ν η σ τ))
  | [], look, store => (look, store)
  | (m, s) :: rest, look, store =>
      match step C look (store m) s with
      | some r => build rest (fun x => if x = m then some r else look x)
          (fun x => if x = m then some r else store x)
      | none => build rest look store

end Verif.Incr
