import Mathlib.Data.List.Basic
/-!
# Model of the cache of test results; C181, C182, C183

compiler/lib/src/Acton/Testing.hs and `runProjectTests`, compiler/acton/TestRunner.hs:162-392.

Simplifications: `acton test` without `--snapshot-update`; interface files do not change while it
runs (so the cache of name hashes, Testing.hs:460-471, is left out); the results of a run are
entered in the order of the tests, not in that in which they come in (there is one for each test);
a test reports its own name. A map is a function. What is known of SHA256, `Binary.encode` and
`Aeson.encode` is in `Hash`.
-/
namespace Verif.TestCache

abbrev Text := List Char
abbrev Bytes := List UInt8

/-- `TestRunContext`, Testing.hs:84-90. -/
structure Ctx where
  version : Text
  target : Text
  optimize : Text
  mode : Text
  args : List Text

/-- `QName`. -/
inductive QN
  | noq (n : Text)
  | qname (m n : Text)
  | gname (m n : Text)

/-- `NameHashInfo`: what matters here. -/
structure NameInfo where
  impl : Bytes
  deps : List (QN × Bytes)

/-- `TestCachedResult`, Testing.hs:110-125; `rest` stands for the other fields. -/
structure Res where
  complete : Bool
  success : Option Bool
  exception : Option Text
  output : Option Text
  rest : List Text

/-- What is used of the libraries; `le` compares by `qnameKey`. -/
structure Hash where
  sha : Bytes → Bytes
  len : ∀ x, (sha x).length = 32
  encCtx : Ctx → Bytes
  encCtx_inj : ∀ a b, encCtx a = encCtx b → a = b
  encDeps : List (QN × Bytes) → Bytes
  encDeps_inj : ∀ a b, encDeps a = encDeps b → a = b
  le : QN → QN → Bool

/-- What a run of `acton test` finds: the context, the name hashes of the interface files, the tests
that are selected, what running a test gives, whether the snapshot files let a result with output be
used again (`snapshotMetadataAllowsCacheHit`, TestRunner.hs:1270-1293), and whether the cache is
used (TestRunner.hs:194). -/
structure Run where
  ctx : Ctx
  names : Text → Text → Option NameInfo
  tests : List (Text × Text)
  outcome : Text → Text → Res
  snapOk : Text → Text → Bool
  useCache : Bool

/-- A digit of `Base16.encode`. -/
def digit (n : Nat) : Char := Char.ofNat (if n < 10 then 48 + n else 87 + n)

/-- `toHex`, Testing.hs:293-294. -/
def hex : Bytes → Text
  | [] => []
  | b :: r => digit (b.toNat / 16) :: digit (b.toNat % 16) :: hex r

/-- `stripPrefixOnce`, Testing.hs:401-404. -/
def stripPrefix (p s : Text) : Option Text := if p <+: s then some (s.drop p.length) else none

/-- `stripSuffixOnce`, Testing.hs:407-410. -/
def stripSuffix (p s : Text) : Option Text := if p <:+ s then some (s.take (s.length - p.length)) else none

def wrapper : Text := ['_', 'w', 'r', 'a', 'p', 'p', 'e', 'r']
def test : Text := ['_', 't', 'e', 's', 't', '_']

/-- `testNameCandidates`, Testing.hs:413-421, without `nub`, which does not matter for the first that
is found. -/
def candidates (n : Text) : List Text :=
  [some n, stripSuffix wrapper n, stripPrefix test n, (stripSuffix wrapper n).bind (stripPrefix test),
    (stripPrefix test n).bind (stripSuffix wrapper)].filterMap id

/-- `lookupTestInfo`, Testing.hs:424-429. -/
def record (names : Text → Option NameInfo) (n : Text) : Option NameInfo := (candidates n).findSome? names

/-- `resolveDepImplHash` and the fallback, Testing.hs:474-497. -/
def resolve (names : Text → Text → Option NameInfo) (d : QN × Bytes) : QN × Bytes :=
  match d.1 with
  | .noq _ => d
  | .qname m n | .gname m n =>
    match names m n with
    | some i => (.gname m n, i.impl)
    | none => d

/-- `resolveTestImplDeps`, Testing.hs:489-497. -/
def depsOf (r : Run) (i : NameInfo) : List (QN × Bytes) := i.deps.map (resolve r.names)

/-- What `hashDeps` hashes, Testing.hs:301-304. -/
def depsInput (H : Hash) (r : Run) (i : NameInfo) : Bytes :=
  H.encDeps ((depsOf r i).mergeSort (fun a b => H.le a.1 b.1))

/-- What `hashRun` hashes, Testing.hs:297-298. -/
def runInput (H : Hash) (r : Run) (i : NameInfo) : Bytes :=
  i.impl ++ H.sha (depsInput H r i) ++ H.sha (H.encCtx r.ctx)

/-- `thiRunHash` of `buildTestHashInfo`, Testing.hs:500-514. -/
def runHash (H : Hash) (r : Run) (m n : Text) : Option Text :=
  (record (r.names m) n).map (fun i => hex (H.sha (runInput H r i)))

/-- `mkTestKey`, Testing.hs:397-398. -/
def key (m n : Text) : Text := m ++ ':' :: n

/-- `thiRunHash` of the entry of `buildTestHashInfos`, Testing.hs:355-374; the last of the tests with
the same key is taken. -/
def infoOf (H : Hash) (r : Run) (k : Text) : Option Text :=
  (r.tests.reverse.find? (fun t => key t.1 t.2 = k)).bind (fun t => runHash H r t.1 t.2)

/-- `TestCacheEntry`, Testing.hs:163-167, without `tceImplHash`, which is only shown. -/
structure Entry where
  run : Text
  res : Res

abbrev Cache := Text → Option Entry

/-- `classifyCachedTests`, Testing.hs:377-394. -/
def cachedOf (H : Hash) (r : Run) (c : Cache) (m n : Text) : Option Res :=
  match c (key m n), infoOf H r (key m n) with
  | some e, some h => if e.run = h then some e.res else none
  | _, _ => none

/-- `filterReusableCachedSnapshotResults`, TestRunner.hs:1254-1265. -/
def reuse (H : Hash) (r : Run) (c : Cache) (m n : Text) : Option Res :=
  match cachedOf H r c m n with
  | some x => if x.output.isNone || r.snapOk m n then some x else none
  | none => none

/-- `TestResult`. -/
structure Result where
  mod : Text
  name : Text
  res : Res
  cached : Bool

/-- A test: its result is taken from the cache, or the test is run, TestRunner.hs:255-330. -/
def one (H : Hash) (r : Run) (c : Cache) (t : Text × Text) : Result :=
  match (if r.useCache then reuse H r c t.1 t.2 else none) with
  | some x => ⟨t.1, t.2, x, true⟩
  | none => ⟨t.1, t.2, r.outcome t.1 t.2, false⟩

/-- `updateTestCacheEntry`, Testing.hs:517-531. -/
def update (H : Hash) (r : Run) (c : Cache) (x : Result) : Cache := fun k =>
  if k = key x.mod x.name then some ⟨(infoOf H r (key x.mod x.name)).getD [], x.res⟩ else c k

/-- The results of a run, TestRunner.hs:357. -/
def results (H : Hash) (r : Run) (c : Cache) : List Result := r.tests.map (one H r c)

/-- The cache after a run, TestRunner.hs:360-373. -/
def after (H : Hash) (r : Run) (c : Cache) : Cache :=
  if r.useCache then ((results H r c).filter (fun x => !x.cached)).foldl (update H r) c else c

/-- What happens to a project: runs, and the loss of the cache (a missing or unreadable file, or one
of another version, Testing.hs:266-278). -/
inductive Event
  | run (r : Run)
  | lose

/-- The cache after a history, the latest event first. -/
def cache (H : Hash) : List Event → Cache
  | [] => fun _ => none
  | .lose :: _ => fun _ => none
  | .run r :: h => after H r (cache H h)

/-- The result of a test process that the user interrupts (not in stress mode), with no answer from
it before: `fallback` and `res`, TestRunner.hs:651-708. -/
def interrupted : Res :=
  ⟨false, none, some "Test process exited with code -2".toList, none, []⟩

/-! ## Specification -/

/-- `c` is the name of the definition that the test `n` is made from. -/
def Stands (n c : Text) : Prop := n = c ∨ n = c ++ wrapper ∨ n = test ++ c ∨ n = test ++ c ++ wrapper

/-- In the run `r`, the test `n` of `m` is made from a definition with the hash `impl`, and the things
that it uses have the hashes `deps`. -/
def Made (r : Run) (m n : Text) (impl : Bytes) (deps : List (QN × Bytes)) : Prop :=
  ∃ c i, Stands n c ∧ r.names m c = some i ∧ i.impl = impl ∧ deps.length = i.deps.length ∧
    ∀ (j : Nat) (q : QN) (h : Bytes), i.deps[j]? = some (q, h) →
      deps[j]? = some (match q with
        | .noq _ => (q, h)
        | .qname a b => match r.names a b with
          | some x => (.gname a b, x.impl)
          | none => (q, h)
        | .gname a b => match r.names a b with
          | some x => (.gname a b, x.impl)
          | none => (q, h))

/-- What a run hashes. -/
inductive Hashed (H : Hash) (r : Run) : Bytes → Prop
  | ctx : Hashed H r (H.encCtx r.ctx)
  | deps {m c i} : r.names m c = some i → Hashed H r (depsInput H r i)
  | run {m c i} : r.names m c = some i → Hashed H r (runInput H r i)

/-- No two of the things that the runs hash have the same hash. -/
def NoClash (H : Hash) (rs : Run → Prop) : Prop :=
  ∀ r r', rs r → rs r' → ∀ x y, Hashed H r x → Hashed H r' y → H.sha x = H.sha y → x = y

/-- Names of modules have no colons. -/
def Proper (r : Run) : Prop := ∀ t ∈ r.tests, ':' ∉ t.1

end Verif.TestCache
