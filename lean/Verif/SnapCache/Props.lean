import Mathlib.Data.List.Basic
/-!
# C195: when the cached result of a snapshot test is used again

`snapshotMetadataAllowsCacheHit`, `readFirstExistingSnapshotMeta`, compiler/acton/TestRunner.hs:1270-1313;
`get_expected`, base/src/testing.act:1155-1162; `writeSnapshotOutputs`, TestRunner.hs:359.

Simplifications: times are natural numbers; files can be read if they exist; a file is its bytes and
its time; the other conditions for a cached result (hashes) hold.
-/
namespace Verif.SnapCache

abbrev Bytes := List Nat

structure File where
  bytes : Bytes
  mtime : Nat
  deriving DecidableEq

/-- The files of a test: snapshots/expected, test/golden, snapshots/output. -/
structure Files where
  snap : Option File
  golden : Option File
  output : Option File

/-- `readFirstExistingSnapshotMeta expectedPaths`, TestRunner.hs:1272, 1295-1301. -/
def firstExpected (f : Files) : Option File :=
  match f.snap with
  | some x => some x
  | none => f.golden

/-- `snapshotMetadataAllowsCacheHit`, TestRunner.hs:1270-1293. -/
def reusable (f : Files) : Bool :=
  match firstExpected f with
  | none => false
  | some e =>
    match f.output with
    | none => false
    | some o =>
      if e.bytes.length ≠ o.bytes.length then false
      else if e.mtime ≥ o.mtime then false
      else true

/-- `writeSnapshotOutput` at time `w`. -/
def finish (f : Files) (out : Bytes) (w : Nat) : Files := { f with output := some ⟨out, w⟩ }

/-- A change of the expected output by someone else. -/
inductive Edit
  | snap (x : Option File)
  | golden (x : Option File)

def edit (f : Files) : Edit → Files
  | .snap x => { f with snap := x }
  | .golden x => { f with golden := x }

def edits (f : Files) (es : List Edit) : Files := es.foldl edit f

/-! ## Specification -/

/-- What the test is compared with: the first of the two files that exists. -/
inductive Expects (f : Files) : Option Bytes → Prop
  | snap {x} : f.snap = some x → Expects f (some x.bytes)
  | golden {x} : f.snap = none → f.golden = some x → Expects f (some x.bytes)
  | none : f.snap = none → f.golden = none → Expects f none

/-- The edit writes a file, at a time not before `w`. -/
def WrittenAfter (w : Nat) : Edit → Prop
  | .snap x => ∃ y, x = some y ∧ w ≤ y.mtime
  | .golden x => ∃ y, x = some y ∧ w ≤ y.mtime

theorem expects_first {f : Files} {b : Option Bytes} : Expects f b ↔ b = (firstExpected f).map (·.bytes) := by
  unfold firstExpected
  constructor
  · rintro (h | ⟨h, g⟩ | ⟨h, g⟩)
    · rw [h]; rfl
    · rw [h]; simp only; rw [g]; rfl
    · rw [h]; simp only; rw [g]; rfl
  · rintro rfl
    cases h : f.snap with
    | some x => exact .snap h
    | none =>
      cases g : f.golden with
      | some x => exact .golden h g
      | none => exact .none h g

/-- A result is used again iff the files are there, of the same size, and the expected one is older. -/
theorem reusable_iff {f : Files} : reusable f = true ↔
    ∃ e o, firstExpected f = some e ∧ f.output = some o ∧ e.bytes.length = o.bytes.length ∧ e.mtime < o.mtime := by
  unfold reusable
  cases firstExpected f with
  | none => simp
  | some e =>
    cases f.output with
    | none => simp
    | some o =>
      simp only [Option.some.injEq]
      by_cases h : e.bytes.length = o.bytes.length
      · by_cases g : e.mtime ≥ o.mtime
        · simp [h, g]
        · simp [h, g]; omega
      · simp [h]

theorem edits_output (es : List Edit) (f : Files) : (edits f es).output = f.output := by
  unfold edits
  induction es generalizing f with
  | nil => rfl
  | cons e es ih => rw [List.foldl_cons, ih]; cases e <;> rfl

/-- Each of the two files is as before, or new. -/
theorem edits_old {w : Nat} (es : List Edit) (h : ∀ e ∈ es, WrittenAfter w e) (f : Files) :
    ((edits f es).snap = f.snap ∨ ∃ y, (edits f es).snap = some y ∧ w ≤ y.mtime) ∧
    ((edits f es).golden = f.golden ∨ ∃ y, (edits f es).golden = some y ∧ w ≤ y.mtime) := by
  unfold edits
  induction es generalizing f with
  | nil => exact ⟨.inl rfl, .inl rfl⟩
  | cons e es ih =>
    have h1 := h e List.mem_cons_self
    obtain ⟨a, b⟩ := ih (fun x hx => h x (List.mem_cons_of_mem _ hx)) (edit f e)
    rw [List.foldl_cons]
    cases e with
    | snap x =>
      obtain ⟨y, rfl, hy⟩ := h1
      exact ⟨a.elim (fun a => .inr ⟨y, a, hy⟩) .inr, b⟩
    | golden x =>
      obtain ⟨y, rfl, hy⟩ := h1
      exact ⟨a, b.elim (fun b => .inr ⟨y, b, hy⟩) .inr⟩

/-- **C195** (partial) If after a run the expected files are only written, with times not before that
of the output, then a result is used again only if the test would be compared with the same as in
that run; missing: edits while the tests run, files removed, older times, see `C195_refuted`. -/
theorem C195_partial {f : Files} {out : Bytes} {w : Nat} {es : List Edit} (h : ∀ e ∈ es, WrittenAfter w e)
    (hr : reusable (edits (finish f out w) es) = true) (b : Option Bytes) :
    Expects (edits (finish f out w) es) b ↔ Expects f b := by
  obtain ⟨e, o, he, ho, -, hlt⟩ := reusable_iff.1 hr
  rw [edits_output] at ho
  cases ho
  have hlt : e.mtime < w := hlt
  obtain ⟨hs, hg⟩ := edits_old es h (finish f out w)
  have hs' : (edits (finish f out w) es).snap = f.snap := by
    rcases hs with hs | ⟨y, hy, hw⟩
    · exact hs
    · unfold firstExpected at he
      rw [hy] at he
      cases he
      omega
  rw [expects_first, expects_first, he]
  unfold firstExpected at he ⊢
  rw [hs'] at he
  cases hf : f.snap with
  | some x => rw [hf] at he; cases he; rfl
  | none =>
    rw [hf] at he
    simp only at he ⊢
    rcases hg with hg | ⟨y, hy, hw⟩
    · have hg : (edits (finish f out w) es).golden = f.golden := hg
      rw [← hg, he]
    · rw [hy] at he; cases he; omega

/-- What is used again has an expected output of the size of the output; so if the test was compared
with one of another size, it runs again. -/
theorem C195_size {f : Files} {out : Bytes} {w : Nat} {es : List Edit} {b : Bytes}
    (hr : reusable (edits (finish f out w) es) = true) (hb : Expects (edits (finish f out w) es) (some b)) :
    b.length = out.length := by
  obtain ⟨e, o, he, ho, hl, -⟩ := reusable_iff.1 hr
  rw [edits_output] at ho
  cases ho
  rw [expects_first, he] at hb
  cases hb
  exact hl

/-- Without changes, the result of a test whose expected file is older and of the same size is used. -/
theorem C195_hit {f : Files} {out : Bytes} {w : Nat} {e : File} (he : f.snap = some e) (hl : e.bytes.length = out.length) (ht : e.mtime < w) :
    reusable (finish f out w) = true :=
  reusable_iff.2 ⟨e, ⟨out, w⟩, by unfold firstExpected finish; rw [he], rfl, hl, ht⟩

/-- The test prints 1, as expected, and test/golden has a 2. -/
def before : Files := ⟨some ⟨[1], 3⟩, some ⟨[2], 2⟩, none⟩

example : reusable (finish before [1] 5) = true := C195_hit (e := ⟨[1], 3⟩) rfl rfl (by decide)
example (b : Option Bytes) : Expects (edits (finish before [1] 5) [.golden (some ⟨[7], 6⟩)]) b ↔ Expects before b :=
  C195_partial (by intro e he; rw [List.mem_singleton] at he; subst he; exact ⟨_, rfl, by decide⟩) (by decide) b
example : ([1] : Bytes).length = 1 := C195_size (f := before) (out := [1]) (w := 5) (es := []) (by decide) (.snap (x := ⟨[1], 3⟩) rfl)
example : reusable (edits (finish before [1] 5) [.snap (some ⟨[2], 5⟩)]) = false := by decide

/-- The result is used again though 2 is expected now: if snapshots/expected is removed; if it is
replaced by an older file; if it is written after the test has read it, but before the output is. -/
theorem C195_refuted :
    Expects before (some [1]) ∧
    (reusable (edits (finish before [1] 5) [.snap none]) = true ∧ Expects (edits (finish before [1] 5) [.snap none]) (some [2])) ∧
    (reusable (edits (finish before [1] 5) [.snap (some ⟨[2], 1⟩)]) = true ∧
      Expects (edits (finish before [1] 5) [.snap (some ⟨[2], 1⟩)]) (some [2])) ∧
    (reusable (finish (edits before [.snap (some ⟨[2], 4⟩)]) [1] 5) = true ∧
      Expects (finish (edits before [.snap (some ⟨[2], 4⟩)]) [1] 5) (some [2])) :=
  ⟨.snap (x := ⟨[1], 3⟩) rfl, ⟨by decide, .golden (x := ⟨[2], 2⟩) rfl rfl⟩, ⟨by decide, .snap (x := ⟨[2], 1⟩) rfl⟩,
    ⟨by decide, .snap (x := ⟨[2], 4⟩) rfl⟩⟩

end Verif.SnapCache
