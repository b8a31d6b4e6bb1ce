import Verif.TestExit.Props
/-!
# C194: `--snapshot-update`

`applySnapshotUpdate`, `isSnapshotMismatch`, `markSnapshotUpdated`, compiler/acton/TestRunner.hs:1239-1332,
and the output that `TestInfo` keeps, base/src/testing.act:735-739.

Simplifications: the file written is only its content; the label `UPDATED` (TestFormat.hs:34) and
the reason of a skipped test are left out, and so are cached results, updated alike (TestRunner.hs:224).
-/
namespace Verif.TestExit

/-- An iteration with its output. -/
structure Iter where
  step : Step
  output : Option Text

/-- `output` of a `TestInfo`: that of the first iteration, testing.act:735-739. -/
def outputOf (is : List Iter) : Option Text :=
  match is with
  | [] => none
  | i :: _ => i.output

/-- `snapshotMismatchPrefix`, TestRunner.hs:1315-1316. -/
def mismatch : Text := "testing.NotEqualError: Test output does not match expected snapshot value".toList

/-- `isSnapshotMismatch`, TestRunner.hs:1318-1319. -/
def isMismatch (e : Text) : Bool := mismatch.isPrefixOf e

/-- `markSnapshotUpdated`, TestRunner.hs:1321-1331. -/
def mark (r : Info) : Info := { r with success := some true, skipped := false, exc := none, nskip := 0, nfail := 0, nerr := 0 }

/-- `applySnapshotUpdate`, TestRunner.hs:1239-1250: the result, and what is written to the file with the
expected output. -/
def applyUpdate (r : Info) (output : Option Text) : Info × Option Text :=
  match r.exc, output with
  | some e, some out => if isMismatch e then (mark r, some out) else (r, none)
  | _, _ => (r, none)

/-- A run with `--snapshot-update` of a test whose process ends as it should. -/
def accept (is : List Iter) : Info × Option Text := applyUpdate (total .new (is.map (·.step))) (outputOf is)

/-! ## Specification -/

/-- The iteration fails because its output is not the expected one. -/
def Differs (i : Iter) : Prop := ∃ e, i.step.out = .fail (some (mismatch ++ e))

theorem update_exc (i : Info) (c : Bool) (o : Outcome) : (update i c o).exc = if i.exc.isNone then o.exc else i.exc := by
  cases o <;> simp [update, judge, count, Outcome.skipped, Outcome.success]

theorem total_exc_keep {ss : List Step} {i : Info} {e : Text} (hi : i.exc = some e) : (total i ss).exc = some e := by
  unfold total
  induction ss generalizing i with
  | nil => exact hi
  | cons s ss ih =>
    refine ih ?_
    rw [update_exc, hi]; rfl

/-- The exception of a test is the first one of its iterations. -/
theorem total_exc {ss : List Step} : ∀ {i : Info}, i.exc = none → (total i ss).exc = (ss.findSome? (fun s => s.out.exc)) := by
  induction ss with
  | nil => intro i hi; exact hi
  | cons s ss ih =>
    intro i hi
    have hu : (update i s.complete s.out).exc = s.out.exc := by rw [update_exc, hi]; rfl
    show (total (update i s.complete s.out) ss).exc = _
    rw [List.findSome?_cons]
    cases he : s.out.exc with
    | none => exact ih (by rw [hu, he])
    | some e => exact total_exc_keep (by rw [hu, he])

/-- **C194** (partial) If all iterations print the same output, and nothing but the comparison with the
expected output fails, then the test passes, and that output is accepted iff one of them differs;
missing: iterations that print different outputs or fail in other ways, see `C194_refuted`. -/
theorem C194_partial {is : List Iter} {out : Text} (hne : is ≠ []) (ho : ∀ i ∈ is, i.output = some out)
    (hd : ∀ i ∈ is, i.step.out = .ok ∨ Differs i) :
    (accept is).1.success = some true ∧ isOk (accept is).1 = true ∧ ((accept is).2 = some out ↔ ∃ i ∈ is, Differs i) ∧
      ((accept is).2 = none ↔ ∀ i ∈ is, i.step.out = .ok) := by
  have hout : outputOf is = some out := by
    cases is with
    | nil => exact absurd rfl hne
    | cons i is => exact ho i List.mem_cons_self
  have hexc := total_exc (ss := is.map (·.step)) (i := .new) rfl
  unfold accept
  rw [hout]
  cases he : (total .new (is.map (·.step))).exc with
  | none =>
    have hall : ∀ i ∈ is, i.step.out = .ok := by
      intro i hi
      rcases hd i hi with h | ⟨e, h⟩
      · exact h
      · exfalso
        rw [he] at hexc
        have := List.findSome?_eq_none_iff.1 hexc.symm i.step (List.mem_map.2 ⟨i, hi, rfl⟩)
        rw [h] at this; cases this
    have e : applyUpdate (total .new (is.map (·.step))) (some out) = (total .new (is.map (·.step)), none) := by
      unfold applyUpdate; rw [he]
    rw [e]
    have hn : is.map (·.step) ≠ [] := by simpa using hne
    have hs : (total .new (is.map (·.step))).success = some true := (C185 hn).2.2.1.2 (by
      intro s hs
      obtain ⟨i, hi, rfl⟩ := List.mem_map.1 hs
      rw [hall i hi]; trivial)
    have hk : (total .new (is.map (·.step))).skipped = false := by
      cases hk : (total .new (is.map (·.step))).skipped with
      | false => rfl
      | true =>
        obtain ⟨-, s, hs, w, hw⟩ := (C185 hn).2.2.2.1.1 hk
        obtain ⟨i, hi, rfl⟩ := List.mem_map.1 hs
        rw [hall i hi] at hw; cases hw
    refine ⟨hs, ?_, ⟨fun h => (by cases h), ?_⟩, ⟨fun _ => hall, fun _ => rfl⟩⟩
    · simp [hk, isOk, hs, he]
    · rintro ⟨i, hi, e, h⟩
      rw [hall i hi] at h; cases h
  | some x =>
    rw [he] at hexc
    obtain ⟨s, hs, hx⟩ := List.exists_of_findSome?_eq_some hexc.symm
    obtain ⟨i, hi, rfl⟩ := List.mem_map.1 hs
    have hdi : Differs i := by
      rcases hd i hi with h | h
      · rw [h] at hx; cases hx
      · exact h
    have hm : isMismatch x = true := by
      obtain ⟨e, h⟩ := hdi
      rw [h] at hx
      have hx : mismatch ++ e = x := Option.some.inj hx
      unfold isMismatch
      rw [← hx, List.isPrefixOf_iff_prefix]
      exact List.prefix_append _ _
    have e : applyUpdate (total .new (is.map (·.step))) (some out) = (mark (total .new (is.map (·.step))), some out) := by
      unfold applyUpdate; rw [he]; simp only; rw [if_pos hm]
    rw [e]
    refine ⟨rfl, by simp [mark, isOk], ⟨fun _ => ⟨i, hi, hdi⟩, fun _ => rfl⟩, ⟨fun h => (by cases h), fun h => ?_⟩⟩
    obtain ⟨y, hy⟩ := hdi
    rw [h i hi] at hy; cases hy

/-- Nothing is written, and the result kept, if the first exception is another one. -/
theorem C194_kept {is : List Iter} {e : Text} (h : (is.map (·.step)).findSome? (fun s => s.out.exc) = some e) (hm : ¬ mismatch <+: e) :
    accept is = (total .new (is.map (·.step)), none) := by
  have hexc := total_exc (ss := is.map (·.step)) (i := .new) rfl
  rw [h] at hexc
  unfold accept applyUpdate
  rw [hexc]
  cases outputOf is with
  | none => rfl
  | some out =>
    have : ¬ isMismatch e = true := by unfold isMismatch; rw [List.isPrefixOf_iff_prefix]; exact hm
    simp only
    rw [if_neg this]

example : (accept [⟨⟨.fail (some (mismatch ++ [])), true, true⟩, some "b".toList⟩]).2 = some "b".toList :=
  (C194_partial (out := "b".toList) (by simp) (by simp) (by
    intro i hi
    rw [List.mem_singleton] at hi
    subst hi
    exact .inr ⟨[], rfl⟩)).2.2.1.2 ⟨_, List.mem_singleton.2 rfl, [], rfl⟩

example : accept [⟨⟨.err (some "x".toList), true, true⟩, some "b".toList⟩] = (total .new [⟨.err (some "x".toList), true, true⟩], none) :=
  C194_kept (e := "x".toList) rfl (by
    intro h
    have := h.length_le
    exact absurd this (by decide))

/-- If an output is written, then nothing is left of the failures, errors and skipped iterations of the
test, whatever they were; only the number of iterations is kept. -/
theorem C194_counts {is : List Iter} {out : Text} (h : (accept is).2 = some out) :
    (accept is).1.nfail = 0 ∧ (accept is).1.nerr = 0 ∧ (accept is).1.nskip = 0 ∧ isOk (accept is).1 = true ∧
      (accept is).1.iters = (total .new (is.map (·.step))).iters := by
  unfold accept applyUpdate at h ⊢
  split at h
  · split at h
    · next hm => simp only [if_pos hm]; exact ⟨rfl, rfl, rfl, rfl, rfl⟩
    · cases h
  · cases h

example : (accept [⟨⟨.fail (some mismatch), true, true⟩, some "b".toList⟩]).1.nfail = 0 :=
  (C194_counts (out := "b".toList) (by decide)).1

/-- `accept` is what becomes of the result of a process that ends as it should. -/
theorem C194_ended {p : Proc} {is : List Iter} (h : Ended p) (hs : p.steps = is.map (·.step)) :
    applyUpdate (result p) (outputOf is) = accept is := by
  rw [result_ended h, hs]; rfl

/-- After a crash of the process nothing is written, and the result is kept. -/
theorem C194_crash {p : Proc} (h : p.code ≠ 0) (output : Option Text) : applyUpdate (result p) output = (result p, none) := by
  have he : (result p).exc = some "Test process exited with code".toList := by
    unfold result; simp only; rw [if_neg h]
  unfold applyUpdate
  rw [he]
  cases output with
  | none => rfl
  | some out => exact if_neg (by decide)

example : applyUpdate (result ⟨[⟨.fail (some mismatch), true, true⟩], 0⟩) (some "b".toList) =
    accept [⟨⟨.fail (some mismatch), true, true⟩, some "b".toList⟩] :=
  C194_ended (is := [⟨⟨.fail (some mismatch), true, true⟩, some "b".toList⟩]) ⟨rfl, [], _, rfl, rfl, by simp⟩ rfl
example : (applyUpdate (result ⟨[⟨.fail (some mismatch), true, true⟩], 1⟩) (some "b".toList)).2 = none :=
  congrArg Prod.snd (C194_crash (by decide) _)

/-- A test that prints what is expected at first, and something else the second time. -/
def flip : List Iter := [⟨⟨.ok, false, true⟩, some "a".toList⟩, ⟨⟨.fail (some mismatch), true, true⟩, some "b".toList⟩]

/-- A test whose output differs at first, and that ends with an error the second time. -/
def worse : List Iter := [⟨⟨.fail (some mismatch), false, true⟩, some "a".toList⟩, ⟨⟨.err (some "boom".toList), true, true⟩, none⟩]

/-- Both are shown as updated and passed, and `acton test` exits with 0; for the first, the output
written is not the one that differed. -/
theorem C194_refuted :
    (accept flip).2 = some "a".toList ∧ exitCode [(accept flip).1] = 0 ∧
    (accept worse).2 = some "a".toList ∧ exitCode [(accept worse).1] = 0 := by
  refine ⟨by decide, by decide, by decide, by decide⟩

end Verif.TestExit
