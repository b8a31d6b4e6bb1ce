import Verif.TestExit.Props
/-!
# C188: the details of every result can be shown

`formatTestDetailLines`, compiler/acton/TestFormat.hs:285-315. Only the part about the exception is
modelled; the other parts are total.
-/
namespace Verif.TestExit

/-- `lines exc`, without the indentation and the colours. -/
def linesOf (cur : Text) : Text → List Text
  | [] => if cur.isEmpty then [] else [cur.reverse]
  | c :: cs => if c = '\n' then cur.reverse :: linesOf [] cs else linesOf (c :: cur) cs

/-- `excLines`, TestFormat.hs:298-303: the cases are `Just exc | not skipped` and `Nothing`; `none` is
the failure of the pattern match, which ends `acton test`. -/
def excLines (r : Info) : Option (List Text) :=
  match r.exc with
  | some e => if r.skipped then none else some (linesOf [] e)
  | none => some []

/-- The details, TestFormat.hs:285-315: they are shown for tests that are not OK, and with `--show-log`. -/
def details (showLog : Bool) (r : Info) : Option (List Text) :=
  if showLog || r.skipped || !isOk r then excLines r else some []

/-- **C188** (partial) The details of the result of a test process that ends as it should can be shown;
missing: tests that are skipped and whose process exits with another code, see `C188_refuted`. -/
theorem C188_partial (showLog : Bool) {p : Proc} (h : Ended p) : ∃ ls, details showLog (result p) = some ls := by
  unfold details
  split
  · unfold excLines
    cases he : (result p).exc with
    | none => exact ⟨_, rfl⟩
    | some e =>
      by_cases hk : (result p).skipped = true
      · exfalso
        rw [result_ended h] at he hk
        have hne : p.steps ≠ [] := by
          obtain ⟨-, ss, s, hp, -⟩ := h
          rw [hp]; simp
        have hs := total_sum sum_new p.steps
        rw [List.nil_append] at hs
        obtain ⟨o, m, hf⟩ := hs.exc (by rw [he]; simp)
        obtain ⟨s, m', rfl⟩ := List.mem_map.1 m
        exact hf (((C185 hne).2.2.2.1.1 hk).1 s m')
      · exact ⟨linesOf [] e, by simp only [if_neg hk]⟩
  · exact ⟨_, rfl⟩

example : ∃ ls, details true (result ⟨[⟨.skip [], true, true⟩], 0⟩) = some ls :=
  C188_partial true ⟨rfl, [], ⟨.skip [], true, true⟩, rfl, rfl, by simp⟩

/-- A message is shown line by line, with nothing left out. -/
theorem C188_shown {r : Info} {e : Text} (he : r.exc = some e) (hk : r.skipped = false) (showLog : Bool) :
    ∃ ls, details showLog r = some ls ∧ ls.flatten = e.filter (fun c => c ≠ '\n') := by
  have key : ∀ (s cur : Text), (linesOf cur s).flatten = cur.reverse ++ s.filter (fun c => c ≠ '\n') := by
    intro s
    induction s with
    | nil =>
      intro cur
      rw [linesOf]
      cases cur with
      | nil => rfl
      | cons c cs => simp
    | cons c s ih =>
      intro cur
      rw [linesOf]
      by_cases hc : c = '\n'
      · rw [if_pos hc, List.flatten_cons, ih]; simp [hc]
      · rw [if_neg hc, ih]; simp [hc]
  refine ⟨linesOf [] e, ?_, by simpa using key e []⟩
  unfold details excLines isOk
  rw [he, hk]
  simp

example : ∃ ls, details false (result ⟨[⟨.err (some "a\nb".toList), true, true⟩], 0⟩) = some ls ∧
    ls.flatten = "a\nb".toList.filter (fun c => c ≠ '\n') := C188_shown (by decide) (by decide) false

/-- A test that is skipped, and whose process then exits with code 1. -/
def skipCrash : Proc := ⟨[⟨.skip [], true, true⟩], 1⟩

/-- `acton test` itself ends with a failed pattern match when it comes to this result, and does not show the remaining
ones. -/
theorem C188_refuted (showLog : Bool) : details showLog (result skipCrash) = none := by
  cases showLog <;> decide

end Verif.TestExit
