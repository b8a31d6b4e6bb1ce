import Verif.Slice.Lemmas
/-!
# C01: slicing selects exactly the denoted elements

Full statement: `∀ l s, s.I64 → SliceSpec l s (getslice l s)`.
It is false for the code as it stands (`C01_refuted_*`): with a negative step a
bound below `-len` is clamped to position 0 instead of "before the first
element". Everything else holds.
-/
namespace Verif.Slice
open Verif

/-- C01, partial: `l[a:b:c]` delivers exactly the denoted elements (and raises
`ValueError` for step 0, and never reads outside the list), for every list and
every bounds, excluding only a negative step with an explicit bound below
`-len(l)`. Missing: exactly that case, where the code is wrong (see the
refutations below). -/
theorem C01_getslice_partial (l : List α) (s : Slc)
    (h : s.step.getD 1 < 0 →
      (∀ x ∈ s.start, -(l.length : Int) ≤ x) ∧ (∀ x ∈ s.stop, -(l.length : Int) ≤ x)) :
    SliceSpec l s (getslice l s) := by
  by_cases h0 : s.step.getD 1 = 0
  · simp [SliceSpec, h0, getslice, normalizeSlice]
  · by_cases hp : 0 < s.step.getD 1
    · exact getslice_pos l s hp
    · have hn : s.step.getD 1 < 0 := by omega
      exact getslice_neg l s hn (h hn).1 (h hn).2

/-- In particular forward slices (`l[a:b]`, `l[a:b:c]` with `c > 0`) are always right. -/
theorem C01_getslice_forward (l : List α) (s : Slc) (h : 0 < s.step.getD 1) :
    SliceSpec l s (getslice l s) :=
  C01_getslice_partial l s (fun hn => absurd hn (by omega))

/-- The full claim fails: `[7,8][-5::-1]` yields `[7]`, although no position is denoted. -/
theorem C01_refuted_start :
    ¬ SliceSpec [7, 8] ⟨some (-5), none, some (-1)⟩ (getslice [7, 8] ⟨some (-5), none, some (-1)⟩) := by
  have e : getslice [7, 8] ⟨some (-5), none, some (-1)⟩ = .ok [7] := by decide
  rw [e]
  rintro ⟨out, h1, h2⟩
  cases h1
  revert h2; decide

/-- The full claim fails: `[7,8][1:-5:-1]` drops the element at position 0. -/
theorem C01_refuted_stop :
    ¬ SliceSpec [7, 8] ⟨some 1, some (-5), some (-1)⟩ (getslice [7, 8] ⟨some 1, some (-5), some (-1)⟩) := by
  have e : getslice [7, 8] ⟨some 1, some (-5), some (-1)⟩ = .ok [8] := by decide
  rw [e]
  rintro ⟨out, h1, h2⟩
  cases h1
  revert h2; decide

/-- Memory safety fails: `[][-1::-1]` reads outside the (empty) list. -/
theorem C01_refuted_memory :
    getslice ([] : List Nat) ⟨some (-1), none, some (-1)⟩ = .ub := by decide

/-- Hypotheses of the partial theorem are met by non-trivial slices. -/
example : getslice [10, 11, 12, 13, 14] ⟨some 1, some (-1), some 2⟩ = .ok [11, 13] := by decide
example : getslice [10, 11, 12, 13, 14] ⟨some (-1), some (-5), some (-2)⟩ = .ok [14, 12] := by decide
example : (⟨some (-1), some (-5), some (-2)⟩ : Slc).step.getD 1 < 0 ∧
    (∀ x ∈ (some (-1) : Option Int), -(5 : Int) ≤ x) := by decide

end Verif.Slice
