import Verif.Log.Props
/-!
# C162 and C163: examples and refutations; C164
-/
namespace Verif.Log

/-- Two handlers with the names 0 and 1, the second is the parent of the first; the first has two sinks. -/
def two (w : Bool) : Nat → Handler
  | 0 => ⟨some 1, [w, false], 999⟩
  | _ => ⟨none, [false], 999⟩

/-- C162 is false: the first sink of handler 0 waits, so that the message goes to the parent, which puts its name into the
path that both share; the line of the second sink has the name of the parent. -/
theorem C162_refuted : ∃ s, Run some ⟨3, false⟩ (· = two true) (start (two true) [] 0) s ∧
    (⟨[0], 1, [1, 0]⟩ : Line) ∈ s.out ∧ trail some [] [0] = [0] := by
  have r0 : Run some ⟨3, false⟩ (· = two true) (start (two true) [] 0) (start (two true) [] 0) := .refl rfl
  have r1 := Run.step r0 (Step.enter (pre := []) (t := ⟨0, [], .queued, .none⟩) (post := []) rfl rfl (by decide) (by decide))
  have r2 := Run.step r1 (Step.parent (pre := []) (t := ⟨0, [], .inserted, .none⟩) (post := []) rfl rfl)
  have r3 := Run.step r2 (Step.wait (pre := []) (t := ⟨0, [], .sink 0, .pending 1⟩) (post := []) rfl rfl rfl rfl)
  have r4 := Run.step r3 (Step.enter (pre := [⟨0, [], .sink 1, .sent⟩]) (t := ⟨1, [0], .queued, .none⟩) (post := []) rfl rfl
    (by decide) (by decide))
  have r5 := Run.step r4 (Step.print (pre := []) (t := ⟨0, [], .sink 1, .sent⟩) (post := [⟨1, [0], .inserted, .none⟩]) rfl rfl
    rfl rfl)
  exact ⟨_, r5, by decide, rfl⟩

/-- The same handlers when no sink waits: three lines, all with the right paths, and nothing is left to do. -/
example : NoWait (two false) ∧ ∃ s, Run some ⟨3, false⟩ (· = two false) (start (two false) [] 0) s ∧ s.tasks = [] ∧
    s.out = [⟨[0], 0, [0]⟩, ⟨[0], 1, [0]⟩, ⟨[1, 0], 0, [1, 0]⟩] ∧ Reach (two false) 3 0 [1, 0] := by
  have r0 : Run some ⟨3, false⟩ (· = two false) (start (two false) [] 0) (start (two false) [] 0) := .refl rfl
  have r1 := Run.step r0 (Step.enter (pre := []) (t := ⟨0, [], .queued, .none⟩) (post := []) rfl rfl (by decide) (by decide))
  have r2 := Run.step r1 (Step.parent (pre := []) (t := ⟨0, [], .inserted, .none⟩) (post := []) rfl rfl)
  have r3 := Run.step r2 (Step.print (pre := []) (t := ⟨0, [], .sink 0, .pending 1⟩) (post := []) rfl rfl rfl rfl)
  have r4 := Run.step r3 (Step.print (pre := []) (t := ⟨0, [], .sink 1, .pending 1⟩) (post := []) rfl rfl rfl rfl)
  have r5 := Run.step r4 (Step.finish (pre := []) (t := ⟨0, [], .sink 2, .pending 1⟩) (post := []) rfl rfl rfl)
  have r6 := Run.step r5 (Step.enter (pre := []) (t := ⟨1, [0], .queued, .none⟩) (post := []) rfl rfl (by decide) (by decide))
  have r7 := Run.step r6 (Step.parent (pre := []) (t := ⟨1, [0], .inserted, .none⟩) (post := []) rfl rfl)
  have r8 := Run.step r7 (Step.print (pre := []) (t := ⟨1, [0], .sink 0, .none⟩) (post := []) rfl rfl rfl rfl)
  have r9 := Run.step r8 (Step.finish (pre := []) (t := ⟨1, [0], .sink 1, .none⟩) (post := []) rfl rfl rfl)
  refine ⟨?_, _, r9, rfl, rfl, .next (.first (by decide)) rfl (by decide)⟩
  intro h b hb
  match h with
  | 0 => simpa [two] using hb
  | h + 1 => simpa [two] using hb

/-- One handler with one sink that takes all levels. -/
def single : Nat → Handler := fun _ => ⟨none, [false], 999⟩

/-- C163 is false for levels that are not in the table: `handle` fails at the first sink, nothing is written. -/
theorem C163_refuted : ∃ s, Run some ⟨10, false⟩ (· = single) (start single [] 0) s ∧ s.tasks = [] ∧
    Reach single 10 0 [0] ∧ 0 < (single 0).sinks.length ∧ s.out = [] := by
  have r0 : Run some ⟨10, false⟩ (· = single) (start single [] 0) (start single [] 0) := .refl rfl
  have r1 := Run.step r0 (Step.enter (pre := []) (t := ⟨0, [], .queued, .none⟩) (post := []) rfl rfl (by decide) (by decide))
  have r2 := Run.step r1 (Step.parent (pre := []) (t := ⟨0, [], .inserted, .none⟩) (post := []) rfl rfl)
  have r3 := Run.step r2 (Step.fail (pre := []) (t := ⟨0, [], .sink 0, .none⟩) (post := []) rfl rfl rfl rfl)
  exact ⟨_, r3, rfl, .first (by decide), by decide, rfl⟩

/-! ## C164 -/

/-- The level in the logger is that of the handler, or it is older than the last change. -/
def LInv (s : L) : Prop := s.cached = unset ∨ s.cached = s.level ∨ s.since ≤ s.age

theorem linv_check {s : L} (h : LInv s) : LInv (check s) := by
  unfold check
  split
  · exact .inr (.inl rfl)
  · exact h

theorem linv_run (es : List LEv) : ∀ {s : L}, LInv s → LInv (es.foldl lstep s) := by
  induction es with
  | nil => exact fun h => h
  | cons e es ih =>
    intro s h
    apply ih
    cases e with
    | tick d =>
      rcases h with h | h | h
      · exact .inl h
      · exact .inr (.inl h)
      · exact .inr (.inr (Nat.add_le_add_right h d))
    | setLevel l => exact .inr (.inr (Nat.zero_le _))
    | log l => exact linv_check h

/-- C164, where it holds: when the level of the handler has not changed for more than 0.1 s, a logger sends a message exactly
if the handler lets it pass. Missing: the time after a change, see the refutation. -/
theorem C164_partial (level : Int) (since : Nat) (es : List LEv) (l : Int)
    (h : (es.foldl lstep (newLogger level since)).since > 100) :
    (log (es.foldl lstep (newLogger level since)) l).2 = true ↔ l ≤ (es.foldl lstep (newLogger level since)).level := by
  have H : LInv (es.foldl lstep (newLogger level since)) := linv_run es (.inl rfl)
  generalize es.foldl lstep (newLogger level since) = s at h H
  unfold log check
  by_cases hc : s.cached = unset ∨ s.age > 100
  · rw [if_pos hc]; simp
  · rw [if_neg hc]
    have hl : s.cached = s.level := by
      rcases H with h1 | h1 | h1
      · exact absurd (.inl h1) hc
      · exact h1
      · exact absurd (.inr (by omega)) hc
    simp [hl]

/-- The first message of a logger is always judged by the level of the handler. -/
theorem C164_first (level : Int) (since : Nat) (l : Int) :
    (log (newLogger level since) l).2 = true ↔ l ≤ level := by
  simp [log, check, newLogger]

/-- C164 is false: the handler is set to take everything, the logger drops an error up to 0.1 s later. -/
theorem C164_refuted : ∃ (es : List LEv) (s : L), s = es.foldl lstep (newLogger 0 1000) ∧ s.level = 999 ∧ s.since = 100 ∧
    (log s 3).2 = false ∧ known 3 = true :=
  ⟨[.log 0, .setLevel 999, .tick 100], _, rfl, rfl, rfl, by decide, rfl⟩

/-- A change, and messages more than 0.1 s after it. -/
example : ∃ s, s = [LEv.log 0, .setLevel 5, .tick 60, .log 1, .tick 60].foldl lstep (newLogger 0 1000) ∧ s.since > 100 ∧
    (log s 5).2 = true ∧ (log s 6).2 = false :=
  ⟨_, rfl, by decide, by decide, by decide⟩

end Verif.Log
