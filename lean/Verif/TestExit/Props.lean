import Verif.TestExit.Model
/-!
# C184, C185: passed means passed
-/
namespace Verif.TestExit

/-- What is known after the iterations `os`. -/
structure Sum (i : Info) (os : List Outcome) : Prop where
  iters : i.iters = os.length
  nskip : i.nskip = os.countP (fun o => o.skipped)
  nfail : i.nfail = os.countP (fun o => decide (o.success = some false))
  nerr : i.nerr = os.countP (fun o => decide (o.success = none))
  exc : i.exc ≠ none → ∃ o ∈ os, ¬ Fine o

/-- And what `judge` makes of it. -/
structure Judged (i : Info) : Prop where
  success : i.success = if i.nfail > 0 then some false else if i.nerr > 0 then none else some true
  skipped : i.skipped = (decide (i.nskip > 0) && decide (i.nfail = 0) && decide (i.nerr = 0))
  flaky : i.flaky = !((decide (i.nfail = 0) && decide (i.nerr = 0)) || decide (i.nfail = i.iters) || decide (i.nerr = i.iters))

theorem sum_new : Sum .new [] := ⟨rfl, rfl, rfl, rfl, fun h => absurd rfl h⟩

theorem update_sum {i : Info} {os : List Outcome} (h : Sum i os) (c : Bool) (o : Outcome) : Sum (update i c o) (os ++ [o]) := by
  have hexc : (if i.exc.isNone then o.exc else i.exc) ≠ none → ∃ x ∈ os ++ [o], ¬ Fine x := by
    intro hne
    by_cases hi : i.exc.isNone = true
    · rw [if_pos hi] at hne
      refine ⟨o, List.mem_append_right _ List.mem_cons_self, ?_⟩
      cases o with
      | ok => exact absurd rfl hne
      | skip => exact absurd rfl hne
      | fail => exact id
      | err => exact id
    · rw [if_neg hi] at hne
      obtain ⟨x, m, hx⟩ := h.exc hne
      exact ⟨x, List.mem_append_left _ m, hx⟩
  have h1 := h.iters; have h2 := h.nskip; have h3 := h.nfail; have h4 := h.nerr
  cases o <;>
  · refine ⟨?_, ?_, ?_, ?_, hexc⟩ <;>
    simp [update, judge, count, Outcome.skipped, Outcome.success, List.countP_append, h1, h2, h3, h4]

theorem update_judged (i : Info) (c : Bool) (o : Outcome) : Judged (update i c o) := ⟨rfl, rfl, rfl⟩

/-- The `TestInfo` after all iterations of a test, one `update` after the other (testing.act:1211). -/
def total (i : Info) (ss : List Step) : Info := ss.foldl (fun i s => update i s.complete s.out) i

theorem total_sum {i : Info} {os : List Outcome} (h : Sum i os) (ss : List Step) : Sum (total i ss) (os ++ ss.map (·.out)) := by
  unfold total
  induction ss generalizing i os with
  | nil => simpa using h
  | cons s ss ih =>
    have := ih (update_sum h s.complete s.out)
    rw [List.append_assoc] at this
    exact this

theorem total_judged {i : Info} {ss : List Step} (h : ss ≠ []) : Judged (total i ss) := by
  obtain ⟨xs, x, rfl⟩ := List.eq_nil_or_concat' ss |>.resolve_left h
  unfold total
  rw [List.foldl_append]
  exact update_judged _ _ _

theorem nfail_pos {os : List Outcome} : 0 < os.countP (fun o => decide (o.success = some false)) ↔ ∃ o ∈ os, Fails o := by
  rw [List.countP_pos_iff]
  refine exists_congr fun o => and_congr_right fun _ => ?_
  cases o <;> simp [Outcome.success, Fails]

theorem nerr_pos {os : List Outcome} : 0 < os.countP (fun o => decide (o.success = none)) ↔ ∃ o ∈ os, Errs o := by
  rw [List.countP_pos_iff]
  refine exists_congr fun o => and_congr_right fun _ => ?_
  cases o <;> simp [Outcome.success, Errs]

theorem nskip_pos {os : List Outcome} : 0 < os.countP (fun o => o.skipped) ↔ ∃ o ∈ os, Skips o := by
  rw [List.countP_pos_iff]
  refine exists_congr fun o => and_congr_right fun _ => ?_
  cases o <;> simp [Outcome.skipped, Skips]

theorem nfail_all {os : List Outcome} : os.countP (fun o => decide (o.success = some false)) = os.length ↔ ∀ o ∈ os, Fails o := by
  rw [List.countP_eq_length]
  refine forall_congr' fun o => forall_congr' fun _ => ?_
  cases o <;> simp [Outcome.success, Fails]

theorem nerr_all {os : List Outcome} : os.countP (fun o => decide (o.success = none)) = os.length ↔ ∀ o ∈ os, Errs o := by
  rw [List.countP_eq_length]
  refine forall_congr' fun o => forall_congr' fun _ => ?_
  cases o <;> simp [Outcome.success, Errs]

theorem not_fine {o : Outcome} : ¬ Fine o ↔ Fails o ∨ Errs o := by
  cases o <;> simp [Fine, Fails, Errs]

/-- **C185** What is recorded of a test after its iterations: it fails iff one of them failed, it is
an error iff none failed and one was an error, it passed iff all went well, is skipped iff all went
well and one was skipped, and is flaky iff not all went well, and neither all failed nor all were
errors. -/
theorem C185 {ss : List Step} (h : ss ≠ []) :
    ((total .new ss).success = some false ↔ ∃ s ∈ ss, Fails s.out) ∧
    ((total .new ss).success = none ↔ (∃ s ∈ ss, Errs s.out) ∧ ¬ ∃ s ∈ ss, Fails s.out) ∧
    ((total .new ss).success = some true ↔ ∀ s ∈ ss, Fine s.out) ∧
    ((total .new ss).skipped = true ↔ (∀ s ∈ ss, Fine s.out) ∧ ∃ s ∈ ss, Skips s.out) ∧
    ((total .new ss).flaky = true ↔ (∃ s ∈ ss, ¬ Fine s.out) ∧ (∃ s ∈ ss, ¬ Fails s.out) ∧ ∃ s ∈ ss, ¬ Errs s.out) := by
  have hs := total_sum sum_new ss
  rw [List.nil_append] at hs
  have hj := total_judged (i := .new) h
  generalize total .new ss = i at hs hj
  have ex : ∀ P : Outcome → Prop, (∃ o ∈ ss.map (·.out), P o) ↔ ∃ s ∈ ss, P s.out := by
    intro P; simp
  have al : ∀ P : Outcome → Prop, (∀ o ∈ ss.map (·.out), P o) ↔ ∀ s ∈ ss, P s.out := by
    intro P; simp
  have f : 0 < i.nfail ↔ ∃ s ∈ ss, Fails s.out := by rw [hs.nfail, nfail_pos, ex]
  have e : 0 < i.nerr ↔ ∃ s ∈ ss, Errs s.out := by rw [hs.nerr, nerr_pos, ex]
  have k : 0 < i.nskip ↔ ∃ s ∈ ss, Skips s.out := by rw [hs.nskip, nskip_pos, ex]
  have fa : i.nfail = i.iters ↔ ∀ s ∈ ss, Fails s.out := by rw [hs.nfail, hs.iters, nfail_all, al]
  have ea : i.nerr = i.iters ↔ ∀ s ∈ ss, Errs s.out := by rw [hs.nerr, hs.iters, nerr_all, al]
  have fine : (i.nfail = 0 ∧ i.nerr = 0) ↔ ∀ s ∈ ss, Fine s.out := by
    constructor
    · rintro ⟨a, b⟩ s hm
      by_contra hn
      rcases not_fine.1 hn with hn | hn
      · have := f.2 ⟨s, hm, hn⟩; omega
      · have := e.2 ⟨s, hm, hn⟩; omega
    · intro hall
      constructor
      · by_contra hn
        obtain ⟨s, hm, hx⟩ := f.1 (by omega)
        exact not_fine.2 (.inl hx) (hall s hm)
      · by_contra hn
        obtain ⟨s, hm, hx⟩ := e.1 (by omega)
        exact not_fine.2 (.inr hx) (hall s hm)
  refine ⟨?_, ?_, ?_, ?_, ?_⟩
  · rw [← f, hj.success]
    by_cases a : i.nfail > 0
    · rw [if_pos a]; simp [a]
    · rw [if_neg a]; split <;> simp [a] <;> omega
  · rw [← f, ← e, hj.success]
    by_cases a : i.nfail > 0
    · rw [if_pos a]; simp; intro _; omega
    · rw [if_neg a]
      by_cases b : i.nerr > 0
      · rw [if_pos b]; simp [b]; omega
      · rw [if_neg b]; simp; omega
  · rw [← fine, hj.success]
    by_cases a : i.nfail > 0
    · rw [if_pos a]; simp; omega
    · rw [if_neg a]
      by_cases b : i.nerr > 0
      · rw [if_pos b]; simp; omega
      · rw [if_neg b]; simp; omega
  · rw [← fine, ← k, hj.skipped]
    simp [and_comm, and_assoc, and_left_comm]
  · have e1 : (∃ s ∈ ss, ¬ Fine s.out) ↔ ¬ (i.nfail = 0 ∧ i.nerr = 0) := by rw [fine]; simp
    have e2 : (∃ s ∈ ss, ¬ Fails s.out) ↔ ¬ (i.nfail = i.iters) := by rw [fa]; simp
    have e3 : (∃ s ∈ ss, ¬ Errs s.out) ↔ ¬ (i.nerr = i.iters) := by rw [ea]; simp
    rw [e1, e2, e3, hj.flaky]
    simp only [Bool.not_eq_true', Bool.or_eq_false_iff, Bool.and_eq_false_iff, decide_eq_false_iff_not]
    constructor
    · rintro ⟨⟨a, b⟩, c⟩
      exact ⟨fun h => a.elim (fun x => x h.1) (fun x => x h.2), b, c⟩
    · rintro ⟨a, b, c⟩
      refine ⟨⟨?_, b⟩, c⟩
      by_cases x : i.nfail = 0
      · exact .inr fun y => a ⟨x, y⟩
      · exact .inl x

example : (total .new [⟨.ok, false, true⟩, ⟨.fail none, true, true⟩]).flaky = true :=
  (C185 (by simp)).2.2.2.2.2 ⟨⟨⟨.fail none, true, true⟩, by simp, by simp [Fine]⟩, ⟨⟨.ok, false, true⟩, by simp, by simp [Fails]⟩,
    ⟨⟨.ok, false, true⟩, by simp, by simp [Errs]⟩⟩

/-! ## The exit code -/

theorem exit_zero {rs : List Info} : exitCode rs = 0 ↔ ∀ r ∈ rs, r.success = some true := by
  unfold exitCode
  have h1 : ∀ v : Option Bool, (rs.filter (fun r => r.success = v)).length > 0 ↔ ∃ r ∈ rs, r.success = v := by
    intro v
    rw [gt_iff_lt, List.length_pos_iff_exists_mem]
    simp
  by_cases a : (rs.filter (fun r => r.success = none)).length > 0
  · rw [if_pos a]
    obtain ⟨r, m, e⟩ := (h1 _).1 a
    exact ⟨fun h => (by cases h), fun h => by have := h r m; rw [e] at this; cases this⟩
  · rw [if_neg a]
    by_cases b : (rs.filter (fun r => r.success = some false)).length > 0
    · rw [if_pos b]
      obtain ⟨r, m, e⟩ := (h1 _).1 b
      exact ⟨fun h => (by cases h), fun h => by have := h r m; rw [e] at this; cases this⟩
    · rw [if_neg b]
      refine ⟨fun _ r m => ?_, fun _ => rfl⟩
      cases hr : r.success with
      | none => exact absurd ((h1 _).2 ⟨r, m, hr⟩) a
      | some v =>
        cases v with
        | true => rfl
        | false => exact absurd ((h1 _).2 ⟨r, m, hr⟩) b

theorem update_complete (i : Info) (c : Bool) (o : Outcome) : (update i c o).complete = c := by
  cases o <;> simp [update, judge, count, Outcome.skipped, Outcome.success]

theorem reports_last {s : Step} (hs : s.complete = true) (ss : List Step) (i : Info) : ∃ l, reports i (ss ++ [s]) = l ++ [total i (ss ++ [s])] := by
  induction ss generalizing i with
  | nil => exact ⟨[], by simp [reports, hs, total]⟩
  | cons x ss ih =>
    obtain ⟨l, hl⟩ := ih (update i x.complete x.out)
    rw [List.cons_append, reports]
    by_cases hx : (x.reported || x.complete) = true
    · rw [if_pos hx, hl]; exact ⟨_ :: l, rfl⟩
    · rw [if_neg hx, hl]; exact ⟨l, rfl⟩

theorem result_ended {p : Proc} (h : Ended p) : result p = total .new p.steps := by
  obtain ⟨hc, ss, s, hp, hs, -⟩ := h
  obtain ⟨l, hl⟩ := reports_last hs ss .new
  have hcomp : (total .new (ss ++ [s])).complete = true := by
    unfold total
    rw [List.foldl_append]
    show (update _ s.complete s.out).complete = true
    rw [update_complete, hs]
  unfold result
  simp only
  rw [if_pos hc, hp, hl]
  unfold pickFinal
  rw [List.reverse_append, List.reverse_singleton, List.singleton_append]
  simp only
  rw [List.find?_cons_of_pos hcomp]
  rfl

theorem label_good {p : Proc} (h : Ended p) : (label (result p) = .ok ∨ label (result p) = .skip) ↔ ∀ s ∈ p.steps, Fine s.out := by
  rw [result_ended h]
  have hne : p.steps ≠ [] := by
    obtain ⟨-, ss, s, hp, -⟩ := h
    rw [hp]; simp
  obtain ⟨-, -, h3, h4, -⟩ := C185 hne
  have hs := total_sum sum_new p.steps
  rw [List.nil_append] at hs
  constructor
  · rintro (hl | hl)
    · rw [← h3]
      unfold label at hl
      split at hl
      · cases hl
      · split at hl
        · rename_i hok
          simp only [isOk, Bool.and_eq_true, decide_eq_true_eq] at hok
          exact hok.1.1
        · repeat' split at hl
          all_goals cases hl
    · unfold label at hl
      split at hl
      · rename_i hk
        exact (h4.1 hk).1
      · repeat' split at hl
        all_goals cases hl
  · intro hall
    unfold label
    by_cases hk : (total .new p.steps).skipped = true
    · rw [if_pos hk]; exact .inr rfl
    · rw [if_neg hk]
      have hexc : (total .new p.steps).exc = none := by
        by_contra hn
        obtain ⟨o, m, hf⟩ := hs.exc hn
        obtain ⟨s, m', rfl⟩ := List.mem_map.1 m
        exact hf (hall s m')
      rw [if_pos (by simp [isOk, h3.2 hall, hexc, hk])]
      exact .inl rfl

/-- **C184** (partial) If the test processes end as they should, `acton test` exits with 0 (and says
that all tests passed) iff every test is shown as passed or skipped, and iff all iterations of all
tests went well; missing: processes that die, see `C184_refuted`. -/
theorem C184_partial {ps : List Proc} (h : ∀ p ∈ ps, Ended p) :
    (exitCode (ps.map result) = 0 ↔ ∀ p ∈ ps, label (result p) = .ok ∨ label (result p) = .skip) ∧
    (exitCode (ps.map result) = 0 ↔ ∀ p ∈ ps, ∀ s ∈ p.steps, Fine s.out) := by
  have key : exitCode (ps.map result) = 0 ↔ ∀ p ∈ ps, ∀ s ∈ p.steps, Fine s.out := by
    rw [exit_zero]
    constructor
    · intro hx p hp
      have := hx _ (List.mem_map.2 ⟨p, hp, rfl⟩)
      rw [result_ended (h p hp)] at this
      obtain ⟨-, ss, s, e, -⟩ := h p hp
      exact (C185 (by rw [e]; simp)).2.2.1.1 this
    · intro hx r hr
      obtain ⟨p, hp, rfl⟩ := List.mem_map.1 hr
      rw [result_ended (h p hp)]
      obtain ⟨-, ss, s, e, -⟩ := h p hp
      exact (C185 (by rw [e]; simp)).2.2.1.2 (hx p hp)
  refine ⟨?_, key⟩
  rw [key]
  exact forall_congr' fun p => forall_congr' fun hp => (label_good (h p hp)).symm

/-- The test has an error, and does not fail. -/
def OnlyErrs (p : Proc) : Prop := (∃ s ∈ p.steps, Errs s.out) ∧ ¬ ∃ s ∈ p.steps, Fails s.out

/-- The other exit codes: 2 if some test has errors and no failures; else 1 if some test fails. -/
theorem C184_codes {ps : List Proc} (h : ∀ p ∈ ps, Ended p) :
    (exitCode (ps.map result) = 2 ↔ ∃ p ∈ ps, OnlyErrs p) ∧
    (exitCode (ps.map result) = 1 ↔ (∃ p ∈ ps, ∃ s ∈ p.steps, Fails s.out) ∧ ¬ ∃ p ∈ ps, OnlyErrs p) := by
  have ne : ∀ p ∈ ps, p.steps ≠ [] := by
    intro p hp
    obtain ⟨-, ss, s, e, -⟩ := h p hp
    rw [e]; simp
  have h1 : ∀ v : Option Bool, ((ps.map result).filter (fun r => r.success = v)).length > 0 ↔ ∃ p ∈ ps, (total .new p.steps).success = v := by
    intro v
    rw [gt_iff_lt, List.length_pos_iff_exists_mem]
    constructor
    · rintro ⟨r, hr⟩
      obtain ⟨m, e⟩ := List.mem_filter.1 hr
      obtain ⟨p, hp, rfl⟩ := List.mem_map.1 m
      refine ⟨p, hp, ?_⟩
      rw [← result_ended (h p hp)]
      simpa using e
    · rintro ⟨p, hp, e⟩
      rw [← result_ended (h p hp)] at e
      exact ⟨result p, List.mem_filter.2 ⟨List.mem_map.2 ⟨p, hp, rfl⟩, by simpa using e⟩⟩
  have hn : (∃ p ∈ ps, (total .new p.steps).success = none) ↔ ∃ p ∈ ps, OnlyErrs p :=
    exists_congr fun p => and_congr_right fun hp => (C185 (ne p hp)).2.1
  have hf : (∃ p ∈ ps, (total .new p.steps).success = some false) ↔ ∃ p ∈ ps, ∃ s ∈ p.steps, Fails s.out :=
    exists_congr fun p => and_congr_right fun hp => (C185 (ne p hp)).1
  rw [← hn, ← hf, ← h1 none, ← h1 (some false)]
  unfold exitCode
  by_cases a : ((ps.map result).filter (fun r => r.success = none)).length > 0
  · rw [if_pos a]; simp [a]
  · rw [if_neg a]
    by_cases b : ((ps.map result).filter (fun r => r.success = some false)).length > 0
    · rw [if_pos b]
      exact ⟨⟨fun h => (by cases h), fun h => absurd h a⟩, ⟨fun _ => ⟨b, a⟩, fun _ => rfl⟩⟩
    · rw [if_neg b]
      exact ⟨⟨fun h => (by cases h), fun h => absurd h a⟩, ⟨fun h => (by cases h), fun h => absurd h.1 b⟩⟩

example : exitCode ([⟨[⟨.fail none, true, true⟩], 0⟩].map result) = 1 := by
  refine (C184_codes (ps := [⟨[⟨.fail none, true, true⟩], 0⟩]) ?_).2.2 ⟨?_, ?_⟩
  · intro p hp
    rw [List.mem_singleton] at hp
    subst hp
    exact ⟨rfl, [], ⟨.fail none, true, true⟩, rfl, rfl, by simp⟩
  · exact ⟨_, List.mem_cons_self, ⟨.fail none, true, true⟩, List.mem_cons_self, none, rfl⟩
  · rintro ⟨p, hp, -, hn⟩
    rw [List.mem_singleton] at hp
    subst hp
    exact hn ⟨⟨.fail none, true, true⟩, List.mem_cons_self, none, rfl⟩

/-- A test that passes twice. -/
example : exitCode ([⟨[⟨.ok, false, false⟩, ⟨.ok, true, true⟩], 0⟩].map result) = 0 := by
  refine (C184_partial (ps := [⟨[⟨.ok, false, false⟩, ⟨.ok, true, true⟩], 0⟩]) ?_).2.2 ?_
  · intro p hp
    rw [List.mem_singleton] at hp
    subst hp
    exact ⟨rfl, [⟨.ok, false, false⟩], ⟨.ok, true, true⟩, rfl, rfl, by simp⟩
  · intro p hp
    rw [List.mem_singleton] at hp
    subst hp
    simp [Fine]

/-- A process that reports an iteration that passed, and is then killed by a segmentation fault
without having come to the end of the test. -/
def crash : Proc := ⟨[⟨.ok, false, true⟩], -11⟩

/-- The test is shown as an error, and `acton test` says that all tests passed and exits with 0. -/
theorem C184_refuted : exitCode ([crash].map result) = 0 ∧ label (result crash) = .err ∧ (result crash).complete = false := by
  refine ⟨by decide, by decide, by decide⟩

/-- A test process that dies without any report is an error. -/
theorem C184_silent {p : Proc} (h : reports .new p.steps = []) (ps : List Proc) (hp : p ∈ ps) : exitCode (ps.map result) = 2 := by
  have hr : (result p).success = none := by
    unfold result
    rw [h]
    by_cases hc : p.code = 0
    · simp only [if_pos hc]; rfl
    · simp only [if_neg hc]; rfl
  unfold exitCode
  rw [if_pos]
  rw [gt_iff_lt, List.length_pos_iff_exists_mem]
  exact ⟨result p, List.mem_filter.2 ⟨List.mem_map.2 ⟨p, hp, rfl⟩, by simpa using hr⟩⟩

example : exitCode ([⟨[], 1⟩].map result) = 2 := C184_silent (p := ⟨[], 1⟩) rfl _ List.mem_cons_self

end Verif.TestExit
