import Verif.Rts.Runs
/-!
# C18–C21: the run-time system

The theorems hold for the executions in which no worker takes an actor from a ready queue while another worker still
posts messages of that actor (`NoOverlap`). `C18_sync` shows that programs that await only the message they sent last
have no other executions. The code does not enforce the condition otherwise, and the refutations show what happens.
-/
namespace Verif.Rts
open Verif Function

variable {s : State} {ml : MLoc → List Nat} {al : ALoc → List Nat}

theorem atWork_handles : ∀ {p : Phase} {a : Nat}, atWork p = some a ↔ Handles p a := by
  intro p
  induction p with
  | rdy b k ih => intro a; exact ih
  | flush a m k => intro b; simp only [atWork, Handles, owner, poster]; split <;> simp
  | loop a m x k => intro b; simp only [atWork, Handles, owner, poster]; split <;> simp
  | _ => intro b; simp [atWork, Handles, owner, poster]

theorem follows_of_chain {nx : Nat → Option Nat} : ∀ {l : List Nat} {p : Option Nat}, Chain nx p l → Follows nx p l := by
  intro l
  induction l with
  | nil => intro p h; simp only [Chain] at h; subst h; trivial
  | cons x l ih => intro p h; obtain ⟨rfl, h2⟩ := h; exact ⟨rfl, ih h2⟩

theorem toReady_eq : ∀ p : Phase, toReady p = rdys p
  | .rdy b k => by simp only [toReady, rdys, toReady_eq k]
  | .idle | .got _ | .run .. | .addWait .. | .flush .. | .loop .. | .resume .. | .freeze .. | .wake .. | .deq .. | .timed _ => rfl

theorem waking_of : ∀ {p : Phase} {y b x : Nat}, wakePtr p = some y → frozenOf p = some (b, x) → waking p = some (x, y) := by
  intro p
  induction p with
  | rdy b k ih => intro y b x h1 h2; exact ih h1 h2
  | wake a m k v b => intro y b x h1 h2; simp only [wakePtr, frozenOf, Option.some.injEq, Prod.mk.injEq] at h1 h2; simp [waking, h1, h2.2]
  | _ => intro y b x h1; simp [wakePtr] at h1

/-! ## C18 -/

/-- The code runs into no assertion failure and follows no invalid pointer. Missing for the full claim: executions in
which a worker takes an actor whose messages another one still posts. -/
theorem C18_no_crash_partial (h : Reach NoOverlap s) {l : Label} (hl : NoOverlap s l) {r : Res State} (hs : step s l = some r) :
    ∃ s', r = .ok s' := by
  obtain ⟨ml, al, hc, hv, -⟩ := reach_all (fun _ _ h => h) h
  obtain ⟨s', -, -, e, -⟩ := refine hc hv.held1 hl hs
  exact ⟨s', e⟩

/-- Worker 2 has completed the message that actor 1 awaits. -/
example : ∃ s l r, Reach NoOverlap s ∧ NoOverlap s l ∧ step s l = some r ∧ s.wk 2 = .wake 2 2 MARK_RESULT 78 1 := by
  obtain ⟨s, h, h1⟩ := ex_ok exAwait3 (fun s => s.wk 2 = .wake 2 2 MARK_RESULT 78 1) (by decide +kernel) (by decide +kernel)
  have h1 : s.wk 2 = .wake 2 2 MARK_RESULT 78 1 := by simpa using h1
  exact ⟨s, .go 2, _, h, trivial, by simp only [step, h1, go]; rfl, h1⟩

/-- At most one worker is busy with an actor. Missing: see `C18_no_crash_partial`. -/
theorem C18_exclusive_partial (h : Reach NoOverlap s) {w w' a : Nat} (h1 : atWork (s.wk w) = some a)
    (h2 : atWork (s.wk w') = some a) : w = w' := by
  obtain ⟨ml, al, -, hv, -⟩ := reach_all (fun _ _ h => h) h
  exact hv.handles (atWork_handles.1 h1) (atWork_handles.1 h2)

/-- Two workers busy with two actors; the first with its actor after an await. -/
example : ∃ s, Reach NoOverlap s ∧ atWork (s.wk 1) = some 1 ∧ atWork (s.wk 2) = some 2 := by
  obtain ⟨s, h, h1⟩ := ex_ok (exAwait3 ++ goN 2 2 ++ [.take 1 true])
    (fun s => atWork (s.wk 1) = some 1 ∧ atWork (s.wk 2) = some 2) (by decide +kernel) (by decide +kernel)
  exact ⟨s, h, by simpa using h1⟩

/-- The links of the ready queues form lists. No actor is in two of them or twice in one, those in them have
messages and do not wait. An actor with messages that does not wait is in a ready queue, or a worker is busy with
it or about to put it there. Missing: see `C18_no_crash_partial`. -/
theorem C18_ready_partial (h : Reach NoOverlap s) : ∃ q : Nat → List Nat,
    (∀ i, Follows (fun a => (s.actors a).next) (s.rqs i).head (q i)) ∧ (∀ i, (q i).Nodup) ∧
    (∀ i j a, a ∈ q i → a ∈ q j → i = j) ∧
    (∀ i a, a ∈ q i → (s.actors a).msg ≠ none ∧ (s.actors a).waitsfor = none) ∧
    ∀ a, (s.actors a).msg ≠ none → (s.actors a).waitsfor = none →
      (∃ i, a ∈ q i) ∨ (∃ w, atWork (s.wk w) = some a) ∨ ∃ w, a ∈ toReady (s.wk w) := by
  obtain ⟨ml, al, hc, hv, -⟩ := reach_all (fun _ _ h => h) h
  have hmsg : ∀ a, (s.actors a).msg = (ml (.mq a)).head? := fun a => hc.headM_eq (.mq a)
  refine ⟨fun i => al (.ready i), fun i => follows_of_chain (hc.A.chain (.ready i) trivial), fun i => hc.A.nodup _, ?_, ?_, ?_⟩
  · intro i j a h1 h2
    simpa using hc.A.disj _ _ a h1 h2
  · intro i a ha
    refine ⟨?_, ?_⟩
    · rw [hmsg]
      have := (hc.live a).1 ⟨_, ha⟩
      cases hq : ml (.mq a) with
      | nil => exact absurd hq this
      | cons x t => simp
    · by_contra hne
      rcases hc.nowait a hne with ⟨x, h1⟩ | ⟨w, h1⟩
      · have := hc.A.disj _ _ a ha h1; cases this
      · have := hc.A.disj _ _ a ha h1; cases this
  · intro a h1 h2
    have : ml (.mq a) ≠ [] := by
      intro e; rw [hmsg, e] at h1; exact h1 rfl
    obtain ⟨l, hl⟩ := (hc.live a).2 this
    cases l with
    | ready i => exact .inl ⟨i, hl⟩
    | waiting x => rw [hc.wait a x hl] at h2; cases h2
    | wake w =>
      obtain ⟨_, m, -, h3⟩ := hc.waitk a w hl
      rw [h3] at h2; cases h2
    | own w =>
      right; left
      refine ⟨w, atWork_handles.2 (.inl ?_)⟩
      rw [hc.own] at hl
      simpa using hl
    | rdy w => right; right; exact ⟨w, by rw [toReady_eq, ← hc.rdy]; exact hl⟩

/-- Actor 2 with two messages in the ready queue, actor 1 waiting. -/
example : ∃ s, Reach NoOverlap s ∧ (s.rqs sharedRq).head = some 2 ∧ (s.actors 2).msg = some 1 ∧ (s.actors 2).tail = some 2 ∧
    (s.actors 1).waitsfor = some 2 := by
  obtain ⟨s, h, h1⟩ := ex_ok exAwait1 (fun s => (s.rqs sharedRq).head = some 2 ∧ (s.actors 2).msg = some 1 ∧
    (s.actors 2).tail = some 2 ∧ (s.actors 1).waitsfor = some 2) (by decide +kernel) (by decide +kernel)
  exact ⟨s, h, by simpa using h1⟩

/-- An actor that waits for `x` is on the list of `x`, which is then not completed, or on the list of actors that the
worker that completed `x` is about to wake. Missing: see `C18_no_crash_partial`. -/
theorem C18_no_lost_wakeup_partial (h : Reach NoOverlap s) {a x : Nat} (ha : (s.actors a).waitsfor = some x) :
    (¬ s.frozen x ∧ ∃ l, Follows (fun a => (s.actors a).next) (s.msgs x).waiting l ∧ a ∈ l) ∨
    ∃ w b l, waking (s.wk w) = some (x, b) ∧ Follows (fun a => (s.actors a).next) (some b) l ∧ a ∈ l := by
  obtain ⟨ml, al, hc, hv, -⟩ := reach_all (fun _ _ h => h) h
  rcases hc.nowait a (by rw [ha]; simp) with ⟨y, h1⟩ | ⟨w, h1⟩
  · have := hc.wait a y h1
    rw [ha] at this
    cases this
    left
    refine ⟨?_, _, follows_of_chain (hc.A.chain (.waiting x) trivial), h1⟩
    intro hf
    rw [hc.frzW x hf] at h1; cases h1
  · obtain ⟨b, m, h2, h3⟩ := hc.waitk a w h1
    rw [ha] at h3
    cases h3
    right
    have h4 := follows_of_chain (hc.A.chain (.wake w) trivial)
    simp only [headA] at h4
    cases hp : wakePtr (s.wk w) with
    | none =>
      rw [hp] at h4
      cases hl : al (.wake w) with
      | nil => rw [hl] at h1; cases h1
      | cons y t => rw [hl] at h4; exact h4.elim
    | some y =>
      rw [hp] at h4
      exact ⟨w, y, _, waking_of hp h2, h4, h1⟩

/-- Actor 1 waits for message 2: not completed in the first state, completed in the second. -/
example : (∃ s, Reach NoOverlap s ∧ (s.actors 1).waitsfor = some 2 ∧ ¬ s.frozen 2) ∧
    ∃ s, Reach NoOverlap s ∧ (s.actors 1).waitsfor = some 2 ∧ s.frozen 2 := by
  constructor
  · obtain ⟨s, h, h1⟩ := ex_ok exAwait2 (fun s => (s.actors 1).waitsfor = some 2 ∧ ¬ s.frozen 2) (by decide +kernel)
      (by decide +kernel)
    exact ⟨s, h, by simpa using h1⟩
  · obtain ⟨s, h, h1⟩ := ex_ok exAwait3 (fun s => (s.actors 1).waitsfor = some 2 ∧ s.frozen 2) (by decide +kernel)
      (by decide +kernel)
    exact ⟨s, h, by simpa using h1⟩

/-- Programs that await only the message they sent last, or completed ones, have only executions that meet the
condition; no step of theirs crashes. -/
theorem C18_sync (h : Reach Sync s) : Reach NoOverlap s ∧ (∀ l, NoOverlap s l) ∧
    ∀ l r, step s l = some r → ∃ s', r = .ok s' :=
  ⟨sync_reach h, sync_noOverlap h, fun l _ hs => C18_no_crash_partial (sync_reach h) (sync_noOverlap h l) hs⟩

/-- An execution with an await for the message sent last. -/
example : ∃ s, Reach Sync s ∧ (s.actors 1).waitsfor = some 2 := by
  obtain ⟨s, h, h1⟩ := ex_sync exAwait1 (fun s => (s.actors 1).waitsfor = some 2) (by decide +kernel) (by decide +kernel)
  exact ⟨s, h, by simpa using h1⟩

/-! ## C19 -/

/-- The record of the execution `exAwait4`. -/
def awaitLog : List Event :=
  [.ext 1 0, .ran 1 0 10 0, .sent 1 2 1, .sent 1 2 2, .awaits 1 0 6 2, .ran 2 1 11 0, .completed 1 MARK_RESULT 77,
   .finished 2 1, .ran 2 2 12 0, .completed 2 MARK_RESULT 78, .finished 2 2, .ran 1 0 6 78, .completed 0 MARK_RESULT 79,
   .finished 1 0]

/-- When an actor executes a message, the message is not one it has finished; the messages that the same sender sent
it before are finished, and in the order of sending. Missing: see `C18_no_crash_partial`. -/
theorem C19_order_partial (h : Reach NoOverlap s) {L1 L2 : List Event} {r m c v : Nat} (he : s.log = L1 ++ .ran r m c v :: L2) :
    Event.finished r m ∉ L1 ∧
    ∀ a, Event.sent a r m ∈ L1 → (finishedBy L1 r).filter (· ∈ sends L1 a r) ++ [m] <+: sends L1 a r := by
  obtain ⟨ml, al, -, -, hA⟩ := reach_all (fun _ _ h => h) h
  obtain ⟨pd, -, -, hr⟩ := hA.ord
  obtain ⟨h1, h2⟩ := hr L1 L2 r m c v he
  exact ⟨fun h => h1 ((mem_finishedBy ..).2 h), fun a ha => h2 a ((mem_sends ..).2 ha)⟩

/-- Actor 2 executes the second message from actor 1. -/
example : ∃ s L1 L2 c v, Reach NoOverlap s ∧ s.log = L1 ++ .ran 2 2 c v :: L2 ∧ Event.sent 1 2 2 ∈ L1 ∧
    sends L1 1 2 = [1, 2] ∧ finishedBy L1 2 = [1] := by
  obtain ⟨s, h, h1⟩ := ex_log exAwait4 awaitLog (by decide +kernel) (by decide +kernel)
  exact ⟨s, awaitLog.take 8, awaitLog.drop 9, 12, 0, h, by rw [h1]; rfl, by decide, by decide, by decide⟩

/-- An actor works on one message at a time: it executes a message only if it has none, or that one, started and not
finished. Missing: see `C18_no_crash_partial`. -/
theorem C19_one_at_a_time_partial (h : Reach NoOverlap s) {L1 L2 : List Event} {r m c v : Nat} (he : s.log = L1 ++ .ran r m c v :: L2) :
    started L1 r = none ∨ started L1 r = some m := by
  obtain ⟨ml, al, -, -, hA⟩ := reach_all (fun _ _ h => h) h
  exact hA.turn.ran L1 L2 r m c v he

/-- Actor 1 continues the message that it had started before the await. -/
example : ∃ s L1 L2 c v, Reach NoOverlap s ∧ s.log = L1 ++ .ran 1 0 c v :: L2 ∧ started L1 1 = some 0 ∧ started L1 2 = none := by
  obtain ⟨s, h, h1⟩ := ex_log exAwait4 awaitLog (by decide +kernel) (by decide +kernel)
  exact ⟨s, awaitLog.take 11, awaitLog.drop 12, 6, 78, h, by rw [h1]; rfl, by decide, by decide⟩

/-- No message is finished twice, and the messages finished by a receiver are, for each sender, a prefix of those sent.
Missing: see `C18_no_crash_partial`. -/
theorem C19_once_partial (h : Reach NoOverlap s) (a r : Nat) : (finishedBy s.log r).Nodup ∧
    (finishedBy s.log r).filter (· ∈ sends s.log a r) <+: sends s.log a r := by
  obtain ⟨ml, al, -, -, hA⟩ := reach_all (fun _ _ h => h) h
  obtain ⟨pd, -, hl, -⟩ := hA.ord
  refine ⟨hl.fin r, ?_⟩
  have := hl.ord a r
  rw [List.append_assoc, List.filter_append] at this
  exact ⟨_, this.symm⟩

/-- The first of two messages is finished. -/
example : ∃ s, Reach NoOverlap s ∧ finishedBy s.log 2 = [1] ∧ sends s.log 1 2 = [1, 2] := by
  obtain ⟨s, h, h1⟩ := ex_ok exAwait2 (fun s => finishedBy s.log 2 = [1] ∧ sends s.log 1 2 = [1, 2]) (by decide +kernel)
    (by decide +kernel)
  exact ⟨s, h, by simpa using h1⟩

/-- When nothing is left to do, the receiver has finished all messages sent to it, or awaits a message that is not
completed. Missing: see `C18_no_crash_partial`. -/
theorem C19_delivered_partial (h : Reach NoOverlap s) (hq : Quiet s) {a r m : Nat} (hm : Event.sent a r m ∈ s.log) :
    Event.finished r m ∈ s.log ∨ ∃ x, (s.actors r).waitsfor = some x ∧ ∀ k v, Event.completed x k v ∉ s.log := by
  obtain ⟨ml, al, hc, hv, hA⟩ := reach_all (fun _ _ h => h) h
  obtain ⟨pd, hp, hl, -⟩ := hA.ord
  have hlive : ∀ b, ml (.mq b) ≠ [] → ∃ x, b ∈ al (.waiting x) := by
    intro b hb
    obtain ⟨l, hl⟩ := (hc.live b).2 hb
    cases l with
    | ready i =>
      have := (hc.A.chain (.ready i) trivial).head
      simp only [headA, hq.2 i] at this
      have := List.head?_eq_none_iff.1 this.symm
      rw [this] at hl; cases hl
    | waiting x => exact ⟨x, hl⟩
    | wake w =>
      have := hv.wake w
      simp only [view, hq.1 w, wakePtr] at this
      rw [List.head?_eq_none_iff.1 this] at hl; cases hl
    | own w => rw [hc.own, hq.1 w] at hl; cases hl
    | rdy w => rw [hc.rdy, hq.1 w] at hl; cases hl
  have hdst := hl.sdst a r m hm
  rcases hl.tot m (hl.lt _ m hm rfl) with h1 | h1 | h1 | ⟨w, h1⟩ | ⟨b, h1⟩
  · left; rw [hdst] at h1; exact (mem_finishedBy ..).1 h1
  · right
    rw [hdst] at h1
    obtain ⟨x, hx⟩ := hlive r (List.ne_nil_of_mem h1)
    refine ⟨x, hc.wait r x hx, ?_⟩
    intro k v hk
    obtain ⟨-, h2, -, h3⟩ := hA.aw.c.comp x k v hk
    have hf : (view s ml al).frozen x := by simp only [V.frozen, h2]; exact h3
    have := hc.frzW x hf
    rw [this] at hx; cases hx
  · exfalso
    obtain ⟨b, h2⟩ := hl.tkind m h1
    have := hl.uniq _ _ m hm h2 rfl rfl
    cases this
  · exfalso
    obtain ⟨b, h2⟩ := hl.hkind w m h1
    have := hl.uniq _ _ m hm h2 rfl rfl
    cases this
  · exfalso
    obtain ⟨y, h2, -⟩ := hl.kind b m h1
    obtain ⟨x, hx⟩ := hlive b (by intro e; simp only [view] at h2; rw [e] at h2; cases h2)
    rcases hp.stuck b (List.ne_nil_of_mem h1) with ⟨w, h3⟩ | h3
    · simp only [view, hq.1 w, poster] at h3; cases h3
    · have := hv.wait b x hx
      rw [h3] at this; cases this

/-- All workers at rest after `exAwait4`. -/
example : ∃ s, Reach NoOverlap s ∧ Quiet s ∧ Event.sent 1 2 2 ∈ s.log := by
  obtain ⟨s, h, hq, h1⟩ := ex_quiet exAwait4 (fun s => Event.sent 1 2 2 ∈ s.log) (by decide +kernel) (by decide +kernel)
    (by decide +kernel)
  exact ⟨s, h, hq, by simpa using h1⟩

/-! ## C20 -/

/-- After an await the next thing that the actor executes is the continuation given with the await, with the value of
the awaited message, which is completed; or, if that is exceptional, the failing continuation with the exception.
Missing: see `C18_no_crash_partial`. -/
theorem C20_resume_partial (h : Reach NoOverlap s) {L1 L2 : List Event} {a m c v m0 c0 x : Nat}
    (he : s.log = L1 ++ .ran a m c v :: L2) (hp : pend L1 a = some (m0, c0, x)) :
    m = m0 ∧ ((Event.completed x MARK_RESULT v ∈ L1 ∧ c = c0) ∨ (Event.completed x MARK_EXCEPTION v ∈ L1 ∧ c = failInst)) := by
  obtain ⟨ml, al, -, -, hA⟩ := reach_all (fun _ _ h => h) h
  obtain ⟨h1, k, h2, h3⟩ := hA.aw.h.res L1 L2 a m c v he m0 c0 x hp
  refine ⟨h1, ?_⟩
  obtain ⟨-, -, -, h4⟩ := hA.aw.c.comp x k v (by simp only [view]; rw [he]; simp [h2])
  rcases h4 with rfl | rfl
  · left; exact ⟨h2, by rw [h3]; simp [wakeCont, MARK_RESULT, MARK_EXCEPTION]⟩
  · right; exact ⟨h2, by rw [h3]; simp [wakeCont]⟩

/-- Actor 1 resumes with the result, and with the exception if the call fails. -/
example : (∃ s L1 L2, Reach NoOverlap s ∧ s.log = L1 ++ .ran 1 0 6 78 :: L2 ∧ pend L1 1 = some (0, 6, 2)) ∧
    ∃ s L1, Reach NoOverlap s ∧ s.log = L1 ++ [.ran 1 0 failInst 66] ∧ pend L1 1 = some (0, 6, 2) := by
  constructor
  · obtain ⟨s, h, h1⟩ := ex_log exAwait4 awaitLog (by decide +kernel) (by decide +kernel)
    exact ⟨s, awaitLog.take 11, awaitLog.drop 12, h, by rw [h1]; rfl, by decide⟩
  · obtain ⟨s, h, h1⟩ := ex_log exFail (awaitLog.take 9 ++ [.completed 2 MARK_EXCEPTION 66, .finished 2 2,
      .ran 1 0 failInst 66]) (by decide +kernel) (by decide +kernel)
    exact ⟨s, awaitLog.take 9 ++ [.completed 2 MARK_EXCEPTION 66, .finished 2 2], h, by rw [h1]; rfl, by decide⟩

/-- Until then it neither sends, nor awaits, nor finishes or completes a message. Missing: see `C18_no_crash_partial`. -/
theorem C20_blocked_partial (h : Reach NoOverlap s) {L1 L2 : List Event} {e : Event} (he : s.log = L1 ++ e :: L2) :
    (∀ a, e.actor = some a → pend L1 a = none) ∧
    ∀ m k v, e = .completed m k v → ∀ a c x, pend L1 a ≠ some (m, c, x) := by
  obtain ⟨ml, al, -, -, hA⟩ := reach_all (fun _ _ h => h) h
  refine ⟨fun a ha => hA.aw.h.act L1 L2 e a he ha, ?_⟩
  rintro m k v rfl
  exact hA.aw.h.cmp L1 L2 m k v he

/-- Actor 2 finishes a message while actor 1 is blocked. -/
example : ∃ s L1 L2, Reach NoOverlap s ∧ s.log = L1 ++ .finished 2 1 :: L2 ∧ pend L1 1 = some (0, 6, 2) := by
  obtain ⟨s, h, h1⟩ := ex_log exAwait4 awaitLog (by decide +kernel) (by decide +kernel)
  exact ⟨s, awaitLog.take 7, awaitLog.drop 8, h, by rw [h1]; rfl, by decide⟩

/-- A message is completed at most once. Missing: see `C18_no_crash_partial`. -/
theorem C20_completed_once_partial (h : Reach NoOverlap s) : (completions s.log).Nodup := by
  obtain ⟨ml, al, -, -, hA⟩ := reach_all (fun _ _ h => h) h
  exact hA.aw.c.nodup

/-- Three messages completed. -/
example : ∃ s, Reach NoOverlap s ∧ completions s.log = [1, 2, 0] := by
  obtain ⟨s, h, h1⟩ := ex_log exAwait4 awaitLog (by decide +kernel) (by decide +kernel)
  exact ⟨s, h, by rw [h1]; decide⟩

/-- An actor whose await is pending although the message is completed does not stay blocked: there is
work to do. Missing: see `C18_no_crash_partial`. -/
theorem C20_not_stuck_partial (h : Reach NoOverlap s) {a m c x k v : Nat} (hp : pend s.log a = some (m, c, x))
    (hx : Event.completed x k v ∈ s.log) : ¬ Quiet s := by
  intro hq
  obtain ⟨ml, al, hc, hv, hA⟩ := reach_all (fun _ _ h => h) h
  obtain ⟨-, h2, -, h3⟩ := hA.aw.c.comp x k v hx
  have hf : (view s ml al).frozen x := by simp only [V.frozen, h2]; exact h3
  obtain ⟨h4, -, -, -, h5⟩ := hA.aw.p.pend a m c x hp
  have hloc : ∀ l, a ∈ al l → ∃ y, l = .waiting y := by
    intro l hl
    cases l with
    | ready i =>
      have := (hc.A.chain (.ready i) trivial).head
      simp only [headA, hq.2 i] at this
      have := List.head?_eq_none_iff.1 this.symm
      rw [this] at hl; cases hl
    | waiting x => exact ⟨x, rfl⟩
    | wake w =>
      have := hv.wake w
      simp only [view, hq.1 w, wakePtr] at this
      rw [List.head?_eq_none_iff.1 this] at hl; cases hl
    | own w => rw [hc.own, hq.1 w] at hl; cases hl
    | rdy w => rw [hc.rdy, hq.1 w] at hl; cases hl
  obtain ⟨l, hl⟩ := (hc.live a).2 (by intro e; simp only [view] at h4; rw [e] at h4; cases h4)
  obtain ⟨y, rfl⟩ := hloc l hl
  have hwy := hv.wait a y hl
  rcases h5 with ⟨w, h5, -⟩ | ⟨h5, -⟩ | ⟨h5, -⟩
  · simp only [view, hq.1 w, awOf] at h5; cases h5
  · rw [h5] at hwy
    cases hwy
    have := hc.frzW x hf
    rw [this] at hl; cases hl
  · rw [h5] at hwy; cases hwy

/-- Message 2 is completed and actor 1 not yet resumed. -/
example : ∃ s, Reach NoOverlap s ∧ pend s.log 1 = some (0, 6, 2) ∧ Event.completed 2 MARK_RESULT 78 ∈ s.log := by
  obtain ⟨s, h, h1⟩ := ex_log exAwait3 (awaitLog.take 10) (by decide +kernel) (by decide +kernel)
  exact ⟨s, h, by rw [h1]; decide, by rw [h1]; decide⟩

/-! ## C21 -/

/-- The record of the execution `exTimer`. -/
def timerLog : List Event :=
  [.ext 1 0, .ran 1 0 10 0, .delayed 1 1 150, .delayed 1 2 120, .delayed 1 3 120, .sent 1 1 4, .queued 1 150, .queued 2 120,
   .queued 3 120, .completed 0 MARK_RESULT 5, .finished 1 0, .ran 1 4 14 0, .completed 4 MARK_RESULT 5, .finished 1 4,
   .notFired 110, .fired 2 130, .delivered 2, .fired 3 130, .delivered 3, .notFired 140, .ran 1 2 12 0,
   .completed 2 MARK_RESULT 5, .finished 1 2, .ran 1 3 13 0, .completed 3 MARK_RESULT 5, .finished 1 3]

/-- The timer handling takes a message only when it is due; no other message in the timer queue is due earlier, and of
those due at the same time it takes the one that came first. Missing: see `C18_no_crash_partial`. -/
theorem C21_due_order_partial (h : Reach NoOverlap s) {L1 L2 : List Event} {m : Nat} {now : Int}
    (he : s.log = L1 ++ .fired m now :: L2) :
    ∃ a d, Event.delayed a m d ∈ L1 ∧ d ≤ now ∧ (dueAt L1 d).head? = some m ∧ ∀ d', d' < d → dueAt L1 d' = [] := by
  obtain ⟨ml, al, -, -, hA⟩ := reach_all (fun _ _ h => h) h
  obtain ⟨d, h1, h2, h3⟩ := hA.tim.h.f L1 L2 m now he
  have h4 := List.mem_of_head? h2
  simp only [dueAt, List.mem_filter] at h4
  have h5 := (mem_queuedAt ..).1 h4.1
  obtain ⟨A, B, h6⟩ := List.append_of_mem h5
  obtain ⟨a, h7⟩ := hA.tim.h.q A (B ++ .fired m now :: L2) m d (by simp only [view]; rw [he, h6]; simp)
  exact ⟨a, d, by rw [h6]; simp [h7], h1, h2, h3⟩

/-- The second of two messages due at 120 is taken at 130; the one due at 150 was sent first. -/
example : ∃ s L1 L2, Reach NoOverlap s ∧ s.log = L1 ++ .fired 3 130 :: L2 ∧ queuedList L1 = [1, 2, 3] ∧ firedList L1 = [2] := by
  obtain ⟨s, h, h1⟩ := ex_log exTimer timerLog (by decide +kernel) (by decide +kernel)
  exact ⟨s, timerLog.take 17, timerLog.drop 18, h, by rw [h1]; rfl, by decide, by decide⟩

/-- Each delayed message is taken at most once, and put in the queue of its receiver in the order taken. Missing: see
`C18_no_crash_partial`. -/
theorem C21_once_partial (h : Reach NoOverlap s) : (firedList s.log).Nodup ∧ deliveredList s.log <+: firedList s.log := by
  obtain ⟨ml, al, -, -, hA⟩ := reach_all (fun _ _ h => h) h
  exact ⟨hA.tim.fn, ⟨_, hA.tim.del.symm⟩⟩

/-- Two delayed messages taken and delivered. -/
example : ∃ s, Reach NoOverlap s ∧ firedList s.log = [2, 3] ∧ deliveredList s.log = [2, 3] := by
  obtain ⟨s, h, h1⟩ := ex_log exTimer timerLog (by decide +kernel) (by decide +kernel)
  exact ⟨s, h, by rw [h1]; decide, by rw [h1]; decide⟩

/-- The delayed messages of one sender come to the timer queue in the order of sending. Missing: see
`C18_no_crash_partial`. -/
theorem C21_sender_order_partial (h : Reach NoOverlap s) (a : Nat) :
    (queuedList s.log).filter (· ∈ delays s.log a) <+: delays s.log a := by
  obtain ⟨ml, al, -, -, hA⟩ := reach_all (fun _ _ h => h) h
  obtain ⟨pd, -, hl, -⟩ := hA.ord
  have := hl.del a
  rw [List.filter_append] at this
  exact ⟨_, this.symm⟩

/-- Three delayed messages of one sender. -/
example : ∃ s, Reach NoOverlap s ∧ delays s.log 1 = [1, 2, 3] ∧ queuedList s.log = [1, 2, 3] := by
  obtain ⟨s, h, h1⟩ := ex_log exTimer timerLog (by decide +kernel) (by decide +kernel)
  exact ⟨s, h, by rw [h1]; decide, by rw [h1]; decide⟩

/-- When the timer handling finds nothing to do at time `now`, no message in the timer queue is due. Missing: see
`C18_no_crash_partial`. -/
theorem C21_all_due_partial (h : Reach NoOverlap s) {L1 L2 : List Event} {now : Int} (he : s.log = L1 ++ .notFired now :: L2) :
    ∀ d, d ≤ now → dueAt L1 d = [] := by
  obtain ⟨ml, al, -, -, hA⟩ := reach_all (fun _ _ h => h) h
  exact hA.tim.h.n L1 L2 now he

/-- Nothing is due at 140, when a message due at 150 is in the timer queue. -/
example : ∃ s L1 L2, Reach NoOverlap s ∧ s.log = L1 ++ .notFired 140 :: L2 ∧ dueAt L1 150 = [1] := by
  obtain ⟨s, h, h1⟩ := ex_log exTimer timerLog (by decide +kernel) (by decide +kernel)
  exact ⟨s, timerLog.take 19, timerLog.drop 20, h, by rw [h1]; rfl, by decide⟩

/-- When nothing is left to do, each delayed message is in the queue of its receiver or beyond, or still in the timer
queue. Missing: see `C18_no_crash_partial`. -/
theorem C21_not_lost_partial (h : Reach NoOverlap s) (hq : Quiet s) {a m : Nat} {d : Int} (hm : Event.delayed a m d ∈ s.log) :
    Event.delivered m ∈ s.log ∨ m ∈ dueAt s.log d := by
  obtain ⟨ml, al, hc, hv, hA⟩ := reach_all (fun _ _ h => h) h
  obtain ⟨pd, hp, hl, -⟩ := hA.ord
  have hlive : ∀ b, ml (.mq b) ≠ [] → ∃ x, b ∈ al (.waiting x) := by
    intro b hb
    obtain ⟨l, hl⟩ := (hc.live b).2 hb
    cases l with
    | ready i =>
      have := (hc.A.chain (.ready i) trivial).head
      simp only [headA, hq.2 i] at this
      have := List.head?_eq_none_iff.1 this.symm
      rw [this] at hl; cases hl
    | waiting x => exact ⟨x, hl⟩
    | wake w =>
      have := hv.wake w
      simp only [view, hq.1 w, wakePtr] at this
      rw [List.head?_eq_none_iff.1 this] at hl; cases hl
    | own w => rw [hc.own, hq.1 w] at hl; cases hl
    | rdy w => rw [hc.rdy, hq.1 w] at hl; cases hl
  rcases hA.tim.dl a m d hm with ⟨b, h1⟩ | ⟨w, h1⟩ | h1
  · exfalso
    have hpd : m ∈ pd b := by
      rw [hp.free b (fun w => by simp only [view, hq.1 w, flOf, revOf]; simp)]
      simpa using h1
    obtain ⟨y, h2, -⟩ := hl.kind b m hpd
    obtain ⟨x, hx⟩ := hlive b (by intro e; simp only [view] at h2; rw [e] at h2; cases h2)
    rcases hp.stuck b (List.ne_nil_of_mem hpd) with ⟨w, h3⟩ | h3
    · simp only [view, hq.1 w, poster] at h3; cases h3
    · have := hv.wait b x hx
      rw [h3] at this; cases this
  · exfalso
    have := hv.fl w
    simp only [view, hq.1 w, flPtr] at this
    simp only [view] at h1
    rw [List.head?_eq_none_iff.1 this] at h1; cases h1
  · by_cases hf : m ∈ firedList s.log
    · left
      have hdel := hA.tim.del
      have hheld : ml (.held 0) = [] := by
        have := hv.held 0
        simp only [view, hq.1 0, heldPtr] at this
        exact List.head?_eq_none_iff.1 this
      simp only [view, hheld, List.append_nil] at hdel
      rw [hdel] at hf
      simp only [deliveredList, List.mem_filterMap] at hf
      obtain ⟨e, he, h2⟩ := hf
      split at h2
      · cases h2; exact he
      · cases h2
    · right
      simp only [dueAt, List.mem_filter]
      refine ⟨?_, by simpa using hf⟩
      obtain ⟨d', h2⟩ := (mem_queuedList ..).1 h1
      rw [mem_queuedAt]
      obtain ⟨A, B, h6⟩ := List.append_of_mem h2
      obtain ⟨a', h7⟩ := hA.tim.h.q A B m d' h6
      have h8 : Event.delayed a' m d' ∈ s.log := by
        have h9 : s.log = A ++ Event.queued m d' :: B := h6
        rw [h9]; simp [h7]
      have := hl.uniq _ _ m hm h8 rfl rfl
      cases this
      exact h2

/-- All workers at rest after `exTimer`: messages 2 and 3 delivered, message 1 in the timer queue. -/
example : ∃ s, Reach NoOverlap s ∧ Quiet s ∧ Event.delayed 1 1 150 ∈ s.log ∧ Event.delayed 1 2 120 ∈ s.log ∧
    dueAt s.log 150 = [1] ∧ Event.delivered 2 ∈ s.log := by
  obtain ⟨s, h, hq, h1⟩ := ex_quiet exTimer (fun s => s.log = timerLog) (by decide +kernel) (by decide +kernel)
    (by decide +kernel)
  have h1 : s.log = timerLog := by simpa using h1
  refine ⟨s, h, hq, ?_⟩
  rw [h1]
  decide

/-! ## What goes wrong otherwise

`ADD_waiting` (rts.c:1815) precedes `FLUSH_outgoing_local` (l. 1816): from then on another worker may complete the
awaited message, make the actor ready and run it, while the first one still posts its messages. -/

/-- Two workers at work on actor 1: worker 1 posts its messages, worker 2 runs it. -/
theorem C18_refuted_two_workers : ∃ s, Reach (fun _ _ => True) s ∧ s.wk 1 = .loop 1 2 3 .added ∧ s.wk 2 = .run 1 2 := by
  obtain ⟨s, h, h1⟩ := ex_run (exRace ++ [.go 2]) (fun s => s.wk 1 = .loop 1 2 3 .added ∧ s.wk 2 = .run 1 2) (by decide +kernel)
  exact ⟨s, h, by simpa using h1⟩

/-- Worker 1 follows a null pointer (`self->B_Msg->baseline`, rts.c:1116). -/
theorem C18_refuted_crash : ∃ s l, Reach (fun _ _ => True) s ∧ step s l = some .ub := by
  obtain ⟨s, h, h1⟩ := ex_run exRaceUb (fun s => s.wk 1 = .loop 1 2 3 .added ∧ (s.actors 1).msg = none) (by decide +kernel)
  have h1 : s.wk 1 = .loop 1 2 3 .added ∧ (s.actors 1).msg = none := by simpa using h1
  refine ⟨s, .go 1, h, ?_⟩
  simp only [step, h1.1, go, flushOne, State.setNext, State.setMsg, h1.2]

/-- Actor 1 sends messages 3 and 4 to actor 2, which executes message 4 first. -/
theorem C19_refuted_order : ∃ s L1 L2 c v, Reach (fun _ _ => True) s ∧ s.log = L1 ++ .ran 2 4 c v :: L2 ∧
    sends L1 1 2 = [3, 4] ∧ finishedBy L1 2 = [] := by
  obtain ⟨s, h, h1⟩ := ex_run exRaceOrd (fun s => s.log =
    [.ext 1 0, .ran 1 0 10 0, .sent 1 3 1, .completed 0 0 5, .finished 1 0, .ext 1 2, .ran 1 2 10 0, .sent 1 2 3,
     .awaits 1 2 6 1, .ran 3 1 11 0, .completed 1 0 9, .finished 3 1, .ran 1 2 6 9, .sent 1 2 4, .ran 2 4 13 0]) (by decide +kernel)
  have h1 := of_decide_eq_true h1
  exact ⟨s, [.ext 1 0, .ran 1 0 10 0, .sent 1 3 1, .completed 0 0 5, .finished 1 0, .ext 1 2, .ran 1 2 10 0, .sent 1 2 3,
     .awaits 1 2 6 1, .ran 3 1 11 0, .completed 1 0 9, .finished 3 1, .ran 1 2 6 9, .sent 1 2 4], [], 13, 0, h, h1, by decide, by decide⟩

/-- Of two messages due at the same time the timer handling takes the one sent last, if another actor sent the first one
(also in executions with `Sync`): ties are in order of arrival in the timer queue. -/
theorem C21_refuted_ties : ∃ s L1 L2 L3, Reach NoOverlap s ∧
    s.log = L1 ++ .delayed 1 2 120 :: .delayed 2 3 120 :: L2 ++ .fired 3 130 :: L3 ∧ firedList (L1 ++ L2) = [] := by
  obtain ⟨s, h, h1⟩ := ex_log exTies
    [.ext 1 0, .ext 2 1, .ran 1 0 10 0, .ran 2 1 10 0, .delayed 1 2 120, .delayed 2 3 120, .queued 3 120, .queued 2 120,
     .fired 3 130] (by decide +kernel) (by decide +kernel)
  exact ⟨s, [.ext 1 0, .ext 2 1, .ran 1 0 10 0, .ran 2 1 10 0], [.queued 3 120, .queued 2 120], [], h, h1, by decide⟩

end Verif.Rts
