import Verif.Persist.Finish

/-!
# Persist: C71 (recovery) and C72 (what a commit consumes)
-/
namespace Verif.Persist

variable {S K : Type}

/-- The invariant holds at the start. -/
theorem start_inv (prog : Prog S K) {c : Cfg S K} {x : Sys S K} (hs : Start c) (hx : IsSys c.mem x) :
    Inv prog x none c := by
  obtain ⟨⟨q1, q2, q3, q4, q5, q6⟩, ⟨d1, d2, d3, d4⟩, ⟨s1, s2, s3, s4, s5, s6⟩⟩ := hs
  obtain ⟨x1, x2⟩ := hx
  have hrest : ∀ a, (c.db.queue a).rest = c.mem.inbox a := fun a => (d2 a).2
  have hnj : ∀ w j, c.mem.jobs w ≠ some j := fun w j h => by rw [q1 w] at h; cases h
  have hpend : ∀ a, pend none c a = [] := fun a => rfl
  have hbox : ∀ a, (c.mem.inbox a).map c.mem.msgs =
      (x.box a).map fun k => some ⟨a, k, none, false⟩ := by
    intro a
    have h := x2 a
    have hm : ∀ id ∈ c.mem.inbox a, ∃ k, c.mem.msgs id = some ⟨a, k, none, false⟩ := s2 a
    revert h hm
    generalize c.mem.inbox a = l
    generalize x.box a = ks
    induction l generalizing ks with
    | nil => intro h _; cases ks with
      | nil => rfl
      | cons k ks => cases h
    | cons id l ih =>
      intro h hm
      cases ks with
      | nil => cases h
      | cons k ks =>
        rw [List.map_cons, List.map_cons] at h
        obtain ⟨h1, h2⟩ := List.cons.inj h
        obtain ⟨k', hk'⟩ := hm id (List.mem_cons_self ..)
        rw [List.map_cons, List.map_cons, ih ks h2 (fun i hi => hm i (List.mem_cons_of_mem _ hi)), hk']
        rw [contOf, hk'] at h1
        have : k' = k := by simpa using h1
        rw [this]
  exact
    { fresh := fun id h => (s1 id h).1
      lt := fun a => (s3 a).2
      nodupE := fun a => (s3 a).1
      disjE := s4
      outNodup := fun a => by rw [q2 a]; exact List.nodup_nil
      outDisj := fun a b id h => by rw [q2 a] at h; cases h
      outNew := fun a b id _ h => by rw [q2 a] at h; cases h
      coLe := s6
      waits := q3
      timers := q4
      mover := q5
      tq := d4
      jobUniq := fun w j _ _ h => absurd h (hnj w j)
      jobOk := fun w j h => absurd h (hnj w j)
      ready := fun a => by
        rw [q6 a]
        exact ⟨fun h => ⟨h, fun w j h' => absurd h' (hnj w j)⟩, fun h => h.1⟩
      comm := fun w j h => absurd h (hnj w j)
      commJ := fun b h => by cases h
      rdEq := fun a _ => (d2 a).1
      rdJ := fun w j _ h => absurd h (hnj w j)
      box := fun a => by
        rw [hpend, left, if_neg (fun h => by cases h), List.append_nil, hrest]
      inE := fun a id h => by rw [← hrest] at h; exact List.mem_of_mem_drop h
      nodupI := fun a => by
        rw [hpend, List.append_nil, ← hrest]
        exact (s3 a).1.sublist (List.drop_sublist _ _)
      xst := fun a => by rw [d1 a, x1 a]
      xbox := fun a => by
        rw [hrest, ← hbox a]
        exact List.map_congr_left fun id h => d3 a id h
      alive := fun a h => by
        rw [← x1 a]
        refine s5 a ?_
        rcases h with h | h
        · rw [hrest] at h; exact h
        · exact h
      msgI := s2
      tailEq := fun a id h => (d3 a id (List.mem_of_mem_tail h)).symm
      outEq := fun b h => by cases h
      outMsg := fun a id h => by rw [q2 a] at h; cases h
      empty := fun a _ => ⟨x1 a, q2 a⟩
      committed := fun a h => by cases h
      part := fun a m r hi _ => by
        have hm : m ∈ c.mem.inbox a := by rw [hi]; exact List.mem_cons_self ..
        obtain ⟨k, hk⟩ := s2 a m hm
        obtain ⟨s, hs⟩ := Option.isSome_iff_exists.mp (s5 a (by rw [hi]; exact List.cons_ne_nil _ _))
        refine ⟨s, k, s, k, [], by rw [← x1 a]; exact hs, by rw [d3 a m hm]; exact hk, hs, hk, .refl _ _, ?_⟩
        rw [q2 a]; exact Outs.nil _
      full := fun w j h => absurd h (hnj w j) }

/-- Along an execution the committed part is a run of the system. -/
theorem exe_inv {prog : Prog S K} {c d : Cfg S K} {x : Sys S K} {n : Nat} (I : Inv prog x none c)
    (h : Exe prog c n d) : ∃ y pb, Sys.Steps prog n x y ∧ Inv prog y pb d := by
  induction h with
  | refl => exact ⟨x, none, .refl x, I⟩
  | run _ hp hs ih =>
    obtain ⟨y, pb, h1, h2⟩ := ih
    exact ⟨y, pb, h1, h2.run hp hs⟩
  | read _ hs ih =>
    obtain ⟨y, pb, h1, h2⟩ := ih
    exact ⟨y, pb, h1, h2.read hs⟩
  | commit _ ha hs ih =>
    obtain ⟨y, pb, h1, h2⟩ := ih
    obtain ⟨z, pb', h3, h4⟩ := h2.commit ha hs
    exact ⟨z, pb', h1.tail h3, h4⟩
  | finish _ hs ih =>
    obtain ⟨y, pb, h1, h2⟩ := ih
    exact ⟨y, none, h1, h2.finish hs⟩

/-- What recovery makes of a configuration with the invariant. -/
theorem crash_inv {prog : Prog S K} {x : Sys S K} {pb : Option Nat} {c : Cfg S K} (I : Inv prog x pb c)
    (hn : NotReading c) (now : Nat) :
    IsSys (crashStep c now).mem x ∧ Quiet (crashStep c now).mem := by
  have hrd : ∀ a, (c.db.queue a).rd = (c.db.queue a).co := fun a =>
    I.rdEq a fun w j h hj _ => hn w j h hj
  have hun : ∀ a, (c.db.queue a).unread = (c.db.queue a).rest := by
    intro a; unfold Queue.unread Queue.rest; rw [hrd a]
  have htm : c.db.timer.unread = [] := List.drop_eq_nil_of_le I.tq
  have hbox : ∀ a, rebox c.db a = (c.db.queue a).rest := by
    intro a
    unfold rebox
    rw [I.xst a, hun a]
    cases hs : x.st a with
    | some s => rfl
    | none =>
      by_cases hr : (c.db.queue a).rest = []
      · rw [hr]; rfl
      · have := I.alive a (Or.inl hr)
        rw [hs] at this; cases this
  have hwt : ∀ a, rewait c.db.msgs (c.db.actors a) = none := by
    intro a
    rw [I.xst a]
    cases x.st a with
    | none => rfl
    | some s => rfl
  have hmsgs : (crashStep c now).mem.msgs = c.db.msgs := by
    simp only [crashStep, recoverMem, htm, readTimers]
  refine ⟨⟨fun a => ?_, fun a => ?_⟩, fun w => rfl, fun a => rfl, hwt, ?_, rfl, fun a => ?_⟩
  · show (c.db.actors a).map ARow.st = _
    rw [I.xst a]
    cases x.st a with
    | none => rfl
    | some s => rfl
  · rw [hmsgs]
    show (rebox c.db a).map _ = _
    rw [hbox a]
    have := congrArg (List.map (Option.map Msg.k)) (I.xbox a)
    simp only [List.map_map] at this
    exact this
  · simp only [crashStep, recoverMem, htm, readTimers]
  · show decide (rebox c.db a ≠ [] ∧ rewait c.db.msgs (c.db.actors a) = none) = true ↔ rebox c.db a ≠ []
    rw [decide_eq_true_iff]
    exact ⟨fun h => h.1, fun h => ⟨h, hwt a⟩⟩

/-- **C71** (partial): recovery after one crash.  From a configuration that the database has as a
whole, let any number of workers run plain continuations and commit one at a time, and let the process die
when no worker is between its dummy read and its commit.  Then the system read back is one that the
actors, without database and without crash, reach with as many steps as there were commits: states
and sequences of messages are those after exactly the committed messages.

Missing (see the refutations): executions with awaits, timers, messages from the event loop, new
actors, repeated commits, interleaved commits, a crash between dummy read and commit, and a second
crash. -/
theorem C71_recovery_partial (prog : Prog S K) {c d : Cfg S K} {x : Sys S K} {n : Nat} (now : Nat)
    (hs : Start c) (hx : IsSys c.mem x) (he : Exe prog c n d) (hn : NotReading d) :
    ∃ y, Sys.Steps prog n x y ∧ IsSys (crashStep d now).mem y ∧ Quiet (crashStep d now).mem := by
  obtain ⟨y, pb, h1, h2⟩ := exe_inv (start_inv prog hs hx) he
  exact ⟨y, h1, crash_inv h2 hn now⟩

/-- **C72** (partial): in these executions a commit consumes the entry of the message that was dealt
with, and no other: it is the first entry not yet consumed, and the consume head moves by one. -/
theorem C72_consume_partial (prog : Prog S K) {c d e : Cfg S K} {x : Sys S K} {n w : Nat} {j : Job K}
    (hs : Start c) (hx : IsSys c.mem x) (he : Exe prog c n d) (hj : d.mem.jobs w = some j)
    (ha : Alone d w) (hc : step prog d (.commit w) = some e) :
    (d.db.queue j.a).entries[(d.db.queue j.a).co]? = some j.m ∧
    (e.db.queue j.a).co = (d.db.queue j.a).co + 1 ∧
    ∀ b, b ≠ j.a → (e.db.queue b).co = (d.db.queue b).co := by
  obtain ⟨y, pb, _, I⟩ := exe_inv (start_inv prog hs hx) he
  obtain ⟨j', hd, r, hj', hph, _, _, _, hr, hhd, _, he'⟩ := I.commit_facts ha hc
  have ej : j' = j := by rw [hj] at hj'; exact (Option.some.inj hj').symm
  subst ej
  have hfl := flushDb_spec d.mem.msgs (d.mem.outgoing j'.a) (I.now j'.a) d.db.queue d.db.timer
  have hqd : e.db.queue = upd (flushDb d.mem.msgs (d.mem.outgoing j'.a) (d.db.queue, d.db.timer)).1 j'.a
      (((flushDb d.mem.msgs (d.mem.outgoing j'.a) (d.db.queue, d.db.timer)).1 j'.a).consume hd) := by
    rw [he']; simp only [commitStep, hph, saveDb]
  refine ⟨?_, ?_, fun b hb => ?_⟩
  · have : ((d.db.queue j'.a).entries.drop (d.db.queue j'.a).co)[0]? = some j'.m := by
      have hr' : (d.db.queue j'.a).entries.drop (d.db.queue j'.a).co = j'.m :: r := hr
      rw [hr']; rfl
    rw [List.getElem?_drop] at this
    simpa using this
  · rw [hqd, upd_same]
    exact hhd
  · rw [hqd, upd_ne _ _ hb, hfl.2]

/-! ## What goes wrong in general -/

/-- **C71** is false for a crash between the dummy read and the commit: for every program and
configuration, the first of the messages that recovery would have found is gone after the dummy read,
while nothing of the work on it has been saved. -/
theorem C71_refuted_window (prog : Prog S K) {c e : Cfg S K} {w : Nat} {j : Job K} (now : Nat)
    (hj : c.mem.jobs w = some j) (h : step prog c (.read w) = some e) :
    (crashStep e now).mem.inbox j.a = ((crashStep c now).mem.inbox j.a).tail ∧
    (∀ b, (crashStep e now).mem.st b = (crashStep c now).mem.st b) := by
  simp only [step, tryRead, hj] at h
  split at h
  case h_2 => cases h
  simp only [Option.some.injEq] at h
  subst h
  refine ⟨?_, fun b => rfl⟩
  show rebox _ j.a = (rebox c.db j.a).tail
  simp only [rebox, readStep, upd_same]
  cases c.db.actors j.a with
  | none => rfl
  | some row =>
    simp only [Queue.unread, Queue.read1, List.tail_drop]
    by_cases hl : (c.db.queue j.a).rd + 1 ≤ (c.db.queue j.a).entries.length
    · rw [Nat.min_eq_left hl]
    · rw [Nat.min_eq_right (by omega), List.drop_length, List.drop_eq_nil_of_le (by omega)]

/-- **C71** is false for a second crash: recovery moves the read heads to the ends of the queues, so a
system that has been recovered once and dies again before dealing with its messages has lost all of
them, whatever it was. -/
theorem C71_refuted_second (c : Cfg S K) (now now' : Nat) (a : Nat) :
    (crashStep (crashStep c now) now').mem.inbox a = [] := by
  show rebox (recoverDb c.db) a = []
  unfold rebox
  have hact : (recoverDb c.db).actors = c.db.actors := rfl
  rw [hact]
  cases h : c.db.actors a with
  | none => rfl
  | some row =>
    simp only [recoverDb, h, Queue.unread, Queue.readAll]
    exact List.drop_eq_nil_of_le (by omega)

/-- **C71** is false for awaits: what a commit at an `await` saves is the *new* state of the actor with
the *old* continuation, the one that has just been run (and not `$waitsfor`).  After recovery it
is run again on the state it has already changed. -/
theorem C71_refuted_await (prog : Prog S K) {c e : Cfg S K} {w i : Nat} {j : Job K} {k : K} {s : S}
    {msg : Msg K} (hj : c.mem.jobs w = some j) (hn : j.next = .wait k i)
    (hm : c.mem.msgs j.m = some msg) (hs : c.mem.st j.a = some s) (hw : c.mem.waits j.a = none)
    (h : step prog c (.commit w) = some e) :
    e.db.actors j.a = some ⟨s, none⟩ ∧ e.db.msgs j.m = some msg := by
  simp only [step, tryCommit, hj, hn] at h
  split at h
  · rename_i h'; cases h'
  · rename_i hph _
    simp only [Option.some.injEq] at h
    subst h
    simp only [commitStep, hph, saveDb, hs, hw]
    refine ⟨upd_same .., ?_⟩
    rw [saveMsgs_spec, if_pos (List.mem_append_right _ (List.mem_singleton.mpr rfl))]
    exact hm
  · cases h

/-- **C71** is false for actors that have not finished their first message: they have no row, so after a
crash they and the messages sent to them (and committed by the senders) do not exist. -/
theorem C71_refuted_new_actor (c : Cfg S K) (now a : Nat) (h : c.db.actors a = none) :
    (crashStep c now).mem.st a = none ∧ (crashStep c now).mem.inbox a = [] := by
  refine ⟨?_, ?_⟩
  · show (c.db.actors a).map ARow.st = none
    rw [h]; rfl
  · show rebox c.db a = []
    unfold rebox; rw [h]

end Verif.Persist
