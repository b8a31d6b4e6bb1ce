import Verif.Proc.Signal
import Mathlib.Tactic.NormNum
/-!
# C166: signals go to the process of the actor, and to no other
-/
namespace Verif.Proc.Signal

/-- The invariant. -/
structure Inv (s : S) : Prop where
  lt : ∀ e ∈ s.table, e.inc < s.next
  pids : ∀ a ∈ s.table, ∀ b ∈ s.table, a.pid = b.pid → a = b
  incs : ∀ a ∈ s.table, ∀ b ∈ s.table, a.inc = b.inc → a = b
  mine : ∀ i, s.ours = some i → i < s.next
  some_ : ∀ pid, s.p = some pid → ∃ i, s.ours = some i ∧ ⟨pid, i⟩ ∈ s.table
  none_ : s.p = none → ¬ Running s
  sent : ∀ x ∈ s.sent, s.ours = some x.1

theorem inv_s0 : Inv s0 where
  lt := by simp [s0]
  pids := by simp [s0]
  incs := by simp [s0]
  mine := by simp [s0]
  some_ := by simp [s0]
  none_ := by simp [s0, Running]
  sent := by simp [s0]

theorem find_eq {s : S} (h : Inv s) {pid i : Nat} (hm : ⟨pid, i⟩ ∈ s.table) :
    s.table.find? (fun e => e.pid = pid) = some ⟨pid, i⟩ := by
  cases hf : s.table.find? (fun e => e.pid = pid) with
  | none => have := List.find?_eq_none.1 hf _ hm; simp at this
  | some e =>
    have h1 := List.mem_of_find?_eq_some hf
    have h2 := List.find?_some hf
    rw [h.pids e h1 _ hm (by simpa using h2)]

/-- What `signal` does in a reachable state. -/
theorem signal_eq {s : S} (h : Inv s) (n : Int) : (s.p = none ∧ signal s n = s) ∨
    ∃ pid i, s.p = some pid ∧ s.ours = some i ∧ signal s n = if 1 ≤ toInt n ∧ toInt n ≤ 64 then { s with sent := s.sent ++ [(i, toInt n)] } else s := by
  cases hp : s.p with
  | none => left; exact ⟨rfl, by simp [signal, hp]⟩
  | some pid =>
    right
    obtain ⟨i, ho, hm⟩ := h.some_ pid hp
    refine ⟨pid, i, rfl, ho, ?_⟩
    simp only [signal, hp, killSys, find_eq h hm]

theorem inv_signal {s : S} (h : Inv s) (n : Int) : Inv (signal s n) := by
  rcases signal_eq h n with ⟨-, he⟩ | ⟨pid, i, hp, ho, he⟩
  · rw [he]; exact h
  · rw [he]
    split
    · refine ⟨h.lt, h.pids, h.incs, h.mine, h.some_, h.none_, ?_⟩
      intro x hx
      rcases List.mem_append.1 hx with hx | hx
      · exact h.sent x hx
      · rw [List.mem_singleton.1 hx]; exact ho
    · exact h

/-- A free number keeps the numbers distinct. -/
theorem inv_add {s : S} (h : Inv s) {pid : Nat} (hf : ∀ e ∈ s.table, e.pid ≠ pid) :
    (∀ e ∈ s.table ++ [⟨pid, s.next⟩], e.inc < s.next + 1) ∧
    (∀ a ∈ s.table ++ [⟨pid, s.next⟩], ∀ b ∈ s.table ++ [⟨pid, s.next⟩], a.pid = b.pid → a = b) ∧
    (∀ a ∈ s.table ++ [⟨pid, s.next⟩], ∀ b ∈ s.table ++ [⟨pid, s.next⟩], a.inc = b.inc → a = b) := by
  refine ⟨?_, ?_, ?_⟩
  · intro e he
    rcases List.mem_append.1 he with he | he
    · have := h.lt e he; omega
    · rw [List.mem_singleton.1 he]; exact Nat.lt_succ_self _
  · intro a ha b hb hab
    rcases List.mem_append.1 ha with ha | ha <;> rcases List.mem_append.1 hb with hb | hb
    · exact h.pids a ha b hb hab
    · rw [List.mem_singleton.1 hb] at hab; exact absurd hab (hf a ha)
    · rw [List.mem_singleton.1 ha] at hab; exact absurd hab.symm (hf b hb)
    · rw [List.mem_singleton.1 ha, List.mem_singleton.1 hb]
  · intro a ha b hb hab
    rcases List.mem_append.1 ha with ha | ha <;> rcases List.mem_append.1 hb with hb | hb
    · exact h.incs a ha b hb hab
    · rw [List.mem_singleton.1 hb] at hab; have := h.lt a ha; simp only at hab; omega
    · rw [List.mem_singleton.1 ha] at hab; have := h.lt b hb; simp only at hab; omega
    · rw [List.mem_singleton.1 ha, List.mem_singleton.1 hb]

theorem inv_step {s e s'} (h : Inv s) (hs : step s e = some s') : Inv s' := by
  cases e with
  | spawn pid =>
    simp only [step] at hs
    split at hs
    swap
    · cases hs
    rename_i hc
    have hs := Option.some.inj hs; subst hs
    obtain ⟨h1, h2, h3⟩ := inv_add h hc.2
    refine ⟨h1, h2, h3, ?_, ?_, ?_, ?_⟩
    · intro i hi; cases hi; exact Nat.lt_succ_self _
    · intro q hq; cases hq
      exact ⟨s.next, rfl, by simp⟩
    · intro hq; cases hq
    · intro x hx
      have := h.sent x hx
      rw [hc.1] at this; cases this
  | other pid =>
    simp only [step] at hs
    split at hs
    swap
    · cases hs
    rename_i hc
    have hs := Option.some.inj hs; subst hs
    obtain ⟨h1, h2, h3⟩ := inv_add h hc
    refine ⟨h1, h2, h3, ?_, ?_, ?_, h.sent⟩
    · intro i hi; exact Nat.lt_succ_of_lt (h.mine i hi)
    · intro q hq
      obtain ⟨i, hi, hm⟩ := h.some_ q hq
      exact ⟨i, hi, List.mem_append_left _ hm⟩
    · rintro hq ⟨e, he, ho⟩
      rcases List.mem_append.1 he with he | he
      · exact h.none_ hq ⟨e, he, ho⟩
      · rw [List.mem_singleton.1 he] at ho
        exact absurd (h.mine _ ho) (Nat.lt_irrefl _)
  | otherGone i =>
    simp only [step] at hs
    split at hs
    swap
    · cases hs
    rename_i hc
    have hs := Option.some.inj hs; subst hs
    refine ⟨fun e he => h.lt e (List.mem_filter.1 he).1,
      fun a ha b hb => h.pids a (List.mem_filter.1 ha).1 b (List.mem_filter.1 hb).1,
      fun a ha b hb => h.incs a (List.mem_filter.1 ha).1 b (List.mem_filter.1 hb).1, h.mine, ?_, ?_, h.sent⟩
    · intro q hq
      obtain ⟨j, hj, hm⟩ := h.some_ q hq
      refine ⟨j, hj, List.mem_filter.2 ⟨hm, ?_⟩⟩
      have : j ≠ i := fun hji => hc (hji ▸ hj)
      simpa using this
    · rintro hq ⟨e, he, ho⟩
      exact h.none_ hq ⟨e, (List.mem_filter.1 he).1, ho⟩
  | exit =>
    simp only [step] at hs
    split at hs
    · cases hs
    rename_i i hi
    split at hs
    swap
    · cases hs
    have hs := Option.some.inj hs; subst hs
    refine ⟨fun e he => h.lt e (List.mem_filter.1 he).1,
      fun a ha b hb => h.pids a (List.mem_filter.1 ha).1 b (List.mem_filter.1 hb).1,
      fun a ha b hb => h.incs a (List.mem_filter.1 ha).1 b (List.mem_filter.1 hb).1, h.mine, ?_, ?_, h.sent⟩
    · intro q hq; cases hq
    · rintro - ⟨e, he, ho⟩
      have h2 := (List.mem_filter.1 he).2
      have ho : s.ours = some e.inc := ho
      rw [hi] at ho
      have := Option.some.inj ho
      simp [this] at h2
  | signal n =>
    have hs := Option.some.inj hs; subst hs
    exact inv_signal h n
  | stop =>
    have hs := Option.some.inj hs; subst hs
    have := inv_signal h 15
    exact ⟨this.lt, this.pids, this.incs, this.mine, this.some_, this.none_, this.sent⟩
  | fire =>
    simp only [step] at hs
    split at hs
    · cases hs
    have hs := Option.some.inj hs; subst hs
    exact inv_signal (s := { s with timers := s.timers - 1 }) ⟨h.lt, h.pids, h.incs, h.mine, h.some_, h.none_, h.sent⟩ 9
  | pid =>
    have hs := Option.some.inj hs; subst hs
    exact ⟨h.lt, h.pids, h.incs, h.mine, h.some_, h.none_, h.sent⟩

theorem inv {s} (h : Reach s) : Inv s := by
  induction h with
  | init => exact inv_s0
  | step _ hs ih => exact inv_step ih hs

/-- **C166**, only: every signal went to the process that the actor has started, also if its
number is in use again. -/
theorem C166_only {s} (h : Reach s) : ∀ x ∈ s.sent, s.ours = some x.1 := (inv h).sent

/-- `_p` is the number of the process as long as it runs. -/
theorem p_iff {s} (h : Reach s) (pid : Nat) :
    s.p = some pid ↔ ∃ e ∈ s.table, e.pid = pid ∧ s.ours = some e.inc := by
  constructor
  · intro hp
    obtain ⟨i, ho, hm⟩ := (inv h).some_ pid hp
    exact ⟨_, hm, rfl, ho⟩
  · rintro ⟨e, he, rfl, ho⟩
    cases hp : s.p with
    | none => exact absurd ⟨e, he, ho⟩ ((inv h).none_ hp)
    | some q =>
      obtain ⟨i, ho', hm⟩ := (inv h).some_ q hp
      rw [ho] at ho'
      have hi := Option.some.inj ho'
      have := (inv h).incs e he _ hm hi
      rw [this]

/-- **C166**, `pid`: the answer is the number of the process as long as it runs, and None
otherwise. -/
theorem C166_pid {s s'} (h : Reach s) (hs : step s .pid = some s') : ∃ a, s'.answers = s.answers ++ [a] ∧
    ∀ pid, a = some pid ↔ ∃ e ∈ s.table, e.pid = pid ∧ s.ours = some e.inc := by
  have hs := Option.some.inj hs; subst hs
  exact ⟨s.p, rfl, p_iff h⟩

/-- A call of `pid`. -/
example : ∃ s s', Reach s ∧ step s .pid = some s' ∧ s'.answers = [some 7] :=
  ⟨_, _, .step (e := .spawn 7) .init rfl, rfl, by decide⟩

theorem toInt_small {n : Int} (h1 : 1 ≤ n) (h2 : n ≤ 64) : toInt n = n := by
  unfold toInt; omega

/-- **C166** for the numbers of signals: a call of `signal` delivers exactly that signal, once, to
the process of the actor if it runs, and nothing otherwise. Missing: other numbers, of which some
deliver another signal (`C166_refuted`). -/
theorem C166_partial {s s'} {n : Int} (h : Reach s) (h1 : 1 ≤ n) (h2 : n ≤ 64) (hs : step s (.signal n) = some s') :
    (Running s → ∃ i, s.ours = some i ∧ s'.sent = s.sent ++ [(i, n)]) ∧ (¬ Running s → s'.sent = s.sent) := by
  have hs := Option.some.inj hs; subst hs
  rcases signal_eq (inv h) n with ⟨hp, he⟩ | ⟨pid, i, hp, ho, he⟩
  · exact ⟨fun hr => absurd hr ((inv h).none_ hp), fun _ => by rw [he]⟩
  · refine ⟨fun _ => ⟨i, ho, ?_⟩, fun hr => ?_⟩
    · rw [he, toInt_small h1 h2, if_pos ⟨h1, h2⟩]
    · obtain ⟨i, hi, hm⟩ := (inv h).some_ pid hp
      exact absurd ⟨_, hm, hi⟩ hr

/-- **C166** for `stop`: one second after SIGTERM a process that still runs gets SIGKILL. -/
theorem C166_stop {s s'} (h : Reach s) (hs : step s .fire = some s') (hr : Running s) :
    ∃ i, s.ours = some i ∧ s'.sent = s.sent ++ [(i, 9)] := by
  simp only [step] at hs
  split at hs
  · cases hs
  have hs := Option.some.inj hs; subst hs
  have hi := inv h
  have hi' : Inv { s with timers := s.timers - 1 } := ⟨hi.lt, hi.pids, hi.incs, hi.mine, hi.some_, hi.none_, hi.sent⟩
  rcases signal_eq hi' 9 with ⟨hp, -⟩ | ⟨pid, i, hp, ho, he⟩
  · exact absurd hr (hi.none_ hp)
  · refine ⟨i, ho, ?_⟩
    rw [he, if_pos (by decide)]; rfl

/-- **C166** is false for other numbers: `signal(4294967305)` kills the process. -/
theorem C166_refuted : ∃ s s', Reach s ∧ step s (.signal 4294967305) = some s' ∧ s'.sent = s.sent ++ [(0, 9)] :=
  ⟨_, _, .step (e := .spawn 7) .init rfl, rfl, by decide⟩

/-- The number of the process of the actor is in use again, and a `stop` is still to be finished:
the signal reaches nobody. -/
example : ∃ s s', Reach s ∧ step s .fire = some s' ∧ s.table = [⟨7, 1⟩] ∧ s.ours = some 0 ∧ s'.sent = [(0, 15)] :=
  ⟨_, _, .step (e := .other 7) (.step (e := .exit) (.step (e := .stop) (.step (e := .spawn 7) .init rfl) rfl) rfl) rfl,
    rfl, by decide, by decide, by decide⟩

/-- A process that runs. -/
example : ∃ s, Reach s ∧ Running s :=
  ⟨_, .step (e := .spawn 7) .init rfl, ⟨7, 0⟩, by decide, by decide⟩

end Verif.Proc.Signal
