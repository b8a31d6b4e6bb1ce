import Verif.Common
import Mathlib.Tactic.ByContra
/-!
# Model of the arming of the timer (base/rts/rts.c:400-403, 734-771, 1119-1142, 1618-1652) and C56

Any number of workers put timed messages in the timer queue; the main thread (worker 0) alone takes them out, in callbacks
of its event loop. Each section under `timerQ_lock`, each read of the queue without it, each call of `uv_async_send` and
of the functions of libuv is a step; the steps interleave freely. Simplifications:

* A message is its baseline (time in microseconds); the timer queue is the list of them. The linked list is modelled in
  `Verif.Rts`.
* The clock of the event loop and that of `current_time` (rts.c:197-204, which is the real time clock) are one, which never
  goes back. `loop` is the time
  that libuv read at the start of the iteration of the loop, from which it counts (any time up to now).
* libuv: an async handle that was signalled calls its callback, the signal being reset before; a timer calls its callback
  once, not before its time.
-/
namespace Verif.Sched.Timer
open Verif

inductive MPc where
  /-- In the event loop. -/
  | poll
  /-- In `main_timer_cb`, before `DEQ_timed`. -/
  | handle
  /-- In `arm_timer_ev`, before `next_timeout`. -/
  | arm
  /-- In `arm_timer_ev`, `next_time` being `t`. -/
  | set (t : Int)
  deriving DecidableEq

structure TSt where
  now : Int
  /-- `timerQ`. -/
  tq : List Int
  /-- `wake_ev[0]` was signalled. -/
  wake : Bool
  /-- The time of `timer_ev`, if it is started. -/
  timer : Option Int
  /-- `ENQ_timed` returned true in this worker, and `reset_timeout` is to follow. -/
  sending : Nat → Bool
  pc : MPc

/-- `ENQ_timed`, rts.c:734-753: the queue with message `b`. -/
def insert (b : Int) : List Int → List Int
  | [] => [b]
  | x :: xs => if x ≤ b then x :: insert b xs else b :: x :: xs

/-- `ENQ_timed`: its result `new_head`. -/
def newHead (b : Int) : List Int → Bool
  | [] => true
  | x :: _ => !decide (x ≤ b)

/-- `DEQ_timed(now)`, rts.c:758-771: the queue after it. -/
def deq (now : Int) : List Int → List Int
  | [] => []
  | x :: xs => if x ≤ now then xs else x :: xs

/-- `next_timeout`, rts.c:1131-1133. -/
def next : List Int → Int
  | [] => 0
  | x :: _ => x

/-- The start or stop of the timer, rts.c:1631-1651; division truncates. -/
def armed (loop now t : Int) : Option Int :=
  if t ≠ 0 then some (loop + (if (t - now).tdiv 1000 < 0 then 0 else (t - now).tdiv 1000) * 1000) else none

/-- Start: the queue was read from the database (rts.c:1419) or is empty; `wake_ev[0]` was signalled (rts.c:2842). -/
def init (now : Int) (tq : List Int) : TSt := ⟨now, tq, true, none, fun _ => false, .poll⟩

inductive TAct where
  /-- Time passes. -/
  | tick (d : Nat)
  /-- Worker `w` puts message `b` in the queue, rts.c:1123. -/
  | enq (w : Nat) (b : Int)
  /-- `reset_timeout` of worker `w`. -/
  | send (w : Nat)
  /-- Another signal for worker 0: `wake_wt(0)`. -/
  | signal
  /-- The callback of the signal, `main_wake_cb`. -/
  | wakeCb
  /-- The callback of the timer, `main_timer_cb`. -/
  | fire
  /-- `DEQ_timed`. -/
  | deq
  /-- `next_timeout`. -/
  | read
  /-- The start or stop of the timer; `loop` is the time of the event loop. -/
  | arm (loop : Int)

def sset (f : Nat → Bool) (w : Nat) (v : Bool) : Nat → Bool := fun u => if u = w then v else f u

def tstep (x : TAct) (s : TSt) : Option TSt :=
  match x, s.pc with
  | .tick d, _ => some { s with now := s.now + d }
  | .enq w b, _ =>
    if s.sending w then none
    else some { s with tq := insert b s.tq, sending := sset s.sending w (newHead b s.tq) }
  | .send w, _ => if s.sending w then some { s with sending := sset s.sending w false, wake := true } else none
  | .signal, _ => some { s with wake := true }
  | .wakeCb, .poll => if s.wake then some { s with wake := false, pc := .arm } else none
  | .fire, .poll =>
    match s.timer with
    | some d => if d ≤ s.now then some { s with timer := none, pc := .handle } else none
    | none => none
  | .deq, .handle => some { s with tq := deq s.now s.tq, pc := .arm }
  | .read, .arm => some { s with pc := .set (next s.tq) }
  | .arm loop, .set t => if loop ≤ s.now then some { s with timer := armed loop s.now t, pc := .poll } else none
  | _, _ => none

def trun : List TAct → TSt → Option TSt
  | [], s => some s
  | x :: xs, s => (tstep x s).bind (trun xs)

def TReach (s : TSt) : Prop := ∃ now tq xs, trun xs (init now tq) = some s

/-- A signal for the main thread is there or about to be sent. -/
def Coming (s : TSt) : Prop := s.wake = true ∨ ∃ w, s.sending w = true

/-- To a message at the head of the queue somebody comes. -/
def TInv (s : TSt) : Prop := ∀ b, s.tq.head? = some b → b ≠ 0 →
  Coming s ∨ s.pc = .handle ∨ s.pc = .arm ∨ s.pc = .set b ∨ (∃ d, s.pc = .poll ∧ s.timer = some d ∧ d ≤ max b s.now)

theorem insert_head {b : Int} {l : List Int} (h : newHead b l = false) : (insert b l).head? = l.head? := by
  cases l with
  | nil => cases h
  | cons x xs =>
    have : x ≤ b := by simpa [newHead] using h
    simp [insert, this]

theorem armed_le {loop now t : Int} (hl : loop ≤ now) (ht : t ≠ 0) : ∃ d, armed loop now t = some d ∧ d ≤ max t now := by
  unfold armed
  rw [if_pos ht]
  refine ⟨_, rfl, ?_⟩
  by_cases h : (t - now).tdiv 1000 < 0
  · rw [if_pos h]; omega
  · rw [if_neg h]
    by_cases h0 : 0 ≤ t - now
    · rw [Int.tdiv_eq_ediv_of_nonneg h0]; omega
    · have h1 : (t - now).tdiv 1000 = -((now - t) / 1000) := by
        rw [show t - now = -(now - t) by omega, Int.neg_tdiv, Int.tdiv_eq_ediv_of_nonneg (by omega)]
      rw [h1] at h ⊢
      omega

theorem tstep_inv {x : TAct} {s s' : TSt} (h : TInv s) (e : tstep x s = some s') : TInv s' := by
  unfold tstep at e
  split at e
  · injection e with e; subst e
    intro b hb h0
    rcases h b hb h0 with h1 | h1 | h1 | h1 | ⟨d, h1, h2, h3⟩
    · exact .inl h1
    · exact .inr (.inl h1)
    · exact .inr (.inr (.inl h1))
    · exact .inr (.inr (.inr (.inl h1)))
    · exact .inr (.inr (.inr (.inr ⟨d, h1, h2, by show d ≤ max b (s.now + _); omega⟩)))
  · rename_i w b
    split at e
    · cases e
    · rename_i hs
      injection e with e; subst e
      intro c hc h0
      have hc : (insert b s.tq).head? = some c := hc
      cases hn : newHead b s.tq with
      | true => exact .inl (.inr ⟨w, by simp [sset]⟩)
      | false =>
        rw [insert_head hn] at hc
        rcases h c hc h0 with (h1 | ⟨v, h1⟩) | h1
        · exact .inl (.inl h1)
        · refine .inl (.inr ⟨v, ?_⟩)
          have : v ≠ w := fun e => by rw [e] at h1; exact hs h1
          simp [sset, this, h1]
        · exact .inr h1
  · split at e
    · injection e with e; subst e
      intro b hb h0; exact .inl (.inl rfl)
    · cases e
  · injection e with e; subst e
    intro b hb h0; exact .inl (.inl rfl)
  · split at e
    · injection e with e; subst e
      intro b hb h0; exact .inr (.inr (.inl rfl))
    · cases e
  · split at e
    · split at e
      · injection e with e; subst e
        intro b hb h0; exact .inr (.inl rfl)
      · cases e
    · cases e
  · injection e with e; subst e
    intro b hb h0; exact .inr (.inr (.inl rfl))
  · injection e with e; subst e
    intro b hb h0
    refine .inr (.inr (.inr (.inl ?_)))
    have hb : s.tq.head? = some b := hb
    show MPc.set (next s.tq) = .set b
    cases hq : s.tq with
    | nil => rw [hq] at hb; cases hb
    | cons x xs => rw [hq] at hb; injection hb with hb; rw [← hb]; rfl
  · rename_i loop t hp
    split at e
    · rename_i hl
      injection e with e; subst e
      intro b hb h0
      rcases h b hb h0 with h1 | h1 | h1 | h1 | ⟨d, h1, h2, h3⟩
      · exact .inl h1
      · rw [hp] at h1; cases h1
      · rw [hp] at h1; cases h1
      · rw [hp] at h1; injection h1 with h1; subst h1
        obtain ⟨d, hd, hle⟩ := armed_le hl h0
        exact .inr (.inr (.inr (.inr ⟨d, rfl, hd, hle⟩)))
      · rw [hp] at h1; cases h1
    · cases e
  · cases e

theorem treach_inv {s : TSt} (h : TReach s) : TInv s := by
  obtain ⟨now, tq, xs, e⟩ := h
  have h0 : TInv (init now tq) := fun b _ _ => .inl (.inl rfl)
  revert e
  generalize init now tq = t at h0
  intro e
  induction xs generalizing t with
  | nil => injection e with e; subst e; exact h0
  | cons x xs ih =>
    simp only [trun, Option.bind_eq_some_iff] at e
    obtain ⟨s1, e1, e2⟩ := e
    exact ih s1 (tstep_inv h0 e1) e2

/-- C56, where it holds: while the main thread is in its event loop and no signal for it is there or about to be sent, the
timer is started for the first message of the queue: for its time, or for a time that is past. Missing: a first message
with baseline 0, see `C56_refuted_zero`. -/
theorem C56_armed_partial {s : TSt} (h : TReach s) {b : Int} {l : List Int} (hq : s.tq = b :: l) (h0 : b ≠ 0)
    (hp : s.pc = .poll) (hw : s.wake = false) (hs : ∀ w, s.sending w = false) :
    ∃ d, s.timer = some d ∧ (d ≤ b ∨ d ≤ s.now) := by
  rcases treach_inv h b (by rw [hq]; rfl) h0 with (h1 | ⟨w, h1⟩) | h1 | h1 | h1 | ⟨d, h1, h2, h3⟩
  · rw [hw] at h1; cases h1
  · rw [hs w] at h1; cases h1
  · rw [hp] at h1; cases h1
  · rw [hp] at h1; cases h1
  · rw [hp] at h1; cases h1
  · exact ⟨d, h2, by omega⟩

/-- C56: in such a state, when the time of the first message is come the callback of the timer is due, and takes it out. -/
theorem C56_delivered_partial {s : TSt} (h : TReach s) {b : Int} {l : List Int} (hq : s.tq = b :: l) (h0 : b ≠ 0)
    (hp : s.pc = .poll) (hw : s.wake = false) (hs : ∀ w, s.sending w = false) (hb : b ≤ s.now) :
    ∃ s', trun [.fire, .deq] s = some s' ∧ s'.tq = l := by
  obtain ⟨d, hd, hle⟩ := C56_armed_partial h hq h0 hp hw hs
  have hdn : d ≤ s.now := by omega
  refine ⟨⟨s.now, l, s.wake, none, s.sending, .arm⟩, ?_, rfl⟩
  simp [trun, tstep, hp, hd, hdn, hq, deq, hb]

/-- C56: a message is never taken out before its time. -/
theorem C56_not_early {s s' : TSt} {x : TAct} (e : tstep x s = some s') {b : Int} (hb : s.now < b) :
    s.tq.count b ≤ s'.tq.count b := by
  have ins : ∀ (c : Int) (l : List Int), l.count b ≤ (insert c l).count b := by
    intro c l
    induction l with
    | nil => simp
    | cons y ys ih =>
      simp only [insert]
      split
      · simp only [List.count_cons]; omega
      · simp only [List.count_cons]; omega
  have dq : s.tq.count b ≤ (deq s.now s.tq).count b := by
    cases hq : s.tq with
    | nil => simp [deq]
    | cons y ys =>
      simp only [deq]
      split
      · rename_i hy
        have : (y == b) = false := by simp; omega
        simp [List.count_cons, this]
      · exact Nat.le_refl _
  unfold tstep at e
  split at e
  all_goals first
    | (injection e with e; subst e; first | exact Nat.le_refl _ | exact dq)
    | (split at e <;> first
        | (injection e with e; subst e; first | exact Nat.le_refl _ | exact ins _ _)
        | (split at e <;> first | (injection e with e; subst e; exact Nat.le_refl _) | cases e)
        | cases e)
    | cases e

/-- C56, refuted: a first message with baseline 0 stops the timer, and keeps all others from being taken out. -/
theorem C56_refuted_zero : ∃ s, TReach s ∧ s.tq = [0, 5] ∧ s.now = 100 ∧ s.pc = .poll ∧ s.wake = false ∧ s.timer = none ∧
    ∀ w, s.sending w = false := by
  refine ⟨⟨100, [0, 5], false, none, fun _ => false, .poll⟩,
    ⟨1, [], [.enq 0 5, .send 0, .enq 0 0, .send 0, .wakeCb, .read, .arm 1, .tick 99], ?_⟩,
    rfl, rfl, rfl, rfl, rfl, fun w => by simp⟩
  simp [trun, tstep, init, insert, newHead, next, armed, sset]
  funext u; simp only [sset]; repeat' split
  all_goals rfl

/-- And it stays so, whatever messages with baselines of at least 0 come, and whatever else happens. -/
theorem C56_refuted_forever (xs : List TAct) (s s' : TSt) (hq : s.tq.head? = some 0) (ht : s.timer = none)
    (hp : s.pc = .poll ∨ s.pc = .arm ∨ s.pc = .set 0)
    (hx : ∀ w b, TAct.enq w b ∈ xs → 0 ≤ b) (e : trun xs s = some s') :
    s'.tq.head? = some 0 ∧ s'.timer = none ∧ s.tq.length ≤ s'.tq.length := by
  induction xs generalizing s with
  | nil => injection e with e; subst e; exact ⟨hq, ht, Nat.le_refl _⟩
  | cons x xs ih =>
    simp only [trun, Option.bind_eq_some_iff] at e
    obtain ⟨s1, e1, e2⟩ := e
    have len : ∀ (c : Int) (l : List Int), l.length ≤ (insert c l).length := by
      intro c l
      induction l with
      | nil => simp
      | cons y ys ih => simp only [insert]; split <;> simp <;> omega
    have key : s1.tq.head? = some 0 ∧ s1.timer = none ∧ (s1.pc = .poll ∨ s1.pc = .arm ∨ s1.pc = .set 0) ∧
        s.tq.length ≤ s1.tq.length := by
      unfold tstep at e1
      split at e1
      · injection e1 with e1; subst e1; exact ⟨hq, ht, hp, Nat.le_refl _⟩
      · rename_i w b
        have hb := hx w b (by simp)
        split at e1
        · cases e1
        · injection e1 with e1; subst e1
          refine ⟨?_, ht, hp, len _ _⟩
          show (insert b s.tq).head? = some 0
          rw [insert_head, hq]
          cases hl : s.tq with
          | nil => rw [hl] at hq; cases hq
          | cons y ys => rw [hl] at hq; injection hq with hq; simp [newHead, hq, hb]
      · split at e1
        · injection e1 with e1; subst e1; exact ⟨hq, ht, hp, Nat.le_refl _⟩
        · cases e1
      · injection e1 with e1; subst e1; exact ⟨hq, ht, hp, Nat.le_refl _⟩
      · split at e1
        · injection e1 with e1; subst e1; exact ⟨hq, ht, .inr (.inl rfl), Nat.le_refl _⟩
        · cases e1
      · rw [ht] at e1; cases e1
      · rename_i h1
        rw [h1] at hp; rcases hp with hp | hp | hp <;> cases hp
      · injection e1 with e1; subst e1
        refine ⟨hq, ht, .inr (.inr ?_), Nat.le_refl _⟩
        show MPc.set (next s.tq) = .set 0
        cases hl : s.tq with
        | nil => rw [hl] at hq; cases hq
        | cons y ys => rw [hl] at hq; injection hq with hq; rw [hq]; rfl
      · rename_i t h1
        split at e1
        · injection e1 with e1; subst e1
          rw [h1] at hp
          have : t = 0 := by
            rcases hp with hp | hp | hp
            · cases hp
            · cases hp
            · injection hp
          subst this
          exact ⟨hq, by simp [armed], .inl rfl, Nat.le_refl _⟩
        · cases e1
      · cases e1
    obtain ⟨k1, k2, k3, k4⟩ := key
    have := ih s1 k1 k2 k3 (fun w b hb => hx w b (List.mem_cons_of_mem _ hb)) e2
    exact ⟨this.1, this.2.1, by omega⟩

/-- Hypotheses of `C56_armed_partial` and `C56_delivered_partial`: two messages, the later one first put in the queue while
the main thread was about to arm the timer for the other. -/
example : ∃ s, TReach s ∧ s.tq = [5000, 9000] ∧ s.pc = .poll ∧ s.wake = false ∧ s.now = 6000 ∧ s.timer = some 4000 ∧
    ∀ w, s.sending w = false := by
  refine ⟨⟨6000, [5000, 9000], false, some 4000, fun _ => false, .poll⟩,
    ⟨1000, [], [.enq 1 9000, .send 1, .wakeCb, .read, .enq 2 5000, .send 2, .arm 1000, .wakeCb, .read, .arm 0, .tick 5000], ?_⟩,
    rfl, rfl, rfl, rfl, rfl, fun _ => rfl⟩
  simp [trun, tstep, init, insert, newHead, next, armed, sset]
  funext u; simp only [sset]; repeat' split
  all_goals rfl

end Verif.Sched.Timer
