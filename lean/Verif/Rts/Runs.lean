import Verif.Rts.Turn
/-!
# Executions of the run-time system

Concrete executions: examples for the theorems in `Props`, and executions that refute the claims for programs that
await a message other than the one sent last.
-/
namespace Verif.Rts
open Verif

instance (s : State) (l : Label) : Decidable (Sync s l) := by
  unfold Sync
  split
  · split <;> infer_instance
  · infer_instance

/-- The state after the steps in the list, if they are possible and none crashes. -/
def run : State → List Label → Option State
  | s, [] => some s
  | s, l :: ls =>
    match step s l with
    | some (.ok s') => run s' ls
    | _ => none

/-- All steps in the list meet `Sync`. -/
def allSync : State → List Label → Bool
  | _, [] => true
  | s, l :: ls =>
    decide (Sync s l) &&
    match step s l with
    | some (.ok s') => allSync s' ls
    | _ => false

theorem run_reach {ls : List Label} : ∀ {s s' : State}, Reach (fun _ _ => True) s → run s ls = some s' → Reach (fun _ _ => True) s' := by
  induction ls with
  | nil => intro s s' h e; simp only [run] at e; cases e; exact h
  | cons l ls ih =>
    intro s s' h e
    simp only [run] at e
    split at e
    · rename_i hs; exact ih (.step h trivial hs) e
    · cases e

theorem sync_run_reach {ls : List Label} : ∀ {s s' : State}, Reach Sync s → allSync s ls = true → run s ls = some s' → Reach Sync s' := by
  induction ls with
  | nil => intro s s' h _ e; simp only [run] at e; cases e; exact h
  | cons l ls ih =>
    intro s s' h ha e
    simp only [run] at e
    simp only [allSync, Bool.and_eq_true, decide_eq_true_eq] at ha
    split at e
    · rename_i hs
      rw [hs] at ha
      exact ih (.step h ha.1 hs) ha.2 e
    · cases e

/-- A property decided at the end of an execution. -/
def endsWith (ls : List Label) (P : State → Bool) : Bool :=
  match run init ls with
  | some s => P s
  | none => false

theorem ex_run (ls : List Label) (P : State → Bool) (h : endsWith ls P = true) : ∃ s, Reach (fun _ _ => True) s ∧ P s = true := by
  unfold endsWith at h
  split at h
  · rename_i s hs; exact ⟨s, run_reach .init hs, h⟩
  · cases h

theorem ex_sync (ls : List Label) (P : State → Bool) (h1 : allSync init ls = true) (h : endsWith ls P = true) :
    ∃ s, Reach Sync s ∧ P s = true := by
  unfold endsWith at h
  split at h
  · rename_i s hs; exact ⟨s, sync_run_reach .init h1 hs, h⟩
  · cases h


theorem ex_ok (ls : List Label) (P : State → Bool) (h1 : allSync init ls = true) (h : endsWith ls P = true) :
    ∃ s, Reach NoOverlap s ∧ P s = true := by
  obtain ⟨s, h2, h3⟩ := ex_sync ls P h1 h
  exact ⟨s, sync_reach h2, h3⟩

/-- The record of an execution under `Sync`. -/
theorem ex_log (ls : List Label) (L : List Event) (h1 : allSync init ls = true) (h : endsWith ls (fun s => s.log = L) = true) :
    ∃ s, Reach NoOverlap s ∧ s.log = L := by
  obtain ⟨s, h2, h3⟩ := ex_ok ls _ h1 h
  exact ⟨s, h2, by simpa using h3⟩

/-- What the executions below have in common: four workers, one ready queue. -/
structure Small (s : State) : Prop where
  wk : ∀ w, 4 ≤ w → s.wk w = .idle
  rq : ∀ i, i ≠ sharedRq → s.rqs i = ⟨none, none⟩
  aff : ∀ a, (s.actors a).affinity = sharedRq

namespace Small
variable {s : State}

theorem init : Small init := ⟨fun _ _ => rfl, fun _ _ => rfl, fun _ => rfl⟩
theorem setMsg (h : Small s) {m : Nat} {x : Msg} : Small (s.setMsg m x) := ⟨h.wk, h.rq, h.aff⟩
theorem setNext (h : Small s) {m : Nat} {p : Option Nat} : Small (s.setNext m p) := h.setMsg
theorem setActor (h : Small s) {a : Nat} {x : Actor} (hx : x.affinity = sharedRq) : Small (s.setActor a x) := by
  refine ⟨h.wk, h.rq, fun b => ?_⟩
  simp only [State.setActor, upd]
  split
  · exact hx
  · exact h.aff b
theorem setWk (h : Small s) {w : Nat} {p : Phase} (hw : w < 4) : Small (s.setWk w p) := by
  refine ⟨fun w' hw' => ?_, h.rq, h.aff⟩
  simp only [State.setWk, upd]
  rw [if_neg (by omega)]
  exact h.wk w' hw'
theorem setRq (h : Small s) {q : Rq} : Small (s.setRq sharedRq q) := by
  refine ⟨h.wk, fun i hi => ?_, h.aff⟩
  simp only [State.setRq, upd]
  rw [if_neg hi]
  exact h.rq i hi
theorem emit (h : Small s) {e : Event} : Small (s.emit e) := ⟨h.wk, h.rq, h.aff⟩
theorem timer (h : Small s) {p : Option Nat} : Small { s with timerQ := p } := ⟨h.wk, h.rq, h.aff⟩
theorem msgs (h : Small s) {f : Nat → Msg} : Small { s with msgs := f } := ⟨h.wk, h.rq, h.aff⟩

theorem newMsg (h : Small s) {r c v : Nat} {b : Int} : Small (newMsg s r c b v) := ⟨h.wk, h.rq, h.aff⟩

theorem enqMsg (h : Small s) {m a : Nat} : Small (enqMsg s m a).1 := by
  simp only [Rts.enqMsg]
  split
  · exact (h.setNext.setNext).setActor (by exact h.aff a)
  · exact h.setNext.setActor (by exact h.aff a)

theorem deqMsg (h : Small s) {a : Nat} : Small (deqMsg s a).1 := by
  simp only [Rts.deqMsg]
  split
  · exact h.setNext.setActor (by exact h.aff a)
  · exact h.setActor (by exact h.aff a)

theorem enqReady (h : Small s) {a : Nat} {s' : State} (e : enqReady s a = .ok s') : Small s' := by
  simp only [Rts.enqReady] at e
  rw [h.aff a] at e
  split at e
  · cases e
  · split at e
    · rename_i t _
      cases e
      exact ((h.setActor (a := t) (x := { s.actors t with next := some a }) (h.aff t)).setRq).setActor (by
        exact (h.setActor (a := t) (x := { s.actors t with next := some a }) (h.aff t)).aff a)
    · cases e
      exact h.setRq.setActor (by exact h.aff a)

theorem deqReady (h : Small s) {i : Nat} {r : State × Option Nat} (e : deqReady s i = .ok r) : Small r.1 := by
  simp only [Rts.deqReady] at e
  by_cases hi : i = sharedRq
  · subst hi
    split at e
    · cases e; exact h
    · rename_i r _
      rw [ite_eq_iff] at e
      rcases e with ⟨-, e⟩ | ⟨-, e⟩
      · cases e
      · cases e
        exact h.setRq.setActor (by exact h.aff r)
  · rw [h.rq i hi] at e
    cases e; exact h

theorem addWaiting (h : Small s) {a m : Nat} : Small (addWaiting s a m).1 := by
  simp only [Rts.addWaiting]
  split
  · exact h
  · exact (h.setActor (by exact h.aff a)).setMsg

theorem enqTimed (h : Small s) {m : Nat} {s' : State} (e : enqTimed s m = .ok s') : Small s' := by
  simp only [Rts.enqTimed] at e
  split at e
  · cases e; exact h.setNext.timer
  · split at e
    · cases hr : timedLoop s.msgs (s.msgs m).baseline (s.nmsg + 1) ‹Nat› with
      | ok y => rw [hr, Res.ok_bind] at e; cases e; exact h.setNext.setNext
      | _ => rw [hr] at e; cases e
    · cases e; exact h.setNext.timer

theorem deqTimed (h : Small s) {now : Int} : Small (deqTimed s now).1 := by
  simp only [Rts.deqTimed]
  split
  · exact h
  · split
    · exact h.setNext.timer
    · exact h

theorem reverseOutgoing (h : Small s) {a : Nat} {s' : State} (e : reverseOutgoing s a = .ok s') : Small s' := by
  simp only [Rts.reverseOutgoing] at e
  cases hr : reverseLoop s.nmsg s.msgs (s.actors a).outgoing none with
  | ok y => rw [hr, Res.ok_bind] at e; cases e; exact h.msgs.setActor (by exact h.aff a)
  | _ => rw [hr] at e; cases e

theorem afterFlush (h : Small s) {w a m : Nat} {k : After} (hw : w < 4) : Small (afterFlush s w a m k) := by
  cases k <;> exact h.setWk hw

theorem contFlush (h : Small s) {w a m : Nat} {p : Option Nat} {k : After} (hw : w < 4) : Small (contFlush s w a m p k) := by
  cases p
  · exact h.afterFlush hw
  · exact h.setWk hw

theorem thenReady (h : Small s) {w b : Nat} {r : Bool} (hw : w < 4) : Small (thenReady s w b r) := by
  simp only [Rts.thenReady]
  split
  · exact h.setWk hw
  · exact h

theorem flushOne (h : Small s) {w a m x : Nat} {k : After} (hw : w < 4) {s' : State} (e : flushOne s w a m x k = .ok s') : Small s' := by
  simp only [Rts.flushOne] at e
  split at e
  · cases e
  · split at e
    · cases e; exact (h.setNext.enqMsg.contFlush hw).thenReady hw
    · cases hr : Rts.enqTimed (s.setNext x none) x with
      | ok y => rw [hr, Res.ok_bind] at e; cases e; exact (h.setNext.enqTimed hr).emit.contFlush hw
      | _ => rw [hr] at e; cases e

theorem contWake (h : Small s) {w a m k v : Nat} {b : Option Nat} (hw : w < 4) : Small (contWake s w a m k v b) := by
  cases b <;> exact h.setWk hw

theorem wakeOne (h : Small s) {w a m k v b : Nat} (hw : w < 4) {s' : State} (e : wakeOne s w a m k v b = .ok s') : Small s' := by
  simp only [Rts.wakeOne] at e
  split at e
  · cases e
  · cases e; exact ((h.setMsg.setActor (by exact h.aff b)).contWake hw).setWk hw

theorem go (h : Small s) {w : Nat} (hw : w < 4) {p : Phase} {s' : State} (e : go s w p = some (.ok s')) : Small s' := by
  cases p with
  | idle => cases e
  | run a m => cases e
  | got a =>
    simp only [Rts.go] at e
    split at e
    · cases e
    · split at e
      · cases e
      · cases e; exact h.emit.setWk hw
  | addWait a m x => cases e; exact h.addWaiting.setWk hw
  | flush a m k => cases e; exact (h.setActor (by exact h.aff a)).contFlush hw
  | loop a m x k => exact h.flushOne hw (by simpa only [Rts.go, Option.some.injEq] using e)
  | resume a m x => cases e; exact h.setMsg.setWk hw
  | freeze a m k v => cases e; exact (h.setMsg.setMsg).emit.contWake hw
  | wake a m k v b => exact h.wakeOne hw (by simpa only [Rts.go, Option.some.injEq] using e)
  | deq a m => cases e; exact h.deqMsg.emit.setWk hw
  | rdy b k =>
    simp only [Rts.go, Option.some.injEq] at e
    cases hr : Rts.enqReady s b with
    | ok y => rw [hr, Res.ok_bind] at e; cases e; exact (h.enqReady hr).setWk hw
    | _ => rw [hr] at e; cases e
  | timed x => cases e; exact (h.enqMsg.emit.setWk hw).thenReady hw

end Small

/-- The steps of the first four workers, without changes of affinity. -/
def Label.small : Label → Bool
  | .take w _ => w < 4
  | .go w => w < 4
  | .async w _ _ => w < 4
  | .after w _ _ => w < 4
  | .pushC w _ => w < 4
  | .popC w => w < 4
  | .affinity _ _ => false
  | .ret w _ => w < 4
  | .ext w _ _ _ => w < 4
  | .timer _ => true

theorem Small.step {s s' : State} (h : Small s) {l : Label} (hl : l.small = true) (e : step s l = some (.ok s')) : Small s' := by
  cases l with
  | take w sh =>
    simp only [Label.small, decide_eq_true_eq] at hl
    simp only [Rts.step] at e
    split at e
    · simp only [Option.some.injEq] at e
      cases hr : Rts.deqReady s (takeQueue w sh) with
      | ok y =>
        rw [hr, Res.ok_bind] at e
        split at e
        · cases e; exact h.deqReady hr
        · cases e; exact (h.deqReady hr).setWk hl
      | _ => rw [hr] at e; cases e
    · cases e
  | go w =>
    simp only [Label.small, decide_eq_true_eq] at hl
    exact h.go hl e
  | async w r c =>
    simp only [Rts.step] at e
    split at e
    · split at e
      · split at e
        · cases e
        · cases e; exact ((h.newMsg.setNext).setActor (by exact h.aff _)).emit
      · cases e
    · cases e
  | after w d c =>
    simp only [Rts.step] at e
    split at e
    · split at e
      · split at e
        · cases e
        · cases e; exact ((h.newMsg.setNext).setActor (by exact h.aff _)).emit
      · cases e
    · cases e
  | pushC w c =>
    simp only [Rts.step] at e
    split at e
    · split at e
      · cases e; exact h.setActor (by exact h.aff _)
      · cases e
    · cases e
  | popC w =>
    simp only [Rts.step] at e
    split at e
    · cases e; exact h.setActor (by exact h.aff _)
    · cases e
  | affinity w i => cases hl
  | ret w r =>
    simp only [Label.small, decide_eq_true_eq] at hl
    simp only [Rts.step] at e
    split at e
    · rename_i a m _
      split at e
      · simp only [Option.some.injEq] at e
        cases r with
        | done v =>
          simp only [Rts.ret] at e
          cases hr : Rts.reverseOutgoing s a with
          | ok y => rw [hr, Res.ok_bind] at e; cases e; exact (h.reverseOutgoing hr).setWk hl
          | _ => rw [hr] at e; cases e
        | cont c v => cases e; exact h.setMsg.setWk hl
        | fail v =>
          simp only [Rts.ret] at e
          split at e
          · cases e; exact ((h.setActor (by exact h.aff _)).setMsg).setWk hl
          · cases hr : Rts.reverseOutgoing s a with
            | ok y => rw [hr, Res.ok_bind] at e; cases e; exact (h.reverseOutgoing hr).setWk hl
            | _ => rw [hr] at e; cases e
        | wait c x =>
          simp only [Rts.ret] at e
          cases hr : Rts.reverseOutgoing s a with
          | ok y => rw [hr, Res.ok_bind] at e; cases e; exact ((h.reverseOutgoing hr).setMsg.emit).setWk hl
          | _ => rw [hr] at e; cases e
      · cases e
    · cases e
  | ext w r c now =>
    simp only [Label.small, decide_eq_true_eq] at hl
    simp only [Rts.step] at e
    split at e
    · cases e; exact (h.newMsg.enqMsg.emit).thenReady hl
    · cases e
  | timer now =>
    simp only [Rts.step] at e
    split at e
    · split at e
      · cases e; exact h.deqTimed.emit
      · cases e; exact h.deqTimed.emit.setWk (by omega)
    · cases e

theorem small_run {ls : List Label} : ∀ {s s' : State}, Small s → ls.all Label.small = true → run s ls = some s' → Small s' := by
  induction ls with
  | nil => intro s s' h _ e; simp only [run] at e; cases e; exact h
  | cons l ls ih =>
    intro s s' h ha e
    simp only [run] at e
    simp only [List.all_cons, Bool.and_eq_true] at ha
    split at e
    · rename_i hs; exact ih (h.step ha.1 hs) ha.2 e
    · cases e

/-- Whether the first four workers and the shared ready queue are at rest. -/
def quiet4 (s : State) : Bool :=
  decide (s.wk 0 = .idle) && decide (s.wk 1 = .idle) && decide (s.wk 2 = .idle) && decide (s.wk 3 = .idle) &&
  decide ((s.rqs sharedRq).head = none)

/-- As `ex_sync`, for a state at rest. -/
theorem ex_quiet (ls : List Label) (P : State → Bool) (h0 : ls.all Label.small = true) (h1 : allSync init ls = true)
    (h : endsWith ls (fun s => quiet4 s && P s) = true) : ∃ s, Reach NoOverlap s ∧ Quiet s ∧ P s = true := by
  unfold endsWith at h
  split at h
  · rename_i s hs
    simp only [quiet4, Bool.and_eq_true, decide_eq_true_eq] at h
    have hsm := small_run Small.init h0 hs
    refine ⟨s, sync_reach (sync_run_reach .init h1 hs), ⟨fun w => ?_, fun i => ?_⟩, h.2⟩
    · match w with
      | 0 => exact h.1.1.1.1.1
      | 1 => exact h.1.1.1.1.2
      | 2 => exact h.1.1.1.2
      | 3 => exact h.1.1.2
      | w + 4 => exact hsm.wk _ (by omega)
    · by_cases hi : i = sharedRq
      · rw [hi]; exact h.1.2
      · rw [hsm.rq i hi]
  · cases h

def goN (n w : Nat) : List Label := List.replicate n (.go w)

/-- The event loop calls actor 1 (message 0). Worker 1 runs it: it calls actor 2 twice (messages 1, 2) and awaits the
second call, with continuation 6. -/
def exAwait1 : List Label :=
  [.ext 0 1 10 100, .go 0, .take 1 true, .go 1, .async 1 2 11, .async 1 2 12, .ret 1 (.wait 6 2)] ++ goN 5 1

/-- Worker 2 runs the first call. -/
def exAwait2 : List Label := exAwait1 ++ [.take 2 true, .go 2, .ret 2 (.done 77)] ++ goN 4 2

/-- Worker 2 runs the second call and has completed it. -/
def exAwait3 : List Label := exAwait2 ++ [.take 2 true, .go 2, .ret 2 (.done 78)] ++ goN 2 2

/-- Worker 2 wakes actor 1 and finishes; worker 1 runs actor 1. -/
def exAwait4 : List Label := exAwait3 ++ goN 3 2 ++ [.take 1 true, .go 1, .ret 1 (.done 79)] ++ goN 3 1

/-- The second call fails instead. -/
def exFail : List Label :=
  exAwait2 ++ [.take 2 true, .go 2, .ret 2 (.fail 66)] ++ goN 5 2 ++ [.take 1 true, .go 1]

/-- Actor 1 calls itself with the delays 50, 20, 20 and 0 (messages 1 to 4); the clock goes on. -/
def exTimer : List Label :=
  [.ext 0 1 10 100, .go 0, .take 1 true, .go 1, .after 1 50 11, .after 1 20 12, .after 1 20 13, .after 1 0 14,
   .ret 1 (.done 5)] ++ goN 8 1 ++ [.take 1 true, .go 1, .ret 1 (.done 5)] ++ goN 3 1 ++
  [.timer 110, .timer 130, .go 0, .go 0, .timer 130, .go 0, .timer 140] ++
  [.take 1 true, .go 1, .ret 1 (.done 5)] ++ goN 4 1 ++ [.take 1 true, .go 1, .ret 1 (.done 5)] ++ goN 3 1

/-- Actor 1 calls actor 3 (message 1) and finishes. In its next message (2) it calls actor 2 (message 3) and awaits
message 1; worker 1 registers it and starts to post message 3. Meanwhile worker 2 runs actor 3, wakes actor 1 and takes
it from the ready queue. -/
def exRace : List Label :=
  [.ext 0 1 10 100, .go 0, .take 1 true, .go 1, .async 1 3 11, .ret 1 (.done 5)] ++ goN 5 1 ++
  [.ext 0 1 10 100, .go 0, .take 2 true, .take 1 true, .go 1, .async 1 2 12, .ret 1 (.wait 6 1)] ++ goN 2 1 ++
  [.go 2, .ret 2 (.done 9)] ++ goN 5 2 ++ [.take 2 true]

/-- Worker 2 finishes with actor 1, whose queue is empty then. -/
def exRaceUb : List Label := exRace ++ [.go 2, .ret 2 (.done 8)] ++ goN 3 2

/-- Worker 2 runs actor 1, which calls actor 2 (message 4), and posts that message; then worker 1 posts message 3 and
worker 3 runs actor 2. -/
def exRaceOrd : List Label :=
  exRace ++ [.go 2, .async 2 2 13, .ret 2 (.done 8)] ++ goN 3 2 ++ [.go 1, .take 3 true, .go 3]

/-- Actors 1 and 2 call themselves with the same due time 120; actor 1 first, but actor 2 returns first. -/
def exTies : List Label :=
  [.ext 0 1 10 100, .go 0, .ext 0 2 10 100, .go 0, .take 1 true, .go 1, .take 2 true, .go 2, .after 1 20 11,
   .after 2 20 11, .ret 2 (.done 5)] ++ goN 2 2 ++ [.ret 1 (.done 5)] ++ goN 2 1 ++ [.timer 130]

end Verif.Rts
