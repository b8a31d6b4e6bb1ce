import Verif.Rts.Steps6
/-!
# The run-time system without pointers

`AStep` describes the steps on lists instead of links. Every step of the model is a step of `AStep`
(`refine`), as long as no actor is taken from a ready queue while a worker still posts its messages.
-/
namespace Verif.Rts
open Verif Function

/-- The fields of a message apart from the links. -/
structure Att where
  dst : Nat
  cont : Nat
  base : Int
  val : Nat

structure V where
  att : Nat → Att
  wf : Nat → Option Nat
  wk : Nat → Phase
  log : List Event
  nmsg : Nat
  ml : MLoc → List Nat
  al : ALoc → List Nat

def attOf (m : Msg) : Att := ⟨m.to, m.cont, m.baseline, m.value⟩

def view (s : State) (ml : MLoc → List Nat) (al : ALoc → List Nat) : V :=
  ⟨fun m => attOf (s.msgs m), fun a => (s.actors a).waitsfor, s.wk, s.log, s.nmsg, ml, al⟩

def V.frozen (v : V) (m : Nat) : Prop := (v.att m).cont = MARK_RESULT ∨ (v.att m).cont = MARK_EXCEPTION

/-- The continuation that an awaiting actor gets. -/
def wakeCont (mark c : Nat) : Nat := if mark = MARK_EXCEPTION then failInst else c

/-- The phase after a message went to the queue of `b`. -/
def enqPh (q : List Nat) (b : Nat) (P : Phase) : Phase := if q = [] then .rdy b P else P

/-- `W a x`: actor `a` may await `x`. -/
inductive AStep (W : Nat → Nat → Prop) : V → V → Prop
  | skip (v : V) : AStep W v v
  | take (v : V) (w i r : Nat) (t : List Nat) (hw : v.wk w = .idle) (hr : v.al (.ready i) = r :: t)
      (hg : ∀ w', poster (v.wk w') ≠ some r) :
      AStep W v { v with wk := upd v.wk w (.got r), al := update (update v.al (.ready i) t) (.own w) [r] }
  | got (v : V) (w a m : Nat) (hw : v.wk w = .got a) (hm : (v.ml (.mq a)).head? = some m) (hf : ¬ v.frozen m) :
      AStep W v { v with wk := upd v.wk w (.run a m), log := v.log ++ [.ran a m (v.att m).cont (v.att m).val] }
  | send (v : V) (w a m : Nat) (dst c : Nat) (d : Int) (hw : v.wk w = .run a m) (hc : 2 ≤ c)
      (hd : d = 0 ∨ dst = a) :
      AStep W v { v with
        att := upd v.att v.nmsg ⟨dst, c, (v.att m).base + d, doneInst⟩, nmsg := v.nmsg + 1,
        ml := update v.ml (.out a) (v.nmsg :: v.ml (.out a)),
        log := v.log ++ [if d = 0 then .sent a dst v.nmsg else .delayed a v.nmsg ((v.att m).base + d)] }
  | retDone (v : V) (w a m mark x : Nat) (hw : v.wk w = .run a m) :
      AStep W v { v with
        wk := upd v.wk w (.flush a m (.done mark x)), ml := update v.ml (.out a) (v.ml (.out a)).reverse }
  | retCont (v : V) (w a m c x : Nat) (hw : v.wk w = .run a m) (hc : 2 ≤ c) :
      AStep W v { v with
        att := upd v.att m { v.att m with cont := c, val := x }, wk := upd v.wk w (.rdy a .idle),
        al := update (update v.al (.own w) []) (.rdy w) [a] }
  | retWait (v : V) (w a m c x : Nat) (hw : v.wk w = .run a m) (hc : 2 ≤ c) (hx : x < v.nmsg)
      (hW : W a x) :
      AStep W v { v with
        att := upd v.att m { v.att m with cont := c }, wk := upd v.wk w (.addWait a m x),
        ml := update v.ml (.out a) (v.ml (.out a)).reverse, log := v.log ++ [.awaits a m c x] }
  | addFrozen (v : V) (w a m x : Nat) (hw : v.wk w = .addWait a m x) (hx : v.frozen x) :
      AStep W v { v with wk := upd v.wk w (.flush a m (.frozen x)) }
  | addWait (v : V) (w a m x : Nat) (hw : v.wk w = .addWait a m x) (hx : ¬ v.frozen x) :
      AStep W v { v with
        wf := upd v.wf a (some x), wk := upd v.wk w (.flush a m .added),
        al := update (update v.al (.own w) []) (.waiting x) (a :: v.al (.waiting x)) }
  | flush (v : V) (w a m : Nat) (k : After) (hw : v.wk w = .flush a m k) :
      AStep W v { v with
        wk := upd v.wk w (contPh a m (v.ml (.out a)).head? k),
        ml := update (update v.ml (.out a) []) (.fl w) (v.ml (.out a)) }
  | loopNow (v : V) (w a m x : Nat) (k : After) (t : List Nat) (hw : v.wk w = .loop a m x k)
      (ht : v.ml (.fl w) = x :: t) (hb : (v.att x).base = (v.att m).base) :
      AStep W v { v with
        wk := upd v.wk w (enqPh (v.ml (.mq (v.att x).dst)) (v.att x).dst (contPh a m t.head? k)),
        ml := update (update v.ml (.fl w) t) (.mq (v.att x).dst) (v.ml (.mq (v.att x).dst) ++ [x]),
        al := enqAl v.ml v.al w (v.att x).dst }
  | loopTimed (v : V) (w a m x : Nat) (k : After) (t A B : List Nat) (hw : v.wk w = .loop a m x k)
      (ht : v.ml (.fl w) = x :: t) (hb : (v.att x).base ≠ (v.att m).base) (hAB : v.ml .timer = A ++ B)
      (hA : ∀ z ∈ A, (v.att z).base ≤ (v.att x).base)
      (hB : ∀ z, B.head? = some z → (v.att x).base < (v.att z).base) :
      AStep W v { v with
        wk := upd v.wk w (contPh a m t.head? k),
        ml := update (update v.ml (.fl w) t) .timer (A ++ x :: B),
        log := v.log ++ [.queued x (v.att x).base] }
  | resume (v : V) (w a m x : Nat) (hw : v.wk w = .resume a m x) :
      AStep W v { v with
        att := upd v.att m { v.att m with cont := wakeCont (v.att x).cont (v.att m).cont, val := (v.att x).val },
        wk := upd v.wk w (.rdy a .idle), al := update (update v.al (.own w) []) (.rdy w) [a] }
  | freeze (v : V) (w a m mark x : Nat) (hw : v.wk w = .freeze a m mark x) :
      AStep W v { v with
        att := upd v.att m { v.att m with cont := mark, val := x },
        wk := upd v.wk w (wakePh a m mark x (v.al (.waiting m)).head?),
        al := update (update v.al (.waiting m) []) (.wake w) (v.al (.waiting m)),
        log := v.log ++ [.completed m mark x] }
  | wake (v : V) (w a m mark x b y : Nat) (t : List Nat) (hw : v.wk w = .wake a m mark x b)
      (ht : v.al (.wake w) = b :: t) (hy : (v.ml (.mq b)).head? = some y) (hf : ¬ v.frozen y)
      (hb : v.wf b = some m) :
      AStep W v { v with
        att := upd v.att y { v.att y with cont := wakeCont mark (v.att y).cont, val := x },
        wf := upd v.wf b none, wk := upd v.wk w (.rdy b (wakePh a m mark x t.head?)),
        al := update (update v.al (.wake w) t) (.rdy w) [b] }
  | deq (v : V) (w a m : Nat) (t : List Nat) (hw : v.wk w = .deq a m) (ht : v.ml (.mq a) = m :: t) :
      AStep W v { v with
        wk := upd v.wk w (if t = [] then .idle else .rdy a .idle), ml := update v.ml (.mq a) t,
        al := update (update v.al (.own w) []) (.rdy w) (if t = [] then [] else [a]),
        log := v.log ++ [.finished a m] }
  | ready (v : V) (w b i : Nat) (k : Phase) (hw : v.wk w = .rdy b k) :
      AStep W v { v with
        wk := upd v.wk w k, al := update (update v.al (.rdy w) (rdys k)) (.ready i) (v.al (.ready i) ++ [b]) }
  | timed (v : V) (w x : Nat) (hw : v.wk w = .timed x) (hx : v.ml (.held w) = [x]) :
      AStep W v { v with
        wk := upd v.wk w (enqPh (v.ml (.mq (v.att x).dst)) (v.att x).dst .idle),
        ml := update (update v.ml (.held w) []) (.mq (v.att x).dst) (v.ml (.mq (v.att x).dst) ++ [x]),
        al := enqAl v.ml v.al w (v.att x).dst, log := v.log ++ [.delivered x] }
  | ext (v : V) (w dst c : Nat) (now : Int) (hw : v.wk w = .idle) (hc : 2 ≤ c) :
      AStep W v { v with
        att := upd v.att v.nmsg ⟨dst, c, now, doneInst⟩, nmsg := v.nmsg + 1,
        wk := upd v.wk w (enqPh (v.ml (.mq dst)) dst .idle),
        ml := update v.ml (.mq dst) (v.ml (.mq dst) ++ [v.nmsg]), al := enqAl v.ml v.al w dst,
        log := v.log ++ [.ext dst v.nmsg] }
  | fire (v : V) (x : Nat) (now : Int) (t : List Nat) (hw : v.wk 0 = .idle) (hx : v.ml .timer = x :: t)
      (hb : (v.att x).base ≤ now) :
      AStep W v { v with
        wk := upd v.wk 0 (.timed x), ml := update (update v.ml .timer t) (.held 0) [x],
        log := v.log ++ [.fired x now] }
  | noFire (v : V) (now : Int) (hb : ∀ x, (v.ml .timer).head? = some x → now < (v.att x).base) :
      AStep W v { v with log := v.log ++ [.notFired now] }

variable {s : State} {ml : MLoc → List Nat} {al : ALoc → List Nat}

/-- A view from its parts. -/
theorem view_eq {s' : State} {ml' : MLoc → List Nat} {al' : ALoc → List Nat} {v : V}
    (h1 : ∀ m, attOf (s'.msgs m) = v.att m) (h2 : ∀ a, (s'.actors a).waitsfor = v.wf a) (h3 : s'.wk = v.wk)
    (h4 : s'.log = v.log) (h5 : s'.nmsg = v.nmsg) (h6 : ml' = v.ml) (h7 : al' = v.al) : view s' ml' al' = v := by
  obtain ⟨a, b, c, d, e, f, g⟩ := v
  simp only at *
  subst h3 h4 h5 h6 h7
  have e1 : (fun m => attOf (s'.msgs m)) = a := funext h1
  have e2 : (fun a => (s'.actors a).waitsfor) = b := funext h2
  rw [view, e1, e2]

/-- The condition on schedules: no actor is taken while a worker still posts its messages. -/
def NoOverlap (s : State) : Label → Prop
  | .take w shared => ∀ r w', (s.rqs (takeQueue w shared)).head = some r → poster (s.wk w') ≠ some r
  | _ => True

@[simp] theorem attOf_upd (f : Nat → Msg) (m : Nat) (x : Msg) (y : Nat) :
    attOf (upd f m x y) = upd (fun z => attOf (f z)) m (attOf x) y := by
  simp only [upd]; split <;> rfl

theorem upd_noop {β : Type} {f : Nat → β} {a : Nat} {v : β} (h : v = f a) (b : Nat) : upd f a v b = f b := by
  rw [h, upd_same]

theorem astep_of {W : Nat → Nat → Prop} {v v' : V} (h : AStep W v v') {s' : State} {ml' : MLoc → List Nat} {al' : ALoc → List Nat}
    (h1 : ∀ m, attOf (s'.msgs m) = v'.att m) (h2 : ∀ a, (s'.actors a).waitsfor = v'.wf a) (h3 : s'.wk = v'.wk)
    (h4 : s'.log = v'.log) (h5 : s'.nmsg = v'.nmsg) (h6 : ml' = v'.ml) (h7 : al' = v'.al) : AStep W v (view s' ml' al') := by
  rw [view_eq h1 h2 h3 h4 h5 h6 h7]; exact h

macro "view_auto" : tactic => `(tactic| first
  | rfl
  | (intro y; rfl)
  | (intro y; simp only [State.setNext, State.setMsg, State.setActor, State.setWk, State.setRq, State.emit, view, upd, attOf, newMsg, pushOutgoing, wakeCont]
     <;> (repeat' split) <;> simp_all))

theorem Core.msg_eq (h : Core s ml al) {w a m : Nat} (hw : curOf (s.wk w) = some (a, m)) : (s.actors a).msg = some m := by
  rw [← h.cur w a m hw]; exact h.headM_eq (.mq a)

theorem AStep.mono {W W' : Nat → Nat → Prop} (hW : ∀ a x, W a x → W' a x) {v v' : V} (h : AStep W v v') : AStep W' v v' := by
  cases h
  case retWait w a m c x hw hc hx h1 => exact .retWait v w a m c x hw hc hx (hW a x h1)
  case resume w a m x hw => exact .resume v w a m x hw
  all_goals (constructor <;> assumption)

/-- The awaits that a label starts. -/
def WaitsIn (s : State) (l : Label) (a x : Nat) : Prop := ∃ w m c, l = .ret w (.wait c x) ∧ s.wk w = .run a m

/-- The step of a worker without choice. -/
theorem refine_go {W : Nat → Nat → Prop} (h : Core s ml al) (hl : ∀ w, (ml (.held w)).length ≤ 1) {w : Nat} {r : Res State}
    (hs : go s w (s.wk w) = some r) :
    ∃ s' ml' al', r = .ok s' ∧ Core s' ml' al' ∧ AStep W (view s ml al) (view s' ml' al') := by
  cases hw : s.wk w with
  | idle => rw [hw] at hs; cases hs
  | run a m => rw [hw] at hs; cases hs
  | got a =>
    rw [hw] at hs
    obtain ⟨m, h1, h2, h3, h4⟩ := core_got h hw
    simp only [go, h1, if_neg h3] at hs
    cases hs
    refine ⟨_, _, _, rfl, h4 _, ?_⟩
    refine astep_of (AStep.got (view s ml al) w a m hw h2 h3) ?_ ?_ ?_ ?_ ?_ ?_ ?_ <;> view_auto
  | addWait a m x =>
    rw [hw] at hs
    simp only [go, addWaiting] at hs
    by_cases hx : s.frozen x
    · simp only [if_pos hx] at hs
      cases hs
      refine ⟨_, ml, al, rfl, ?_, astep_of (AStep.addFrozen (view s ml al) w a m x hw hx) ?_ ?_ ?_ ?_ ?_ ?_ ?_⟩
      · have := core_phase h (w := w) (a := a) (m := m) (c := (s.msgs m).cont) (v := (s.msgs m).value) (P := .flush a m (.frozen x))
          (af := (s.actors a).affinity) (ca := (s.actors a).catcher) (by rw [hw]; rfl) (by rw [hw]; rfl) rfl rfl (by rw [hw]; rfl) rfl (by rw [hw]; rfl) rfl
          (by rw [hw]; rfl) (by rw [hw]; rfl) rfl trivial (.inr rfl) (h.catch_ a)
        simpa [State.setActor, State.setMsg, State.setWk, upd_same] using this
      all_goals view_auto
    · simp only [if_neg hx] at hs
      cases hs
      refine ⟨_, _, _, rfl, core_addWait h hw hx, astep_of (AStep.addWait (view s ml al) w a m x hw hx) ?_ ?_ ?_ ?_ ?_ ?_ ?_⟩
      all_goals view_auto
  | flush a m k =>
    rw [hw] at hs
    simp only [go] at hs
    cases hs
    refine ⟨_, _, _, rfl, core_flush h hw, ?_⟩
    rw [contFlush_eq, show (s.actors a).outgoing = (ml (.out a)).head? from h.headM_eq (.out a)]
    refine astep_of (AStep.flush (view s ml al) w a m k hw) ?_ ?_ ?_ ?_ ?_ ?_ ?_ <;> view_auto
  | loop a m x k =>
    rw [hw] at hs
    simp only [go] at hs
    cases hs
    obtain ⟨t, ht, hn⟩ := h.fl_cons hw
    rw [flushOne_eq h hw]
    split
    · rename_i hb
      refine ⟨_, _, _, rfl, core_loop_now h hw ht, ?_⟩
      have e2 : (enqMsg (s.setNext x none) x (s.msgs x).to).2 = decide (ml (.mq (s.msgs x).to) = []) := by
        obtain ⟨M1, M2⟩ := h.M.pop ht (nx' := nxM (s.setNext x none)) (by
          intro y hy; simp [nxM, State.setNext, State.setMsg, upd_ne _ hy])
        have := (enqMsg_LL (s := s.setNext x none) (b := (s.msgs x).to) M1 M2 (by rw [update_of_ne (by simp)]; exact h.mtail _) (by simp [headM]; rfl)).2
        simpa using this
      obtain ⟨f1, f2, f3, f4, f5, f6, f7, -⟩ := enqMsg_frame (s.setNext x none) x (s.msgs x).to
      refine astep_of (AStep.loopNow (view s ml al) w a m x k t hw ht hb) ?_ ?_ ?_ ?_ ?_ ?_ ?_
      · intro y
        rw [show ((enqMsg (s.setNext x none) x (s.msgs x).to).1.setWk w _).msgs y = _ from f6 y]
        simp [attOf, State.setNext, State.setMsg, view]
      · intro y
        rw [show ((enqMsg (s.setNext x none) x (s.msgs x).to).1.setWk w _).actors y = _ from f7 y]
        rfl
      · simp only [State.setWk, f1, e2, enqPh, hn]
        simp [view, attOf]; rfl
      · exact f5
      · exact f4
      · rfl
      · rfl
    · rename_i hb
      obtain ⟨s', A, B, h1, h2, h3, h4, h5, f1, f2, f3, f4, f5, f6⟩ := core_loop_timed h hw ht
      rw [h1]
      refine ⟨_, _, _, rfl, core_log h5 _, astep_of (AStep.loopTimed (view s ml al) w a m x k t A B hw ht hb h2 h3 h4) ?_ ?_ ?_ ?_ ?_ ?_ ?_⟩
      · intro y
        show attOf (s'.msgs y) = _
        rw [f6 y]; rfl
      · intro y
        show (s'.actors y).waitsfor = _
        rw [f1]; rfl
      · show upd s'.wk w _ = _
        rw [f2, hn]; rfl
      · show s'.log ++ _ = _
        rw [f5]; rfl
      · exact f4
      · rfl
      · rfl
  | resume a m x =>
    rw [hw] at hs
    simp only [go] at hs
    cases hs
    have := core_rdy h (w := w) (a := a) (m := m) (c := if (s.msgs x).cont = MARK_EXCEPTION then failInst else (s.msgs m).cont) (v := (s.msgs x).value)
      (ca := (s.actors a).catcher) (by rw [hw]; rfl) (by rw [hw]; rfl) (by rw [hw]; rfl) (by rw [hw]; rfl) (by rw [hw]; rfl) (by rw [hw]; rfl)
      (by split <;> simp [failInst]) (h.catch_ a)
    simp only [State.setActor, upd_same] at this
    refine ⟨_, _, _, rfl, this, ?_⟩
    clear this
    refine astep_of (AStep.resume (view s ml al) w a m x hw) ?_ ?_ ?_ ?_ ?_ rfl rfl
    all_goals view_auto
  | freeze a m mark x =>
    rw [hw] at hs
    simp only [go, freezeWaiting] at hs
    cases hs
    have hc := core_freeze h hw
    have hh : (s.msgs m).waiting = (al (.waiting m)).head? := (h.A.chain (.waiting m) trivial).head
    rw [hh] at hc
    simp only [contWake_eq]
    refine ⟨_, _, _, rfl, ?_, astep_of (AStep.freeze (view s ml al) w a m mark x hw) ?_ ?_ ?_ ?_ ?_ rfl rfl⟩
    · refine cast ?_ (core_log hc (s.log ++ [.completed m mark x]))
      congr 1
      simp [State.setMsg, State.setWk, State.emit, hh]
      funext y; simp only [upd]; split <;> rfl
    · view_auto
    · view_auto
    · simp [State.setMsg, State.setWk, State.emit, hh, view]
    · view_auto
    · view_auto
  | wake a m mark x b =>
    rw [hw] at hs
    simp only [go] at hs
    cases hs
    obtain ⟨t, y, h1, h2, h3, h4, h5, h6⟩ := core_wake h hw
    have hh : (s.actors b).next = t.head? := by
      have := h.A.chain (.wake w) trivial
      rw [h1] at this
      exact this.2.head
    simp only [wakeOne, h3, contWake_eq]
    refine ⟨_, _, _, rfl, ?_, astep_of (AStep.wake (view s ml al) w a m mark x b y t hw h1 h2 h4 h5) ?_ ?_ ?_ ?_ ?_ rfl rfl⟩
    · refine cast ?_ (h6 (wakeCont mark (s.msgs y).cont) ?_)
      · congr 1
        simp [State.setMsg, State.setWk, State.setActor, wakeCont]
        funext z; simp only [upd]; split <;> rfl
      · unfold wakeCont; split
        · right; simp [failInst]
        · left; rfl
    · view_auto
    · view_auto
    · simp [State.setMsg, State.setWk, State.setActor, hh, view]
      funext z; simp only [upd]; split <;> rfl
    · view_auto
    · view_auto
  | deq a m =>
    rw [hw] at hs
    simp only [go] at hs
    cases hs
    obtain ⟨t, h1, h2, h3, h4⟩ := core_deq h hw
    refine ⟨_, _, _, rfl, core_log h4 _, astep_of (AStep.deq (view s ml al) w a m t hw h1) ?_ ?_ ?_ ?_ ?_ rfl rfl⟩
    · intro y; simp [State.setWk, State.emit, h3, State.setActor, State.setNext, State.setMsg, view, attOf]
    · intro y; simp [State.setWk, State.emit, h3, State.setActor, State.setNext, State.setMsg, view]
    · simp only [State.setWk, State.emit, h2, h3]
      simp [State.setActor, State.setNext, State.setMsg, view]
    · simp [State.setWk, h3, State.setActor, State.setNext, State.setMsg, State.emit, view]
    · simp [State.setWk, State.emit, h3, State.setActor, State.setNext, State.setMsg, view]
  | rdy b k =>
    rw [hw] at hs
    simp only [go] at hs
    cases hs
    obtain ⟨s', h1, h2, f1, f2, f3, f4, f5, f6⟩ := core_ready h hw
    rw [h1]
    refine ⟨_, _, _, rfl, h2, astep_of (AStep.ready (view s ml al) w b _ k hw) ?_ ?_ ?_ ?_ ?_ rfl rfl⟩
    · intro y; simp [State.setWk, f1, view]
    · intro y; simp only [State.setWk, view]; rw [f6 y]
    · simp [State.setWk, f3, view]
    · exact f4
    · exact f2
  | timed x =>
    rw [hw] at hs
    simp only [go] at hs
    cases hs
    obtain ⟨h1, h2⟩ := core_timed h hw (hl w)
    have e2 : (enqMsg s x (s.msgs x).to).2 = decide (ml (.mq (s.msgs x).to) = []) := by
      obtain ⟨M1, M2⟩ := h.M.pop h1 (nx' := nxM s) (by simp)
      have := (enqMsg_LL (s := s) (b := (s.msgs x).to) M1 M2 (by simpa using h.mtail _) (by simp [headM])).2
      simpa using this
    obtain ⟨f1, f2, f3, f4, f5, f6, f7, -⟩ := enqMsg_frame s x (s.msgs x).to
    have e3 : thenReady (((enqMsg s x (s.msgs x).to).1.emit (.delivered x)).setWk w .idle) w (s.msgs x).to (enqMsg s x (s.msgs x).to).2 =
        { (enqMsg s x (s.msgs x).to).1.setWk w (if (enqMsg s x (s.msgs x).to).2 then .rdy (s.msgs x).to .idle else .idle) with
          log := (enqMsg s x (s.msgs x).to).1.log ++ [.delivered x] } := by
      simp only [thenReady]
      split
      · simp [State.setWk, State.emit]
        funext z; simp only [upd]; split <;> rfl
      · rfl
    rw [e3]
    refine ⟨_, _, _, rfl, core_log h2 _, astep_of (AStep.timed (view s ml al) w x hw h1) ?_ ?_ ?_ ?_ ?_ rfl rfl⟩
    · intro y
      show attOf ((enqMsg s x (s.msgs x).to).1.msgs y) = _
      rw [f6 y]; rfl
    · intro y
      show ((enqMsg s x (s.msgs x).to).1.actors y).waitsfor = _
      rw [f7 y]; rfl
    · simp only [State.setWk, f1, e2, enqPh]
      simp [view, attOf]; rfl
    · simp only [f5]; rfl
    · exact f4

/-- Each step of the model is one on lists, and no assertion fails. -/
theorem refine (h : Core s ml al) (hl : ∀ w, (ml (.held w)).length ≤ 1) {l : Label} {r : Res State} (hg : NoOverlap s l)
    (hs : step s l = some r) :
    ∃ s' ml' al', r = .ok s' ∧ Core s' ml' al' ∧ AStep (WaitsIn s l) (view s ml al) (view s' ml' al') := by
  cases l with
  | take w shared =>
    simp only [step] at hs
    split at hs
    · rename_i hw
      cases hq : al (.ready (takeQueue w shared)) with
      | nil =>
        have hh : (s.rqs (takeQueue w shared)).head = none := by
          have := (h.A.chain (.ready (takeQueue w shared)) trivial).head
          rw [hq] at this; exact this
        simp only [deqReady, hh] at hs
        cases hs
        exact ⟨s, ml, al, rfl, h, .skip _⟩
      | cons r t =>
        have hh : (s.rqs (takeQueue w shared)).head = some r := by
          have := (h.A.chain (.ready (takeQueue w shared)) trivial).head
          rw [hq] at this; exact this
        obtain ⟨s', h1, h2, h3⟩ := core_take h hw.1 hq (fun w' => hg r w' hh)
        rw [h1] at hs
        cases hs
        refine ⟨_, _, _, rfl, h2, astep_of (AStep.take (view s ml al) w _ r t hw.1 hq (fun w' => hg r w' hh)) ?_ ?_ ?_ ?_ ?_ rfl rfl⟩
        · intro m; rw [h3]; rfl
        · intro a; rw [h3]; simp [State.setActor, State.setRq, State.setWk, view]
        · rw [h3]; rfl
        · rw [h3]; rfl
        · rw [h3]; rfl
    · cases hs
  | go w => exact refine_go h hl hs
  | async w dst c =>
    simp only [step] at hs
    split at hs
    · rename_i a m hw
      split at hs
      · rename_i hc
        simp only [h.msg_eq (w := w) (a := a) (m := m) (by rw [hw]; rfl)] at hs
        cases hs
        refine ⟨_, _, _, rfl, core_log (core_push h (rcv := dst) (b := (s.msgs m).baseline) (v := doneInst) hw hc) _,
          astep_of (AStep.send (view s ml al) w a m dst c 0 hw hc (.inl rfl)) ?_ ?_ ?_ ?_ ?_ rfl rfl⟩
        all_goals view_auto
      · cases hs
    · cases hs
  | after w d c =>
    simp only [step] at hs
    split at hs
    · rename_i a m hw
      split at hs
      · rename_i hc
        simp only [h.msg_eq (w := w) (a := a) (m := m) (by rw [hw]; rfl)] at hs
        cases hs
        refine ⟨_, _, _, rfl, core_log (core_push h (rcv := a) (b := (s.msgs m).baseline + d) (v := doneInst) hw hc) _,
          astep_of (AStep.send (view s ml al) w a m a c d hw hc (.inr rfl)) ?_ ?_ ?_ ?_ ?_ rfl rfl⟩
        all_goals view_auto
      · cases hs
    · cases hs
  | pushC w c =>
    simp only [step] at hs
    split at hs
    · rename_i a m hw
      split at hs
      · rename_i hc
        cases hs
        have := core_phase h (w := w) (a := a) (m := m) (c := (s.msgs m).cont) (v := (s.msgs m).value) (P := .run a m)
          (af := (s.actors a).affinity) (ca := (c, 0) :: (s.actors a).catcher) (by rw [hw]; rfl) (by rw [hw]; rfl) rfl rfl (by rw [hw]; rfl) rfl (by rw [hw]; rfl) rfl
          (by rw [hw]) (by rw [hw]) rfl trivial (.inr rfl) (by
            intro d hd
            rw [List.mem_cons] at hd
            rcases hd with rfl | hd
            · exact hc
            · exact h.catch_ a d hd)
        rw [← hw] at this
        simp only [State.setActor, State.setMsg, State.setWk, upd_same] at this
        refine ⟨_, ml, al, rfl, this, astep_of (AStep.skip (view s ml al)) ?_ ?_ ?_ ?_ ?_ rfl rfl⟩
        all_goals view_auto
      · cases hs
    · cases hs
  | popC w =>
    simp only [step] at hs
    split at hs
    · rename_i a m hw
      cases hs
      have := core_phase h (w := w) (a := a) (m := m) (c := (s.msgs m).cont) (v := (s.msgs m).value) (P := .run a m)
          (af := (s.actors a).affinity) (ca := (s.actors a).catcher.tail) (by rw [hw]; rfl) (by rw [hw]; rfl) rfl rfl (by rw [hw]; rfl) rfl (by rw [hw]; rfl) rfl
          (by rw [hw]) (by rw [hw]) rfl trivial (.inr rfl) (fun d hd => h.catch_ a d (List.mem_of_mem_tail hd))
      rw [← hw] at this
      simp only [State.setActor, State.setMsg, State.setWk, upd_same] at this
      refine ⟨_, ml, al, rfl, this, astep_of (AStep.skip (view s ml al)) ?_ ?_ ?_ ?_ ?_ rfl rfl⟩
      all_goals view_auto
    · cases hs
  | affinity w i =>
    simp only [step] at hs
    split at hs
    · rename_i a m hw
      cases hs
      have := core_phase h (w := w) (a := a) (m := m) (c := (s.msgs m).cont) (v := (s.msgs m).value) (P := .run a m)
          (af := i) (ca := (s.actors a).catcher) (by rw [hw]; rfl) (by rw [hw]; rfl) rfl rfl (by rw [hw]; rfl) rfl (by rw [hw]; rfl) rfl
          (by rw [hw]) (by rw [hw]) rfl trivial (.inr rfl) (h.catch_ a)
      rw [← hw] at this
      simp only [State.setActor, State.setMsg, State.setWk, upd_same] at this
      refine ⟨_, ml, al, rfl, this, astep_of (AStep.skip (view s ml al)) ?_ ?_ ?_ ?_ ?_ rfl rfl⟩
      all_goals view_auto
    · cases hs
  | ret w q =>
    simp only [step] at hs
    split at hs
    · rename_i a m hw
      split at hs
      · rename_i hq
        have hdone : ∀ (W : Nat → Nat → Prop) mark x, (mark = MARK_RESULT ∨ mark = MARK_EXCEPTION) →
            ∃ s' ml' al', (do let s ← reverseOutgoing s a; return s.setWk w (.flush a m (.done mark x))) = Res.ok s' ∧
              Core s' ml' al' ∧ AStep W (view s ml al) (view s' ml' al') := by
          intro W mark x hmk
          obtain ⟨s', h1, h2, f1, f2, f3, f4, f5, f6⟩ := core_rev h (w := w) (a := a) (m := m) (P := .flush a m (.done mark x))
            (by rw [hw]; rfl) (by rw [hw]; rfl) (by simp [owner]) rfl (by rw [hw]; rfl) rfl (by rw [hw]; rfl) rfl (by rw [hw]; rfl) (by rw [hw]; rfl) rfl hmk
          rw [h1]
          refine ⟨_, _, _, rfl, h2, astep_of (AStep.retDone (view s ml al) w a m mark x hw) ?_ ?_ ?_ ?_ ?_ rfl rfl⟩
          · intro y; show attOf (s'.msgs y) = _; rw [f1 y]; rfl
          · intro y; show (s'.actors y).waitsfor = _; rw [f6 y]; rfl
          · show upd s'.wk w _ = _; rw [f4]; rfl
          · exact f3
          · exact f2
        cases q with
        | done x =>
          simp only [ret, Option.some.injEq] at hs
          subst hs
          exact hdone _ _ _ (.inl rfl)
        | cont c x =>
          simp only [ret, Option.some.injEq] at hs
          subst hs
          have := core_rdy h (w := w) (a := a) (m := m) (c := c) (v := x)
            (ca := (s.actors a).catcher) (by rw [hw]; rfl) (by rw [hw]; rfl) (by rw [hw]; rfl) (by rw [hw]; rfl) (by rw [hw]; rfl) (by rw [hw]; rfl)
            (.inl hq) (h.catch_ a)
          simp only [State.setActor, upd_same] at this
          refine ⟨_, _, _, rfl, this, astep_of (AStep.retCont (view s ml al) w a m c x hw hq) ?_ ?_ ?_ ?_ ?_ rfl rfl⟩
          all_goals view_auto
        | fail x =>
          simp only [ret, Option.some.injEq] at hs
          split at hs
          · rename_i c y cs hca
            subst hs
            have hc2 : 2 ≤ c := h.catch_ a (c, y) (by rw [hca]; simp)
            have := core_rdy h (w := w) (a := a) (m := m) (c := c) (v := vFalse)
              (ca := (c, x) :: cs) (by rw [hw]; rfl) (by rw [hw]; rfl) (by rw [hw]; rfl) (by rw [hw]; rfl) (by rw [hw]; rfl) (by rw [hw]; rfl)
              (.inl hc2) (by
                intro d hd
                rw [List.mem_cons] at hd
                rcases hd with rfl | hd
                · exact hc2
                · exact h.catch_ a d (by rw [hca]; simp [hd]))
            refine ⟨_, _, _, rfl, this, astep_of (AStep.retCont (view s ml al) w a m c vFalse hw hc2) ?_ ?_ ?_ ?_ ?_ rfl rfl⟩
            all_goals view_auto
          · subst hs
            exact hdone _ _ _ (.inr rfl)
        | wait c x =>
          simp only [ret, Option.some.injEq] at hs
          subst hs
          obtain ⟨s', h1, h2, f1, f2, f3, f4, f5, f6⟩ := core_rev h (w := w) (a := a) (m := m) (P := .addWait a m x)
            (by rw [hw]; rfl) (by rw [hw]; rfl) (by simp [owner]) rfl (by rw [hw]; rfl) rfl (by rw [hw]; rfl) rfl (by rw [hw]; rfl) (by rw [hw]; rfl) rfl trivial
          rw [h1]
          have := core_phase h2 (w := w) (a := a) (m := m) (c := c) (v := (s'.msgs m).value) (P := .addWait a m x)
            (af := (s'.actors a).affinity) (ca := (s'.actors a).catcher) (by simp [State.setWk, owner]) (by simp [State.setWk, curOf]) rfl rfl (by simp [State.setWk, frozenOf]) rfl
            (by simp [State.setWk, rdys]) rfl
            (by simp [State.setWk]) (by simp [State.setWk]) rfl trivial (.inl hq.1) (h2.catch_ a)
          refine ⟨_, update ml (.out a) (ml (.out a)).reverse, al, rfl, ?_, astep_of (AStep.retWait (view s ml al) w a m c x hw hq.1 hq.2 ⟨w, m, c, rfl, hw⟩) ?_ ?_ ?_ ?_ ?_ rfl rfl⟩
          · refine cast ?_ (core_log this (s'.log ++ [.awaits a m c x]))
            congr 1
            simp [State.setMsg, State.setWk, State.setActor, State.emit, upd_same]
            funext z; simp only [upd]; split <;> rfl
          · intro y
            simp only [State.setMsg, State.setWk, State.emit, view, attOf_upd]
            simp only [upd]
            split
            · simp only [attOf]; rw [f1 m]
            · rw [f1 y]; rfl
          · intro y; show (s'.actors y).waitsfor = _; rw [f6 y]; rfl
          · show upd s'.wk w _ = _; rw [f4]; rfl
          · show s'.log ++ _ = _; rw [f3]; rfl
          · exact f2
      · cases hs
    · cases hs
  | ext w dst c now =>
    simp only [step] at hs
    split at hs
    · rename_i hw
      cases hs
      have hcore := core_ext h (rcv := dst) (b := now) (v := doneInst) hw.1 hw.2
      have hne : ∀ m, m < s.nmsg → m ≠ s.nmsg := fun m h => by omega
      have hM : LL linkedM (nxM (newMsg s dst c now doneInst)) (headM s) ml := by
        refine ⟨fun l hl => chain_congr (fun y hy => ?_) (h.M.chain l hl), h.M.nodup, h.M.disj⟩
        have := hne y (h.mlt _ _ hy)
        simp [newMsg, nxM, State.setMsg, upd_ne _ this]
      have e2 := (enqMsg_LL (s := newMsg s dst c now doneInst) (b := dst) hM h.fresh_free (h.mtail _) rfl).2
      obtain ⟨f1, f2, f3, f4, f5, f6, f7, -⟩ := enqMsg_frame (newMsg s dst c now doneInst) s.nmsg dst
      have e3 : thenReady ((enqMsg (newMsg s dst c now doneInst) s.nmsg dst).1.emit (.ext dst s.nmsg)) w dst (enqMsg (newMsg s dst c now doneInst) s.nmsg dst).2 =
        ((enqMsg (newMsg s dst c now doneInst) s.nmsg dst).1.setWk w (if (enqMsg (newMsg s dst c now doneInst) s.nmsg dst).2 then .rdy dst .idle else .idle)).emit (.ext dst s.nmsg) := by
        have hid : (newMsg s dst c now doneInst).wk w = .idle := hw.1
        simp only [thenReady]
        split
        · simp [State.setWk, State.emit, f1, hid]
        · simp only [State.setWk, State.emit]
          congr 1
          rw [f1, ← hid, upd_same]
      rw [e3]
      refine ⟨_, _, _, rfl, core_log hcore _, astep_of (AStep.ext (view s ml al) w dst c now hw.1 hw.2) ?_ ?_ ?_ ?_ ?_ rfl rfl⟩
      · intro y
        show attOf ((enqMsg (newMsg s dst c now doneInst) s.nmsg dst).1.msgs y) = _
        rw [f6 y]
        simp only [newMsg, State.setMsg, view, attOf, upd]
        split <;> simp_all
      · intro y
        show ((enqMsg (newMsg s dst c now doneInst) s.nmsg dst).1.actors y).waitsfor = _
        rw [f7 y]; rfl
      · simp only [State.setWk, State.emit, f1, e2, enqPh]
        simp [view]; rfl
      · simp only [State.setWk, State.emit, f5]; rfl
      · exact f4
    · cases hs
  | timer now =>
    simp only [step] at hs
    split at hs
    · rename_i hw
      have hh := h.headM_eq .timer
      simp only [headM] at hh
      cases hq : ml .timer with
      | nil =>
        rw [hq] at hh
        simp only [deqTimed, hh, List.head?_nil] at hs
        cases hs
        refine ⟨_, _, _, rfl, core_log h _, astep_of (AStep.noFire (view s ml al) now ?_) ?_ ?_ ?_ ?_ ?_ rfl rfl⟩
        · intro x hx; simp only [view] at hx; rw [hq] at hx; simp at hx
        all_goals view_auto
      | cons x t =>
        rw [hq] at hh
        simp only [deqTimed, hh, List.head?_cons] at hs
        by_cases hb : (s.msgs x).baseline ≤ now
        · simp only [if_pos hb] at hs
          cases hs
          obtain ⟨h1, h2, h3⟩ := core_timer h hw hq
          refine ⟨_, _, _, rfl, core_log h3 _, astep_of (AStep.fire (view s ml al) x now t hw hq hb) ?_ ?_ ?_ ?_ ?_ rfl rfl⟩
          all_goals view_auto
        · simp only [if_neg hb] at hs
          cases hs
          refine ⟨_, _, _, rfl, core_log h _, astep_of (AStep.noFire (view s ml al) now ?_) ?_ ?_ ?_ ?_ ?_ rfl rfl⟩
          · intro y hy; simp only [view] at hy; rw [hq] at hy; simp at hy; subst hy
            exact Int.not_le.1 hb
          all_goals view_auto
    · cases hs

end Verif.Rts
