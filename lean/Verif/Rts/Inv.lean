import Verif.Rts.Lists
/-!
# The invariant of the run-time system
-/
namespace Verif.Rts
open Verif Function

/-- Lists of messages: the queue of an actor, its outgoing messages, those that a worker still has to
flush, the timer queue, the message that a worker has taken from it. -/
inductive MLoc where
  | mq (a : Nat)
  | out (a : Nat)
  | fl (w : Nat)
  | timer
  | held (w : Nat)
  deriving DecidableEq

/-- Lists of actors: a ready queue, the waiters of a message, those that a worker still has to wake, the
actor that a worker handles, the actor that it is about to make ready. -/
inductive ALoc where
  | ready (i : Nat)
  | waiting (m : Nat)
  | wake (w : Nat)
  | own (w : Nat)
  | rdy (w : Nat)
  deriving DecidableEq

/-- The actor that a worker handles and whose fields it may access. -/
def owner : Phase → Option Nat
  | .got a => some a
  | .run a _ => some a
  | .addWait a _ _ => some a
  | .flush a _ k => if k = .added then none else some a
  | .loop a _ _ k => if k = .added then none else some a
  | .resume a _ _ => some a
  | .freeze a _ _ _ => some a
  | .wake a _ _ _ _ => some a
  | .deq a _ => some a
  | .rdy _ k => owner k
  | .timed _ => none
  | .idle => none

/-- The actor whose messages a worker still flushes although the actor already waits. -/
def poster : Phase → Option Nat
  | .flush a _ k => if k = .added then some a else none
  | .loop a _ _ k => if k = .added then some a else none
  | .rdy _ k => poster k
  | _ => none

/-- The actor and message that a worker handles. -/
def curOf : Phase → Option (Nat × Nat)
  | .run a m => some (a, m)
  | .addWait a m _ => some (a, m)
  | .flush a m _ => some (a, m)
  | .loop a m _ _ => some (a, m)
  | .resume a m _ => some (a, m)
  | .freeze a m _ _ => some (a, m)
  | .wake a m _ _ _ => some (a, m)
  | .deq a m => some (a, m)
  | .rdy _ k => curOf k
  | _ => none

/-- The actor and message in the phases between `FREEZE_waiting` and `DEQ_msg`. -/
def frozenOf : Phase → Option (Nat × Nat)
  | .wake a m _ _ _ => some (a, m)
  | .deq a m => some (a, m)
  | .rdy _ k => frozenOf k
  | _ => none

/-- The actors about to be made ready. -/
def rdys : Phase → List Nat
  | .rdy b k => b :: rdys k
  | _ => []

def flPtr : Phase → Option Nat
  | .loop _ _ p _ => some p
  | .rdy _ k => flPtr k
  | _ => none

def wakePtr : Phase → Option Nat
  | .wake _ _ _ _ b => some b
  | .rdy _ k => wakePtr k
  | _ => none

def heldPtr : Phase → Option Nat
  | .timed x => some x
  | .rdy _ k => heldPtr k
  | _ => none

/-- The marks in the phases. -/
def markOk : Phase → Prop
  | .flush _ _ (.done mark _) => mark = MARK_RESULT ∨ mark = MARK_EXCEPTION
  | .loop _ _ _ (.done mark _) => mark = MARK_RESULT ∨ mark = MARK_EXCEPTION
  | .freeze _ _ mark _ => mark = MARK_RESULT ∨ mark = MARK_EXCEPTION
  | .wake _ _ mark _ _ => mark = MARK_RESULT ∨ mark = MARK_EXCEPTION
  | .rdy _ k => markOk k
  | _ => True

def nxM (s : State) : Nat → Option Nat := fun m => (s.msgs m).next
def nxA (s : State) : Nat → Option Nat := fun a => (s.actors a).next

def headM (s : State) : MLoc → Option Nat
  | .mq a => (s.actors a).msg
  | .out a => (s.actors a).outgoing
  | .fl w => flPtr (s.wk w)
  | .timer => s.timerQ
  | .held w => heldPtr (s.wk w)

def headA (s : State) : ALoc → Option Nat
  | .ready i => (s.rqs i).head
  | .waiting m => (s.msgs m).waiting
  | .wake w => wakePtr (s.wk w)
  | .own _ => none
  | .rdy _ => none

def linkedM (_ : MLoc) : Prop := True

def linkedA : ALoc → Prop
  | .own _ => False
  | .rdy _ => False
  | _ => True

/-- The invariant behind mutual exclusion. -/
structure Core (s : State) (ml : MLoc → List Nat) (al : ALoc → List Nat) : Prop where
  M : LL linkedM (nxM s) (headM s) ml
  A : LL linkedA (nxA s) (headA s) al
  mtail : ∀ a, (s.actors a).tail = (ml (.mq a)).getLast?
  rtail : ∀ i, (s.rqs i).tail = (al (.ready i)).getLast?
  own : ∀ w, al (.own w) = (owner (s.wk w)).toList
  rdy : ∀ w, al (.rdy w) = rdys (s.wk w)
  live : ∀ a, (∃ l, a ∈ al l) ↔ ml (.mq a) ≠ []
  mto : ∀ a m, m ∈ ml (.mq a) → (s.msgs m).to = a
  mlt : ∀ l m, m ∈ ml l → m < s.nmsg
  cur : ∀ w a m, curOf (s.wk w) = some (a, m) → (ml (.mq a)).head? = some m
  post : ∀ w a, poster (s.wk w) = some a →
    (∀ w', owner (s.wk w') ≠ some a) ∧ ∀ w', poster (s.wk w') = some a → w' = w
  frz : ∀ m l, m ∈ ml l → s.frozen m → ∃ w a, frozenOf (s.wk w) = some (a, m)
  frzW : ∀ m, s.frozen m → al (.waiting m) = []
  frzO : ∀ w a m, frozenOf (s.wk w) = some (a, m) → s.frozen m
  fresh : ∀ m, s.nmsg ≤ m → s.frozen m
  wait : ∀ a x, a ∈ al (.waiting x) → (s.actors a).waitsfor = some x
  waitk : ∀ b w, b ∈ al (.wake w) → ∃ a m, frozenOf (s.wk w) = some (a, m) ∧ (s.actors b).waitsfor = some m
  nowait : ∀ a, (s.actors a).waitsfor ≠ none → (∃ x, a ∈ al (.waiting x)) ∨ ∃ w, a ∈ al (.wake w)
  mark : ∀ w, markOk (s.wk w)
  catch_ : ∀ a c, c ∈ (s.actors a).catcher → 2 ≤ c.1

variable {s : State} {ml : MLoc → List Nat} {al : ALoc → List Nat}

theorem owner_or_poster : ∀ {p : Phase} {a m : Nat}, curOf p = some (a, m) →
    owner p = some a ∨ poster p = some a := by
  intro p
  induction p with
  | rdy b k ih => intro a m h; exact ih h
  | flush a m k =>
    intro a' m' h
    simp only [curOf, Option.some.injEq, Prod.mk.injEq] at h
    simp only [owner, poster]
    split <;> simp [h.1]
  | loop a m p k =>
    intro a' m' h
    simp only [curOf, Option.some.injEq, Prod.mk.injEq] at h
    simp only [owner, poster]
    split <;> simp [h.1]
  | _ => intro a' m' h; simp_all [curOf, owner, poster]

theorem cur_of_frozenOf : ∀ {p : Phase} {a m : Nat}, frozenOf p = some (a, m) →
    curOf p = some (a, m) ∧ owner p = some a ∧ poster p = none := by
  intro p
  induction p with
  | rdy b k ih => intro a m h; exact ih h
  | _ => intro a' m' h; simp_all [curOf, owner, poster, frozenOf]

namespace Core

theorem mem_own (h : Core s ml al) {w a : Nat} : a ∈ al (.own w) ↔ owner (s.wk w) = some a := by
  rw [h.own]; simp

theorem mem_rdy (h : Core s ml al) {w a : Nat} : a ∈ al (.rdy w) ↔ a ∈ rdys (s.wk w) := by rw [h.rdy]

theorem own_unique (h : Core s ml al) {w w' a : Nat} (h1 : owner (s.wk w) = some a)
    (h2 : owner (s.wk w') = some a) : w = w' := by
  have := h.A.disj _ _ a (h.mem_own.2 h1) (h.mem_own.2 h2)
  simpa using this

/-- Nobody else handles the actor that a worker owns. -/
theorem cur_unique (h : Core s ml al) {w w' a m : Nat} (h1 : owner (s.wk w) = some a)
    (h2 : curOf (s.wk w') = some (a, m)) : w' = w := by
  rcases owner_or_poster h2 with h3 | h3
  · exact (h.own_unique h1 h3).symm
  · exact absurd h1 ((h.post w' a h3).1 w)

theorem chainM (h : Core s ml al) (l : MLoc) : Chain (nxM s) (headM s l) (ml l) := h.M.chain l trivial

theorem headM_eq (h : Core s ml al) (l : MLoc) : headM s l = (ml l).head? := (h.chainM l).head

theorem ready_nowait (h : Core s ml al) {a : Nat} {l : ALoc} (hm : a ∈ al l) (h1 : ∀ x, l ≠ .waiting x)
    (h2 : ∀ w, l ≠ .wake w) : (s.actors a).waitsfor = none := by
  by_contra hn
  rcases h.nowait a hn with ⟨x, hx⟩ | ⟨w, hw⟩
  · exact h1 x (h.A.disj _ _ a hm hx)
  · exact h2 w (h.A.disj _ _ a hm hw)

/-- The message that an owner handles is frozen only in the last phases. -/
theorem head_frozen (h : Core s ml al) {w a m : Nat} (ho : owner (s.wk w) = some a)
    (hm : (ml (.mq a)).head? = some m) (hf : s.frozen m) : frozenOf (s.wk w) = some (a, m) := by
  have hm' : m ∈ ml (.mq a) := List.mem_of_head? hm
  obtain ⟨w', a', h1⟩ := h.frz m _ hm' hf
  have h2 := cur_of_frozenOf h1
  have h3 := h.cur w' a' m h2.1
  have e := h.M.disj _ _ m hm' (List.mem_of_head? h3)
  simp at e
  subst e
  rw [h.own_unique ho h2.2.1]
  exact h1

end Core

/-- Unfolds the updates of the state. -/
macro "st_simp" : tactic => `(tactic| simp only [State.setMsg, State.setActor, State.setWk, State.setNext, State.setRq, State.emit] at *)

theorem core_init : Core init (fun _ => []) (fun _ => []) := by
  refine ⟨?_, ?_, ?_, ?_, ?_, ?_, ?_, ?_, ?_, ?_, ?_, ?_, ?_, ?_, ?_, ?_, ?_, ?_, ?_, ?_⟩
  · refine ⟨?_, by simp, by simp⟩
    intro l _
    cases l <;> rfl
  · refine ⟨?_, by simp, by simp⟩
    intro l _
    cases l <;> rfl
  all_goals simp [init, blankActor, blankMsg, owner, rdys, curOf, poster, frozenOf, markOk, State.frozen, MARK_RESULT]


theorem owner_poster : ∀ {p : Phase} {a b : Nat}, owner p = some a → poster p = some b → False := by
  intro p
  induction p with
  | rdy b k ih => intro a b h1 h2; exact ih h1 h2
  | flush a m k => intro a b h1 h2; simp only [owner, poster] at h1 h2; split at h1 <;> simp_all
  | loop a m p k => intro a b h1 h2; simp only [owner, poster] at h1 h2; split at h1 <;> simp_all
  | _ => intro a b h1 h2; simp_all [owner, poster]

/-- What is to be shown of a step of worker `w`. -/
theorem core_step {s' : State} {ml' : MLoc → List Nat} {al' : ALoc → List Nat} (h : Core s ml al) (w : Nat)
    (hwk : ∀ w', w' ≠ w → s'.wk w' = s.wk w')
    (hal : ∀ w', w' ≠ w → al' (.own w') = al (.own w') ∧ al' (.rdy w') = al (.rdy w') ∧ al' (.wake w') = al (.wake w'))
    (hn : s.nmsg ≤ s'.nmsg)
    (hto : ∀ m, m < s.nmsg → (s'.msgs m).to = (s.msgs m).to)
    (hmono : ∀ m, m < s.nmsg → s.frozen m → s'.frozen m)
    (hblank : ∀ m, s'.nmsg ≤ m → (s'.msgs m).cont = (s.msgs m).cont)
    (M : LL linkedM (nxM s') (headM s') ml')
    (A : LL linkedA (nxA s') (headA s') al')
    (mtail : ∀ a, (s'.actors a).tail = (ml' (.mq a)).getLast?)
    (rtail : ∀ i, (s'.rqs i).tail = (al' (.ready i)).getLast?)
    (own : al' (.own w) = (owner (s'.wk w)).toList)
    (rdy : al' (.rdy w) = rdys (s'.wk w))
    (live : ∀ a, (∃ l, a ∈ al' l) ↔ ml' (.mq a) ≠ [])
    (mto : ∀ a m, m ∈ ml' (.mq a) → m ∉ ml (.mq a) → (s'.msgs m).to = a)
    (mlt : ∀ l m, m ∈ ml' l → m < s'.nmsg)
    (hcur : ∀ a m, (ml (.mq a)).head? = some m → owner (s.wk w) ≠ some a → (ml' (.mq a)).head? = some m)
    (cur : ∀ a m, curOf (s'.wk w) = some (a, m) → (ml' (.mq a)).head? = some m)
    (post : ∀ a, poster (s'.wk w) = some a → poster (s.wk w) = some a ∨ owner (s.wk w) = some a)
    (ownw : ∀ a, owner (s'.wk w) = some a → owner (s.wk w) = some a ∨ ∀ w', poster (s.wk w') ≠ some a)
    (hmem : ∀ m l, m ∈ ml' l → s'.frozen m → ∃ l', m ∈ ml l')
    (hfr : ∀ m, m < s.nmsg → s'.frozen m → s.frozen m ∨ ∃ a, frozenOf (s'.wk w) = some (a, m))
    (hfo : ∀ a m, frozenOf (s.wk w) = some (a, m) → frozenOf (s'.wk w) = some (a, m) ∨ ∀ l, m ∉ ml' l)
    (frzW : ∀ m, s'.frozen m → al' (.waiting m) = [])
    (frzO : ∀ a m, frozenOf (s'.wk w) = some (a, m) → s'.frozen m)
    (wait : ∀ a x, a ∈ al' (.waiting x) → (s'.actors a).waitsfor = some x)
    (hwf : ∀ b w', w' ≠ w → b ∈ al (.wake w') → (s'.actors b).waitsfor = (s.actors b).waitsfor)
    (waitk : ∀ b, b ∈ al' (.wake w) → ∃ a m, frozenOf (s'.wk w) = some (a, m) ∧ (s'.actors b).waitsfor = some m)
    (nowait : ∀ a, (s'.actors a).waitsfor ≠ none → (∃ x, a ∈ al' (.waiting x)) ∨ ∃ w, a ∈ al' (.wake w))
    (mark : markOk (s'.wk w))
    (catch_ : ∀ a c, c ∈ (s'.actors a).catcher → 2 ≤ c.1) : Core s' ml' al' := by
  have hpo : ∀ w' a, poster (s.wk w') = some a → owner (s.wk w) ≠ some a := fun w' a h1 => (h.post w' a h1).1 w
  refine { M := M, A := A, mtail := mtail, rtail := rtail, own := ?_, rdy := ?_, live := live, mto := ?_, mlt := mlt,
           cur := ?_, post := ?_, frz := ?_, frzW := frzW, frzO := ?_, fresh := ?_, wait := wait, waitk := ?_,
           nowait := nowait, mark := ?_, catch_ := catch_ }
  · intro w'
    by_cases e : w' = w
    · rw [e]; exact own
    · rw [(hal w' e).1, hwk w' e]; exact h.own w'
  · intro w'
    by_cases e : w' = w
    · rw [e]; exact rdy
    · rw [(hal w' e).2.1, hwk w' e]; exact h.rdy w'
  · intro a m hm
    by_cases e : m ∈ ml (.mq a)
    · rw [hto m (h.mlt _ _ e)]; exact h.mto a m e
    · exact mto a m hm e
  · intro w' a m hc
    by_cases e : w' = w
    · rw [e] at hc; exact cur a m hc
    · rw [hwk w' e] at hc
      exact hcur a m (h.cur w' a m hc) (fun ho => e (h.cur_unique ho hc))
  · intro w1 a hp
    have key : ∀ w', poster (s'.wk w') = some a → w' ≠ w → poster (s.wk w') = some a := by
      intro w' h1 h2; rwa [hwk w' h2] at h1
    constructor
    · intro w' ho
      by_cases e1 : w1 = w <;> by_cases e2 : w' = w
      · rw [e1] at hp; rw [e2] at ho; exact owner_poster ho hp
      · subst e1
        rw [hwk w' e2] at ho
        rcases post a hp with h1 | h1
        · exact (h.post _ a h1).1 w' ho
        · exact e2 (h.own_unique ho h1)
      · subst e2
        rw [hwk w1 e1] at hp
        rcases ownw a ho with h1 | h1
        · exact (h.post _ a hp).1 _ h1
        · exact h1 w1 hp
      · rw [hwk w' e2] at ho
        rw [hwk w1 e1] at hp
        exact (h.post _ a hp).1 w' ho
    · intro w' hp'
      by_cases e1 : w1 = w <;> by_cases e2 : w' = w
      · rw [e1, e2]
      · subst e1
        rw [hwk w' e2] at hp'
        rcases post a hp with h1 | h1
        · exact (h.post _ a h1).2 w' hp'
        · exact absurd h1 ((h.post _ a hp').1 _)
      · subst e2
        rw [hwk w1 e1] at hp
        rcases post a hp' with h1 | h1
        · exact (h.post _ a hp).2 _ h1
        · exact absurd h1 ((h.post _ a hp).1 _)
      · rw [hwk w' e2] at hp'
        rw [hwk w1 e1] at hp
        exact (h.post _ a hp).2 w' hp'
  · intro m l hm hf
    obtain ⟨l', hl'⟩ := hmem m l hm hf
    rcases hfr m (h.mlt _ _ hl') hf with h1 | ⟨a, h1⟩
    · obtain ⟨w', a, h2⟩ := h.frz m l' hl' h1
      by_cases e : w' = w
      · subst e
        rcases hfo a m h2 with h3 | h3
        · exact ⟨_, a, h3⟩
        · exact absurd hm (h3 l)
      · exact ⟨w', a, by rw [hwk w' e]; exact h2⟩
    · exact ⟨w, a, h1⟩
  · intro w' a m hf
    by_cases e : w' = w
    · rw [e] at hf; exact frzO a m hf
    · rw [hwk w' e] at hf
      exact hmono m (h.mlt _ _ (List.mem_of_head? (h.cur w' a m (cur_of_frozenOf hf).1))) (h.frzO w' a m hf)
  · intro m hm
    have := h.fresh m (by omega)
    simp only [State.frozen] at this ⊢
    rw [hblank m hm]
    exact this
  · intro b w' hb
    by_cases e : w' = w
    · rw [e] at hb ⊢; exact waitk b hb
    · rw [(hal w' e).2.2] at hb
      rw [hwk w' e, hwf b w' e hb]
      exact h.waitk b w' hb
  · intro w'
    by_cases e : w' = w
    · rw [e]; exact mark
    · rw [hwk w' e]; exact h.mark w'

section
variable {β : Type} (f : Nat → β) (a b : Nat)
@[simp] theorem upd_self (v : β) : upd f a v a = v := by simp [upd]
theorem upd_ne {a b : Nat} (h : b ≠ a) (v : β) : upd f a v b = f b := by simp [upd, h]
@[simp] theorem upd_Actor_next (g : Nat → Actor) (v : Actor) (h : v.next = (g a).next) : (upd g a v b).next = (g b).next := by
  unfold upd; split
  · rename_i e; rw [h, e]
  · rfl
@[simp] theorem upd_Actor_msg (g : Nat → Actor) (v : Actor) (h : v.msg = (g a).msg) : (upd g a v b).msg = (g b).msg := by
  unfold upd; split
  · rename_i e; rw [h, e]
  · rfl
@[simp] theorem upd_Actor_tail (g : Nat → Actor) (v : Actor) (h : v.tail = (g a).tail) : (upd g a v b).tail = (g b).tail := by
  unfold upd; split
  · rename_i e; rw [h, e]
  · rfl
@[simp] theorem upd_Actor_affinity (g : Nat → Actor) (v : Actor) (h : v.affinity = (g a).affinity) : (upd g a v b).affinity = (g b).affinity := by
  unfold upd; split
  · rename_i e; rw [h, e]
  · rfl
@[simp] theorem upd_Actor_outgoing (g : Nat → Actor) (v : Actor) (h : v.outgoing = (g a).outgoing) : (upd g a v b).outgoing = (g b).outgoing := by
  unfold upd; split
  · rename_i e; rw [h, e]
  · rfl
@[simp] theorem upd_Actor_waitsfor (g : Nat → Actor) (v : Actor) (h : v.waitsfor = (g a).waitsfor) : (upd g a v b).waitsfor = (g b).waitsfor := by
  unfold upd; split
  · rename_i e; rw [h, e]
  · rfl
@[simp] theorem upd_Actor_catcher (g : Nat → Actor) (v : Actor) (h : v.catcher = (g a).catcher) : (upd g a v b).catcher = (g b).catcher := by
  unfold upd; split
  · rename_i e; rw [h, e]
  · rfl
@[simp] theorem upd_Msg_next (g : Nat → Msg) (v : Msg) (h : v.next = (g a).next) : (upd g a v b).next = (g b).next := by
  unfold upd; split
  · rename_i e; rw [h, e]
  · rfl
@[simp] theorem upd_Msg_to (g : Nat → Msg) (v : Msg) (h : v.to = (g a).to) : (upd g a v b).to = (g b).to := by
  unfold upd; split
  · rename_i e; rw [h, e]
  · rfl
@[simp] theorem upd_Msg_cont (g : Nat → Msg) (v : Msg) (h : v.cont = (g a).cont) : (upd g a v b).cont = (g b).cont := by
  unfold upd; split
  · rename_i e; rw [h, e]
  · rfl
@[simp] theorem upd_Msg_waiting (g : Nat → Msg) (v : Msg) (h : v.waiting = (g a).waiting) : (upd g a v b).waiting = (g b).waiting := by
  unfold upd; split
  · rename_i e; rw [h, e]
  · rfl
@[simp] theorem upd_Msg_baseline (g : Nat → Msg) (v : Msg) (h : v.baseline = (g a).baseline) : (upd g a v b).baseline = (g b).baseline := by
  unfold upd; split
  · rename_i e; rw [h, e]
  · rfl
@[simp] theorem upd_Msg_value (g : Nat → Msg) (v : Msg) (h : v.value = (g a).value) : (upd g a v b).value = (g b).value := by
  unfold upd; split
  · rename_i e; rw [h, e]
  · rfl
@[simp] theorem upd_Rq_head (g : Nat → Rq) (v : Rq) (h : v.head = (g a).head) : (upd g a v b).head = (g b).head := by
  unfold upd; split
  · rename_i e; rw [h, e]
  · rfl
@[simp] theorem upd_Rq_tail (g : Nat → Rq) (v : Rq) (h : v.tail = (g a).tail) : (upd g a v b).tail = (g b).tail := by
  unfold upd; split
  · rename_i e; rw [h, e]
  · rfl
@[simp] theorem upd_flPtr (g : Nat → Phase) (v : Phase) (h : flPtr v = flPtr (g a)) : flPtr (upd g a v b) = flPtr (g b) := by
  unfold upd; split
  · rename_i e; rw [h, e]
  · rfl
@[simp] theorem upd_heldPtr (g : Nat → Phase) (v : Phase) (h : heldPtr v = heldPtr (g a)) : heldPtr (upd g a v b) = heldPtr (g b) := by
  unfold upd; split
  · rename_i e; rw [h, e]
  · rfl
@[simp] theorem upd_wakePtr (g : Nat → Phase) (v : Phase) (h : wakePtr v = wakePtr (g a)) : wakePtr (upd g a v b) = wakePtr (g b) := by
  unfold upd; split
  · rename_i e; rw [h, e]
  · rfl
@[simp] theorem upd_owner (g : Nat → Phase) (v : Phase) (h : owner v = owner (g a)) : owner (upd g a v b) = owner (g b) := by
  unfold upd; split
  · rename_i e; rw [h, e]
  · rfl
@[simp] theorem upd_poster (g : Nat → Phase) (v : Phase) (h : poster v = poster (g a)) : poster (upd g a v b) = poster (g b) := by
  unfold upd; split
  · rename_i e; rw [h, e]
  · rfl
@[simp] theorem upd_curOf (g : Nat → Phase) (v : Phase) (h : curOf v = curOf (g a)) : curOf (upd g a v b) = curOf (g b) := by
  unfold upd; split
  · rename_i e; rw [h, e]
  · rfl
@[simp] theorem upd_frozenOf (g : Nat → Phase) (v : Phase) (h : frozenOf v = frozenOf (g a)) : frozenOf (upd g a v b) = frozenOf (g b) := by
  unfold upd; split
  · rename_i e; rw [h, e]
  · rfl
@[simp] theorem upd_rdys (g : Nat → Phase) (v : Phase) (h : rdys v = rdys (g a)) : rdys (upd g a v b) = rdys (g b) := by
  unfold upd; split
  · rename_i e; rw [h, e]
  · rfl
@[simp] theorem upd_markOk (g : Nat → Phase) (v : Phase) (h : markOk v = markOk (g a)) : markOk (upd g a v b) = markOk (g b) := by
  unfold upd; split
  · rename_i e; rw [h, e]
  · rfl
end

/-- Closes the parts of `core_step` that a step does not touch. -/
macro "core_auto" h:term : tactic => `(tactic| (
  intros
  (try simp only [State.setMsg, State.setActor, State.setWk, State.setNext, State.setRq, State.emit, State.frozen] at *) <;>
  first
  | (simp_all [upd, Function.update_apply, owner, poster, curOf, frozenOf, rdys, flPtr, wakePtr, heldPtr, markOk]; done)
  | ((try simp [owner, poster, curOf, frozenOf, rdys, flPtr, wakePtr, heldPtr, markOk, Function.update_apply] at *) <;>
      first
      | done
      | exact Core.mtail $h _
      | exact Core.rtail $h _
      | exact Core.mlt $h _ _ ‹_›
      | exact ⟨_, ‹_›⟩
      | exact Core.frzW $h _ ‹_›
      | exact Core.wait $h _ _ ‹_›
      | exact Core.nowait $h _ ‹_›
      | exact Core.live $h _
      | exact Core.catch_ $h _ _ ‹_›)
  | ((try simp [owner, poster, curOf, frozenOf, rdys, flPtr, wakePtr, heldPtr, markOk, Function.update_apply, *]) <;>
      first
      | done
      | exact Core.mtail $h _
      | exact Core.rtail $h _
      | exact Core.mlt $h _ _ ‹_›
      | exact ⟨_, ‹_›⟩
      | exact Core.frzW $h _ ‹_›
      | exact Core.wait $h _ _ ‹_›
      | exact Core.nowait $h _ ‹_›
      | exact Core.live $h _
      | exact Core.catch_ $h _ _ ‹_›)))

/-- Equality of the heads of the lists. -/
macro "head_auto" : tactic => `(tactic| (
  intro l hl
  cases l <;> simp_all [linkedA, headM, headA, nxM, nxA, State.setMsg, State.setActor, State.setWk, State.setNext, State.setRq, State.emit,
    Function.update_apply, flPtr, wakePtr, heldPtr] <;>
  (try simp only [upd]) <;> (try split_ifs) <;> simp_all [flPtr, wakePtr, heldPtr]))

theorem Core.wake_nil (h : Core s ml al) {w : Nat} (hw : frozenOf (s.wk w) = none) : al (.wake w) = [] := by
  apply List.eq_nil_iff_forall_not_mem.2
  intro b hb
  obtain ⟨a, m, h1, _⟩ := h.waitk b w hb
  rw [hw] at h1
  cases h1

/-- Moving elements between two locations. -/
theorem ex_move {L : Type} [DecidableEq L] {f : L → List Nat} {l1 l2 : L} {v1 v2 : List Nat} (hne : l1 ≠ l2)
    (hm : ∀ x, x ∈ v1 ∨ x ∈ v2 ↔ x ∈ f l1 ∨ x ∈ f l2) (a : Nat) :
    (∃ l, a ∈ update (update f l1 v1) l2 v2 l) ↔ ∃ l, a ∈ f l := by
  constructor
  · rintro ⟨l, hl⟩
    by_cases e2 : l = l2
    · subst e2
      rw [update_self] at hl
      rcases (hm a).1 (.inr hl) with h | h
      · exact ⟨_, h⟩
      · exact ⟨_, h⟩
    · rw [update_of_ne e2] at hl
      by_cases e1 : l = l1
      · subst e1
        rw [update_self] at hl
        rcases (hm a).1 (.inl hl) with h | h
        · exact ⟨_, h⟩
        · exact ⟨_, h⟩
      · rw [update_of_ne e1] at hl; exact ⟨l, hl⟩
  · rintro ⟨l, hl⟩
    by_cases e : l = l1 ∨ l = l2
    · have : a ∈ f l1 ∨ a ∈ f l2 := by rcases e with rfl | rfl <;> simp [hl]
      rcases (hm a).2 this with h | h
      · exact ⟨l1, by rw [update_of_ne hne, update_self]; exact h⟩
      · exact ⟨l2, by rw [update_self]; exact h⟩
    · rw [not_or] at e
      exact ⟨l, by rw [update_of_ne e.2, update_of_ne e.1]; exact hl⟩

/-- `DEQ_ready` of an actor. -/
theorem core_take (h : Core s ml al) {w i r : Nat} {t : List Nat} (hw : s.wk w = .idle)
    (hr : al (.ready i) = r :: t) (hg : ∀ w', poster (s.wk w') ≠ some r) :
    ∃ s', deqReady s i = .ok (s', some r) ∧
      Core (s'.setWk w (.got r)) ml (update (update al (.ready i) t) (.own w) [r]) ∧
      s' = (s.setRq i ⟨(s.actors r).next, if (s.actors r).next = none then none else (s.rqs i).tail⟩).setActor r
        { s.actors r with next := none } := by
  have hc := h.A.chain (.ready i) trivial
  rw [hr] at hc
  have hh : (s.rqs i).head = some r := hc.1
  have hwf : (s.actors r).waitsfor = none := h.ready_nowait (l := .ready i) (by rw [hr]; simp) (by simp) (by simp)
  refine ⟨_, ?_, ?_, rfl⟩
  · simp only [deqReady, hh, State.setRq, State.setActor, upd, if_true, hwf]
    simp
  · obtain ⟨A1, A2⟩ := h.A.pop hr (nx' := nxA ((s.setRq i ⟨(s.actors r).next, if (s.actors r).next = none then none else (s.rqs i).tail⟩).setActor r
        { s.actors r with next := none })) (by
      intro y hy
      simp [nxA, State.setRq, State.setActor, upd, hy])
    have hown : al (.own w) = [] := by rw [h.own, hw]; rfl
    have hrdy : al (.rdy w) = [] := by rw [h.rdy, hw]; rfl
    have hwake : al (.wake w) = [] := h.wake_nil (by rw [hw]; rfl)
    refine core_step h w ?_ ?_ ?_ ?_ ?_ ?_ ?_ ?_ ?_ ?_ ?_ ?_ ?_ ?_ ?_ ?_ ?_ ?_ ?_ ?_ ?_ ?_ ?_ ?_ ?_ ?_ ?_ ?_ ?_ ?_
    all_goals try core_auto h
    · exact h.M.congr (by head_auto) (fun _ => rfl) (fun _ => rfl)
    · exact (A1.put (l := .own w) A2 id none).congr (by head_auto) (fun _ => rfl) (fun _ => rfl)
    · intro i'
      by_cases e : i' = i
      · subst e
        simp only [State.setRq, State.setActor, State.setWk, upd_self]
        have hl := h.rtail i'
        have hn := hc.2.head
        simp only [nxA] at hn
        rw [hr] at hl
        rw [hn, hl]
        cases t <;> simp
      · simp only [State.setRq, State.setActor, State.setWk, upd_ne _ e]
        simp [h.rtail i', e]
    · intro a
      rw [ex_move (by simp) (by intro x; simp [hr, hown, or_comm]), h.live]

end Verif.Rts
