import Verif.Rts.Model
/-!
# What the run-time system has to guarantee

Most of it reads the record of events only.
-/
namespace Verif.Rts
open Verif

/-- The messages that `a` sent to `r`, in order of sending. -/
def sends (L : List Event) (a r : Nat) : List Nat :=
  L.filterMap fun | .sent a' r' m => if a' = a ∧ r' = r then some m else none | _ => none

/-- The messages that `r` has completely processed, in that order. -/
def finishedBy (L : List Event) (r : Nat) : List Nat :=
  L.filterMap fun | .finished r' m => if r' = r then some m else none | _ => none

/-- The messages that `a` sent to itself with a delay, in order of sending. -/
def delays (L : List Event) (a : Nat) : List Nat :=
  L.filterMap fun | .delayed a' m _ => if a' = a then some m else none | _ => none

/-- The messages that entered the timer queue, those that the timer delivered. -/
def queuedList (L : List Event) : List Nat := L.filterMap fun | .queued m _ => some m | _ => none
def firedList (L : List Event) : List Nat := L.filterMap fun | .fired m _ => some m | _ => none

/-- The delayed messages put in the queues of their receivers, in that order. -/
def deliveredList (L : List Event) : List Nat := L.filterMap fun | .delivered m => some m | _ => none

/-- The messages in the timer queue due at `d`, in order of their arrival there. -/
def queuedAt (L : List Event) (d : Int) : List Nat :=
  L.filterMap fun | .queued m d' => if d' = d then some m else none | _ => none
def dueAt (L : List Event) (d : Int) : List Nat := (queuedAt L d).filter (· ∉ firedList L)

/-- The await of `a` that was not yet followed by a resumption: message, continuation, awaited message. -/
def pend (L : List Event) (a : Nat) : Option (Nat × Nat × Nat) :=
  L.foldl (fun p e =>
    match e with
    | .awaits a' m c x => if a' = a then some (m, c, x) else p
    | .ran a' _ _ _ => if a' = a then none else p
    | _ => p) none

/-- The message that `r` has started and not finished. -/
def started (L : List Event) (r : Nat) : Option Nat :=
  L.foldl (fun p e =>
    match e with
    | .ran r' m _ _ => if r' = r then some m else p
    | .finished r' _ => if r' = r then none else p
    | _ => p) none

/-- The messages completed, in order. -/
def completions (L : List Event) : List Nat := L.filterMap fun | .completed m _ _ => some m | _ => none

section
variable (L : List Event) (e : Event) (a r m c x : Nat) (d : Int)
@[simp] theorem sends_append (L' : List Event) : sends (L ++ L') a r = sends L a r ++ sends L' a r :=
  List.filterMap_append ..
@[simp] theorem finishedBy_append (L' : List Event) : finishedBy (L ++ L') r = finishedBy L r ++ finishedBy L' r :=
  List.filterMap_append ..
@[simp] theorem delays_append (L' : List Event) : delays (L ++ L') r = delays L r ++ delays L' r :=
  List.filterMap_append ..
@[simp] theorem queuedList_append (L' : List Event) : queuedList (L ++ L') = queuedList L ++ queuedList L' :=
  List.filterMap_append ..
@[simp] theorem firedList_append (L' : List Event) : firedList (L ++ L') = firedList L ++ firedList L' :=
  List.filterMap_append ..
@[simp] theorem deliveredList_append (L' : List Event) : deliveredList (L ++ L') = deliveredList L ++ deliveredList L' :=
  List.filterMap_append ..
@[simp] theorem queuedAt_append (L' : List Event) : queuedAt (L ++ L') d = queuedAt L d ++ queuedAt L' d :=
  List.filterMap_append ..
@[simp] theorem completions_append (L' : List Event) : completions (L ++ L') = completions L ++ completions L' :=
  List.filterMap_append ..

theorem mem_sends : m ∈ sends L a r ↔ Event.sent a r m ∈ L := by
  simp only [sends, List.mem_filterMap]
  constructor
  · rintro ⟨e, he, h⟩
    split at h
    · split at h
      · rename_i h'
        obtain ⟨rfl, rfl⟩ := h'
        cases h
        exact he
      · cases h
    · cases h
  · intro h; exact ⟨_, h, by simp⟩

theorem mem_finishedBy : m ∈ finishedBy L r ↔ Event.finished r m ∈ L := by
  simp only [finishedBy, List.mem_filterMap]
  constructor
  · rintro ⟨e, he, h⟩
    split at h
    · split at h
      · rename_i h'
        subst h'
        cases h
        exact he
      · cases h
    · cases h
  · intro h; exact ⟨_, h, by simp⟩

theorem mem_delays : m ∈ delays L a ↔ ∃ d, Event.delayed a m d ∈ L := by
  simp only [delays, List.mem_filterMap]
  constructor
  · rintro ⟨e, he, h⟩
    split at h
    · split at h
      · rename_i h'
        subst h'
        cases h
        exact ⟨_, he⟩
      · cases h
    · cases h
  · rintro ⟨d, h⟩; exact ⟨_, h, by simp⟩

theorem mem_queuedList : m ∈ queuedList L ↔ ∃ d, Event.queued m d ∈ L := by
  simp only [queuedList, List.mem_filterMap]
  constructor
  · rintro ⟨e, he, h⟩
    split at h
    · cases h; exact ⟨_, he⟩
    · cases h
  · rintro ⟨d, h⟩; exact ⟨_, h, by simp⟩

theorem mem_firedList : m ∈ firedList L ↔ ∃ d, Event.fired m d ∈ L := by
  simp only [firedList, List.mem_filterMap]
  constructor
  · rintro ⟨e, he, h⟩
    split at h
    · cases h; exact ⟨_, he⟩
    · cases h
  · rintro ⟨d, h⟩; exact ⟨_, h, by simp⟩

theorem mem_queuedAt : m ∈ queuedAt L d ↔ Event.queued m d ∈ L := by
  simp only [queuedAt, List.mem_filterMap]
  constructor
  · rintro ⟨e, he, h⟩
    split at h
    · split at h
      · rename_i h'
        subst h'
        cases h
        exact he
      · cases h
    · cases h
  · intro h; exact ⟨_, h, by simp⟩

theorem mem_completions : m ∈ completions L ↔ ∃ k v, Event.completed m k v ∈ L := by
  simp only [completions, List.mem_filterMap]
  constructor
  · rintro ⟨e, he, h⟩
    split at h
    · cases h; exact ⟨_, _, he⟩
    · cases h
  · rintro ⟨k, v, h⟩; exact ⟨_, h, by simp⟩

theorem started_snoc : started (L ++ [e]) a =
    match e with
    | .ran r' m _ _ => if r' = a then some m else started L a
    | .finished r' _ => if r' = a then none else started L a
    | _ => started L a := by
  simp only [started, List.foldl_append, List.foldl_cons, List.foldl_nil]

theorem pend_snoc : pend (L ++ [e]) a =
    match e with
    | .awaits a' m c x => if a' = a then some (m, c, x) else pend L a
    | .ran a' _ _ _ => if a' = a then none else pend L a
    | _ => pend L a := by
  simp only [pend, List.foldl_append, List.foldl_cons, List.foldl_nil]

end

/-- The actor that a worker is busy with: it took it from a ready queue and has neither put it back, nor
finished registering it as waiting with all its messages posted, nor left it without messages. -/
def atWork : Phase → Option Nat
  | .got a => some a
  | .run a _ => some a
  | .addWait a _ _ => some a
  | .flush a _ _ => some a
  | .loop a _ _ _ => some a
  | .resume a _ _ => some a
  | .freeze a _ _ _ => some a
  | .wake a _ _ _ _ => some a
  | .deq a _ => some a
  | .rdy _ k => atWork k
  | .timed _ => none
  | .idle => none

/-- `l` is what one reads following the links `nx` from `p`. -/
def Follows (nx : Nat → Option Nat) : Option Nat → List Nat → Prop
  | none, [] => True
  | some p, x :: l => p = x ∧ Follows nx (nx p) l
  | _, _ => False

/-- The actors that a worker is about to put in a ready queue. -/
def toReady : Phase → List Nat
  | .rdy b k => b :: toReady k
  | _ => []

/-- The message that a worker has completed and the first of the actors that it still has to wake. -/
def waking : Phase → Option (Nat × Nat)
  | .wake _ m _ _ b => some (m, b)
  | .rdy _ k => waking k
  | _ => none

/-- The actor that an event is an action of. -/
def Event.actor : Event → Option Nat
  | .sent a _ _ => some a
  | .delayed a _ _ => some a
  | .awaits a _ _ _ => some a
  | .finished a _ => some a
  | _ => none

/-- The states reached by steps that meet the condition `G`. -/
inductive Reach (G : State → Label → Prop) : State → Prop
  | init : Reach G init
  | step {s s' : State} {l : Label} : Reach G s → G s l → step s l = some (.ok s') → Reach G s'

/-- Nothing is left to do for the workers. -/
def Quiet (s : State) : Prop := (∀ w, s.wk w = .idle) ∧ ∀ i, (s.rqs i).head = none

/-- Splitting a record with a new last event. -/
theorem snoc_split {L L1 L2 : List Event} {e e' : Event} (h : L ++ [e] = L1 ++ e' :: L2) :
    (L = L1 ∧ e = e' ∧ L2 = []) ∨ ∃ L3, L2 = L3 ++ [e] ∧ L = L1 ++ e' :: L3 := by
  rcases List.eq_nil_or_concat L2 with rfl | ⟨L3, x, rfl⟩
  · left
    have := List.append_inj' h rfl
    simp at this
    exact ⟨this.1, this.2, rfl⟩
  · right
    rw [List.concat_eq_append, ← List.cons_append, ← List.append_assoc] at h
    have := List.append_inj' h rfl
    simp at this
    exact ⟨L3, by rw [List.concat_eq_append, this.2], this.1⟩

end Verif.Rts
