import Verif.Persist.Model

/-!
# Persist: what recovery should mean

Spec: a system of actors without a database and without crashes.  A configuration is the state of each
actor and the sequence of messages it has not yet dealt with.  Dealing with a message is one
step: the actor runs its continuations to the end, its new state replaces the old one, the message
disappears and what was sent is put at the end of the sequences of the receivers.  There are no
keys, tables, queues with heads, phases or transactions here.
-/
namespace Verif.Persist

variable {S K : Type}

/-- States and unprocessed messages. -/
structure Sys (S K : Type) where
  st : Nat → Option S
  box : Nat → List K

/-- Messages sent, in order: receiver and continuation. -/
abbrev Sent (K : Type) := List (Nat × K)

/-- `Exec prog a s k s' o`: actor `a` in state `s` deals with a message `k` completely, without waiting
for anything and without timers; it ends in state `s'` and has sent `o`. -/
inductive Exec (prog : Prog S K) (a : Nat) : S → K → S → Sent K → Prop where
  | done {s k s' outs o} : prog a s k = (s', outs, .done) →
      outs = o.map (fun p => .async p.1 p.2) → Exec prog a s k s' o
  | cont {s k s₁ outs o₁ k' s' o₂} : prog a s k = (s₁, outs, .cont k') →
      outs = o₁.map (fun p => .async p.1 p.2) → Exec prog a s₁ k' s' o₂ →
      Exec prog a s k s' (o₁ ++ o₂)

/-- What of `o` is for actor `b`. -/
def forActor (o : Sent K) (b : Nat) : List K := (o.filter (fun p => p.1 = b)).map Prod.snd

/-- One step of the system: actor `a` deals with its first message. -/
inductive Sys.Step (prog : Prog S K) : Sys S K → Sys S K → Prop where
  | mk {x : Sys S K} {a s k rest s' o} : x.st a = some s → x.box a = k :: rest →
      Exec prog a s k s' o →
      Sys.Step prog x
        ⟨fun b => if b = a then some s' else x.st b,
         fun b => (if b = a then rest else x.box b) ++ forActor o b⟩

/-- `n` steps. -/
inductive Sys.Steps (prog : Prog S K) : Nat → Sys S K → Sys S K → Prop where
  | refl (x) : Sys.Steps prog 0 x x
  | tail {n x y z} : Sys.Steps prog n x y → Sys.Step prog y z → Sys.Steps prog (n + 1) x z

/-- The continuation of a message. -/
def contOf (msgs : Nat → Option (Msg K)) (id : Nat) : Option K := (msgs id).map Msg.k

/-- What the memory of the run-time system says about the system of actors: `IsSys mem x` if `x` has
the states in memory and its sequences are the inboxes. -/
def IsSys (mem : Mem S K) (x : Sys S K) : Prop :=
  (∀ a, mem.st a = x.st a) ∧
  (∀ a, (mem.inbox a).map (contOf mem.msgs) = (x.box a).map some)

/-- Nothing is under way: no worker is busy, nothing waits to be sent, no timed messages, no actor
waits for a message, and exactly the actors with messages are ready. -/
def Quiet (mem : Mem S K) : Prop :=
  (∀ w, mem.jobs w = none) ∧ (∀ a, mem.outgoing a = []) ∧ (∀ a, mem.waits a = none) ∧
  mem.timers = [] ∧ mem.mover = none ∧ (∀ a, mem.ready a = true ↔ mem.inbox a ≠ [])

/-- The database has the whole system: the rows of all actors hold their states, the entries not yet
consumed (which are those not yet read) are the inboxes, and the rows of their messages hold them as
they are in memory. -/
def InDb (c : Cfg S K) : Prop :=
  (∀ a, c.db.actors a = (c.mem.st a).map fun s => ⟨s, none⟩) ∧
  (∀ a, (c.db.queue a).rd = (c.db.queue a).co ∧
    (c.db.queue a).entries.drop (c.db.queue a).co = c.mem.inbox a) ∧
  (∀ a id, id ∈ c.mem.inbox a → c.db.msgs id = c.mem.msgs id) ∧
  c.db.timer.entries.length ≤ c.db.timer.rd

/-- Messages are what they should be: keys in use are below the next one, an entry of the queue of
`a` is a message for `a`, without due time, not dealt with, and there once; an actor with messages
exists. -/
def Sane (c : Cfg S K) : Prop :=
  (∀ id, c.mem.next ≤ id → c.mem.msgs id = none ∧ c.db.msgs id = none) ∧
  (∀ a id, id ∈ c.mem.inbox a → ∃ k, c.mem.msgs id = some ⟨a, k, none, false⟩) ∧
  (∀ a, (c.db.queue a).entries.Nodup ∧ ∀ id ∈ (c.db.queue a).entries, id < c.mem.next) ∧
  (∀ a b id, id ∈ (c.db.queue a).entries → id ∈ (c.db.queue b).entries → a = b) ∧
  (∀ a, c.mem.inbox a ≠ [] → (c.mem.st a).isSome) ∧
  (∀ a, (c.db.queue a).co ≤ (c.db.queue a).entries.length)

/-- A configuration from which the positive theorems start. -/
def Start (c : Cfg S K) : Prop := Quiet c.mem ∧ InDb c ∧ Sane c

/-- The continuation that actor `a` would run next does not wait and sends no timed messages, and sends
only to actors that have a row in the database. -/
def Plain (prog : Prog S K) (c : Cfg S K) (a : Nat) : Prop :=
  ∀ m rest s msg, c.mem.inbox a = m :: rest → c.mem.st a = some s → c.mem.msgs m = some msg →
    (∀ k i, (prog a s msg.k).2.2 ≠ .wait k i) ∧
    ∃ o : Sent K, (prog a s msg.k).2.1 = o.map (fun p => .async p.1 p.2) ∧
      ∀ p ∈ o, (c.db.actors p.1).isSome

/-- No worker other than `w` is between its commit and its local flush (always so if there is one
worker). -/
def Alone (c : Cfg S K) (w : Nat) : Prop :=
  ∀ w' j, c.mem.jobs w' = some j → j.phase = .committed → w' = w

/-- The executions that the positive theorems are about, with the number of commits: any number of
workers run plain continuations, and commit one at a time.  Commits succeed at the first attempt;
there are no messages from the event loop, no timers, and no actors are created. -/
inductive Exe (prog : Prog S K) : Cfg S K → Nat → Cfg S K → Prop where
  | refl (c) : Exe prog c 0 c
  | run {c n d w a e} : Exe prog c n d → Plain prog d a →
      step prog d (.run w a) = some e → Exe prog c n e
  | read {c n d w e} : Exe prog c n d → step prog d (.read w) = some e → Exe prog c n e
  | commit {c n d w e} : Exe prog c n d → Alone d w →
      step prog d (.commit w) = some e → Exe prog c (n + 1) e
  | finish {c n d w e} : Exe prog c n d → step prog d (.finish w) = some e → Exe prog c n e

/-- No worker is between the dummy read and the commit. -/
def NotReading (c : Cfg S K) : Prop := ∀ w j h, c.mem.jobs w = some j → j.phase ≠ .read h

end Verif.Persist
