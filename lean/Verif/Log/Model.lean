/-!
# Model of logging.act: handlers and loggers; C162 to C164

base/src/logging.act. One message on its way through the handlers. The object `Message` and its list
`path` are shared by all handlers: messages between actors carry references. A message that an
actor sends leaves it when the running method ends, fails or waits for an answer, not before
(`PUSH_outgoing`, `FLUSH_outgoing_local`, base/rts/rts.c:914-943, 1600-1608, 1725-1816). Names are
numbers. Every sink uses `DefaultFormatter`; whether a sink waits for the answer of another actor
while it handles a message depends on the sink, those of logging.act do not. The texts of
messages and the time are left out.
-/
namespace Verif.Log

/-- The attributes of a handler, base/src/logging.act:225-228; handlers are numbered. -/
structure Handler where
  parent : Option Nat
  /-- for each sink, whether its `handle` waits for an answer -/
  sinks : List Bool
  level : Int

/-- A message, base/src/logging.act:116-138; `blank`: it has neither text nor data. -/
structure Msg where
  level : Int
  blank : Bool

/-- The keys of `lvl_names`, base/src/logging.act:103-114. -/
def known (l : Int) : Bool := decide (0 ≤ l) && decide (l ≤ 9)

/-- The message for the parent: there is none, it waits in the handler, it has left. -/
inductive Buf
  | none | pending (p : Nat) | sent
  deriving DecidableEq, Repr

/-- How far `handle` is: not called yet, the name is in the path, at sink `k`. -/
inductive Pc
  | queued | inserted | sink (k : Nat)
  deriving DecidableEq, Repr

/-- A call of `handle`: the handler, those through which the message came (latest first), and how
far the call is. -/
structure Task where
  at_ : Nat
  prev : List Nat
  pc : Pc
  buf : Buf
  deriving DecidableEq, Repr

/-- The handlers of a call, latest first. -/
def Task.route (t : Task) : List Nat := t.at_ :: t.prev

/-- A line that a sink writes: the route of the message, the number of the sink, the path in the
line. -/
structure Line where
  route : List Nat
  sink : Nat
  path : List Nat
  deriving DecidableEq, Repr

/-- The handlers and one message. -/
structure S where
  hs : Nat → Handler
  path : List Nat
  tasks : List Task
  out : List Line
  /-- the route to the handler that took the message last; not in the code, `route` neither -/
  last : List Nat

/-- The message that leaves the handler. -/
def flush (t : Task) : List Task :=
  match t.buf with
  | .pending p => [⟨p, t.route, .queued, .none⟩]
  | _ => []

/-- What is left in the handler. -/
def left : Buf → Buf
  | .pending _ => .sent
  | b => b

/-- `m.path.insert(0, name)`, base/src/logging.act:235-236. -/
def insertName (n : Option Nat) (path : List Nat) : List Nat :=
  match n with
  | none => path
  | some n => n :: path

/-- `parent_handler.handle(m)`, base/src/logging.act:237-238. -/
def forward : Option Nat → Buf
  | none => .none
  | some p => .pending p

/-- The line of a sink, base/src/logging.act:156-169, 187-207. -/
def lines (m : Msg) (t : Task) (k : Nat) (path : List Nat) : List Line :=
  if m.blank then [] else [⟨t.route, k, path⟩]

/-- A part of `handle`, base/src/logging.act:233-240. -/
inductive Step (names : Nat → Option Nat) (m : Msg) : S → S → Prop
  /-- the level is too high -/
  | block {s : S} {pre post : List Task} {t : Task} (ht : s.tasks = pre ++ t :: post) (hp : t.pc = .queued)
      (hl : ¬ m.level ≤ (s.hs t.at_).level) : Step names m s { s with tasks := pre ++ post }
  /-- `handle` begins; an actor handles one message at a time -/
  | enter {s : S} {pre post : List Task} {t : Task} (ht : s.tasks = pre ++ t :: post) (hp : t.pc = .queued)
      (hl : m.level ≤ (s.hs t.at_).level) (hi : ∀ t' ∈ s.tasks, t'.pc ≠ .queued → t'.at_ ≠ t.at_) :
      Step names m s { s with tasks := pre ++ { t with pc := .inserted } :: post,
                              path := insertName (names t.at_) s.path, last := t.route }
  /-- the message for the parent -/
  | parent {s : S} {pre post : List Task} {t : Task} (ht : s.tasks = pre ++ t :: post) (hp : t.pc = .inserted) :
      Step names m s { s with tasks := pre ++ { t with pc := .sink 0, buf := forward (s.hs t.at_).parent } :: post }
  /-- a sink writes its line -/
  | print {s : S} {pre post : List Task} {t : Task} {k : Nat} (ht : s.tasks = pre ++ t :: post) (hp : t.pc = .sink k)
      (hk : (s.hs t.at_).sinks[k]? = some false) (hm : known m.level = true) :
      Step names m s { s with tasks := pre ++ { t with pc := .sink (k + 1) } :: post,
                              out := s.out ++ lines m t k s.path }
  /-- a sink writes its line and waits -/
  | wait {s : S} {pre post : List Task} {t : Task} {k : Nat} (ht : s.tasks = pre ++ t :: post) (hp : t.pc = .sink k)
      (hk : (s.hs t.at_).sinks[k]? = some true) (hm : known m.level = true) :
      Step names m s { s with tasks := pre ++ { t with pc := .sink (k + 1), buf := left t.buf } :: (flush t ++ post),
                              out := s.out ++ lines m t k s.path }
  /-- `lvl_names[m.level]` raises an exception, which nobody catches -/
  | fail {s : S} {pre post : List Task} {t : Task} {k : Nat} {b : Bool} (ht : s.tasks = pre ++ t :: post)
      (hp : t.pc = .sink k) (hk : (s.hs t.at_).sinks[k]? = some b) (hm : known m.level = false) :
      Step names m s { s with tasks := pre ++ (flush t ++ post) }
  /-- `handle` ends -/
  | finish {s : S} {pre post : List Task} {t : Task} {k : Nat} (ht : s.tasks = pre ++ t :: post)
      (hp : t.pc = .sink k) (hk : (s.hs t.at_).sinks[k]? = none) :
      Step names m s { s with tasks := pre ++ (flush t ++ post) }

/-- Any number of steps, while parents, sinks and levels change (`set_handler`, `add_sink`,
`set_output_level`, base/src/logging.act:230-231, 242-246) in any way that keeps `P`. -/
inductive Run (names : Nat → Option Nat) (m : Msg) (P : (Nat → Handler) → Prop) : S → S → Prop
  | refl {s : S} : P s.hs → Run names m P s s
  | step {s s' s'' : S} : Run names m P s s' → Step names m s' s'' → Run names m P s s''
  | config {s s' : S} {hs : Nat → Handler} : P hs → Run names m P s s' → Run names m P s { s' with hs := hs }

/-- A logger sends the message to the handler `h0`, base/src/logging.act:275-286; `base` is the name of
the logger or empty. -/
def start (hs : Nat → Handler) (base : List Nat) (h0 : Nat) : S := ⟨hs, base, [⟨h0, [], .queued, .none⟩], [], []⟩

/-! ## The logger -/

/-- A logger and its handler: the level in the logger, `last_check.elapsed()` in ms, the
level of the handler, and the time in ms since it was set. -/
structure L where
  cached : Int
  age : Nat
  level : Int
  since : Nat

/-- `UNSET`, base/src/logging.act:88. -/
def unset : Int := -2

/-- `__init__`, base/src/logging.act:260-267. -/
def newLogger (level : Int) (since : Nat) : L := ⟨unset, 0, level, since⟩

/-- The check of the level, base/src/logging.act:281-284. -/
def check (s : L) : L :=
  if s.cached = unset ∨ s.age > 100 then { s with cached := s.level, age := 0 } else s

/-- `log`, base/src/logging.act:272-286: the new state, and whether the message is sent. -/
def log (s : L) (level : Int) : L × Bool := (check s, decide (level ≤ (check s).cached))

/-- What happens to a logger and its handler. -/
inductive LEv
  | tick (d : Nat)
  | setLevel (l : Int)
  | log (l : Int)

/-- One event. -/
def lstep (s : L) : LEv → L
  | .tick d => { s with age := s.age + d, since := s.since + d }
  | .setLevel l => { s with level := l, since := 0 }
  | .log l => (log s l).1

end Verif.Log
