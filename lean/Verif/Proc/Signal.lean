import Mathlib.Data.List.Basic
/-!
# Model of Process.signal; C166

`signal`, `kill`, `terminate`, `stop` and `pid` of the actor Process, base/src/process.act:61-98,
base/src/process.ext.c:217-236, with `exit_handler`, 22-38, and the table of processes of the
kernel. `_p` holds the address of the handle, whose only part used here is the number (pid) of
the process.

Assumed of libuv, whose source is not in the repository: it takes the status of the ended child
with `waitpid`, which frees the number, and calls `exit_handler` in the same round of the loop;
no method of the actor runs in between (`pin_actor_affinity`). Assumed of the kernel: a number
is not given out again before `waitpid`; `kill` delivers signals 1 to 64. Not modelled: a program
that calls `signal` while the actor is being created (it has no reference to it).
-/
namespace Verif.Proc.Signal

/-- A process in the table of the kernel: its number, and which one it is in the order of
starts. -/
structure Entry where
  pid : Nat
  inc : Nat
  deriving DecidableEq, Repr

/-- The actor Process, the kernel and what was observed. -/
structure S where
  /-- `_p`: the number of the process, `none` for 0 -/
  p : Option Nat
  /-- processes that have not been waited for -/
  table : List Entry
  /-- number of processes started -/
  next : Nat
  /-- the process that `_create_process` has started -/
  ours : Option Nat
  /-- calls of `kill` that are due -/
  timers : Nat
  /-- signals delivered: to which process, and which -/
  sent : List (Nat × Int)
  /-- answers of `pid` -/
  answers : List (Option Nat)
  deriving DecidableEq, Repr

/-- Before the actor is created, with other processes running. -/
def s0 : S where
  p := none
  table := []
  next := 0
  ours := none
  timers := 0
  sent := []
  answers := []

/-- The conversion `(int)signal`, base/src/process.ext.c:234. -/
def toInt (n : Int) : Int := (n + 2 ^ 31) % 2 ^ 32 - 2 ^ 31

/-- The system call `kill`: the signal goes to the process that has the number now. -/
def killSys (s : S) (pid : Nat) (n : Int) : S :=
  match s.table.find? (fun e => e.pid = pid) with
  | none => s
  | some e => if 1 ≤ n ∧ n ≤ 64 then { s with sent := s.sent ++ [(e.inc, n)] } else s

/-- `signal`, base/src/process.ext.c:227-236. -/
def signal (s : S) (n : Int) : S :=
  match s.p with
  | none => s
  | some pid => killSys s pid (toInt n)

/-- What can happen. -/
inductive Ev
  /-- `_create_process` starts the process, with a number that is free -/
  | spawn (pid : Nat)
  /-- another process starts -/
  | other (pid : Nat)
  /-- another process is waited for -/
  | otherGone (inc : Nat)
  /-- `waitpid` and `exit_handler` -/
  | exit
  /-- a call of `signal` -/
  | signal (n : Int)
  /-- a call of `stop` -/
  | stop
  /-- the second of `stop` is over: `kill()` -/
  | fire
  /-- a call of `pid` -/
  | pid
  deriving DecidableEq, Repr

/-- One event: `none` if it cannot happen now. -/
def step (s : S) : Ev → Option S
  | .spawn pid =>
    if s.ours = none ∧ ∀ e ∈ s.table, e.pid ≠ pid then
      some { s with p := some pid, table := s.table ++ [⟨pid, s.next⟩], ours := some s.next, next := s.next + 1 }
    else none
  | .other pid =>
    if ∀ e ∈ s.table, e.pid ≠ pid then some { s with table := s.table ++ [⟨pid, s.next⟩], next := s.next + 1 } else none
  | .otherGone i => if s.ours ≠ some i then some { s with table := s.table.filter (fun e => e.inc ≠ i) } else none
  | .exit => match s.ours with
    | none => none
    | some i => if ∃ e ∈ s.table, e.inc = i then
        some { s with table := s.table.filter (fun e => e.inc ≠ i), p := none }
      else none
  | .signal n => some (signal s n)
  | .stop => some { signal s 15 with timers := s.timers + 1 }
  | .fire => if s.timers = 0 then none else some (signal { s with timers := s.timers - 1 } 9)
  | .pid => some { s with answers := s.answers ++ [s.p] }

/-- The states that can be reached. -/
inductive Reach : S → Prop
  | init : Reach s0
  | step {s e s'} : Reach s → step s e = some s' → Reach s'

/-! ## Specification -/

/-- The process that the actor has started is there and was not waited for. -/
def Running (s : S) : Prop := ∃ e ∈ s.table, s.ours = some e.inc

end Verif.Proc.Signal
