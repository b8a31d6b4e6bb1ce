import Mathlib.Data.List.Basic
import Verif.Proc.Run
/-!
# Model of the stdin of a process; C167

`write` and `done_writing` of the actor Process, base/src/process.ext.c:201-215, 238-259, with
`exit_handler`, 22-31. libuv, whose source is not in the repository, is modelled after its
documentation: `uv_write` keeps the order of the writes, writes at once what the pipe takes if no
write waits, and lets the rest wait until the pipe has room; on a handle that is being closed it
returns an error; `uv_close` cancels the writes that wait. The pipe holds at most `cap` bytes.
Errors of the pipe other than its closing by the process (here: the exit of the process) are not
modelled.
-/
namespace Verif.Proc.Stdin

/-- The stdin of a process. -/
structure S where
  /-- `_p` is not 0 -/
  alive : Bool
  /-- the handle `stdin_pipe` is being closed -/
  closed : Bool
  /-- bytes of writes that wait -/
  queue : Bytes
  /-- bytes in the pipe -/
  chan : Bytes
  /-- what the process has read -/
  got : Bytes
  deriving DecidableEq, Repr

/-- After `_create_process`. -/
def s0 : S where
  alive := true
  closed := false
  queue := []
  chan := []
  got := []

/-- What can happen. -/
inductive Ev
  /-- a call of `write`; the pipe takes `n` bytes at once, if no write waits -/
  | write (d : Bytes) (n : Nat)
  /-- libuv writes `n` bytes of those that wait -/
  | flush (n : Nat)
  /-- the process reads `n` bytes -/
  | read (n : Nat)
  /-- a call of `done_writing` -/
  | done
  /-- `exit_handler` -/
  | exit
  deriving DecidableEq, Repr

/-- `write`, base/src/process.ext.c:238-259. -/
def write (s : S) (d : Bytes) (n : Nat) : S :=
  if s.alive = false then s
  else if s.closed then s
  else if s.queue = [] then { s with chan := s.chan ++ d.take n, queue := d.drop n }
  else { s with queue := s.queue ++ d }

/-- `uv_close` of the handle, if it is not being closed. -/
def close (s : S) : S := if s.closed then s else { s with closed := true, queue := [] }

/-- `done_writing`, base/src/process.ext.c:201-215. -/
def done (s : S) : S := if s.alive = false then s else close s

/-- One event, with a pipe of `cap` bytes: `none` if it cannot happen now. -/
def step (cap : Nat) (s : S) : Ev → Option S
  | .write d n => if s.chan.length + (d.take n).length ≤ cap then some (write s d n) else none
  | .flush n => if s.chan.length + (s.queue.take n).length ≤ cap then
      some { s with chan := s.chan ++ s.queue.take n, queue := s.queue.drop n } else none
  | .read n => if s.alive then some { s with got := s.got ++ s.chan.take n, chan := s.chan.drop n } else none
  | .done => some (done s)
  | .exit => if s.alive then some { close s with alive := false, chan := [] } else none

/-- A sequence of events. -/
def run (cap : Nat) : S → List Ev → Option S
  | s, [] => some s
  | s, e :: es => match step cap s e with
    | none => none
    | some s' => run cap s' es

/-! ## Specification -/

/-- What the program has written before `done_writing` or the end of the process. -/
def asked : List Ev → Bytes
  | [] => []
  | .write d _ :: es => d ++ asked es
  | .done :: _ => []
  | .exit :: _ => []
  | _ :: es => asked es

end Verif.Proc.Stdin
