import Mathlib.Data.List.Basic
/-!
# Model of RunProcess; C165

The actor RunProcess, base/src/process.act:116-161, with the callbacks of libuv of the actor
Process, base/src/process.ext.c:22-78, and the start of the process, 84-196. A state holds the
attributes of RunProcess, the messages that wait for it, and which callbacks can still come;
an event is a callback of libuv or the handling of a message.

Assumed of libuv, whose source is not in the repository: the callback for a stream is not called
after an error or the end of the stream, `exit_handler` is called at most once, and neither is
called if `uv_spawn` fails. All callbacks of a process run in one thread (`pin_actor_affinity`),
so that the messages come in the order of the callbacks. Not modelled: the text of errors, the
methods signal, kill, terminate and stop (see Verif.Proc.Signal).
-/
namespace Verif.Proc

abbrev Bytes := List UInt8

/-- What `read_stdout` and `read_stderr` get: `nread ≥ 0`, `UV_EOF`, another error. -/
inductive Read
  | data (b : Bytes) | eof | error
  deriving DecidableEq, Repr

/-- Calls of `_on_stdout`, `_on_stderr`, `_on_exit` as messages. -/
inductive Msg
  | out (d : Option Bytes) | err (d : Option Bytes) | exit (code sig : Int)
  deriving DecidableEq, Repr

/-- The callbacks of the program that were called. -/
inductive Told
  | exit (code sig : Int) (out err : Bytes) | error
  deriving DecidableEq, Repr

/-- RunProcess and its process. -/
structure S where
  /-- `_create_process` has run -/
  created : Bool
  /-- further callbacks for stdout can come -/
  outOpen : Bool
  /-- further callbacks for stderr can come -/
  errOpen : Bool
  /-- `exit_handler` was not called yet -/
  alive : Bool
  /-- messages for RunProcess, oldest first -/
  mail : List Msg
  /-- `_process is not None` -/
  process : Bool
  /-- `out_buf` -/
  outBuf : Bytes
  /-- `err_buf` -/
  errBuf : Bytes
  /-- `_out_done` -/
  outDone : Bool
  /-- `_err_done` -/
  errDone : Bool
  /-- `_exited` -/
  exited : Bool
  /-- `_exit_code` -/
  code : Int
  /-- `_signal` -/
  sig : Int
  /-- what the program was told, latest last -/
  told : List Told
  deriving DecidableEq, Repr

/-- The attributes at the beginning, base/src/process.act:125-132. -/
def s0 : S where
  created := false
  outOpen := false
  errOpen := false
  alive := false
  mail := []
  process := false
  outBuf := []
  errBuf := []
  outDone := false
  errDone := false
  exited := false
  code := 0
  sig := 0
  told := []

/-- `_check_done`, base/src/process.act:155-158. -/
def checkDone (s : S) : S :=
  if s.process then
    if s.outDone && s.errDone && s.exited then
      { s with told := s.told ++ [.exit s.code s.sig s.outBuf s.errBuf] }
    else s
  else s

/-- `_on_stdout`, `_on_stderr`, `_on_exit`, base/src/process.act:135-153. -/
def handle (s : S) : Msg → S
  | .out (some d) => { s with outBuf := s.outBuf ++ d }
  | .out none => checkDone { s with outDone := true }
  | .err (some d) => { s with errBuf := s.errBuf ++ d }
  | .err none => checkDone { s with errDone := true }
  | .exit c g => checkDone { s with exited := true, code := c, sig := g }

/-- The argument of the message that `read_stdout` and `read_stderr` send, if any,
base/src/process.ext.c:40-78. -/
def sent : Read → List (Option Bytes)
  | .data b => if b = [] then [] else [some b]
  | .eof => [none]
  | .error => []

/-- Whether a callback can follow. -/
def goesOn : Read → Bool
  | .data _ => true
  | .eof => false
  | .error => false

/-- What can happen. -/
inductive Ev
  /-- `_create_process` runs; `ok` tells whether `cmd` is not empty and `uv_spawn` succeeds -/
  | spawn (ok : Bool)
  /-- RunProcess goes on after the creation of the Process -/
  | resume
  /-- `read_stdout` is called -/
  | out (r : Read)
  /-- `read_stderr` is called -/
  | err (r : Read)
  /-- `exit_handler` is called -/
  | exit (code sig : Int)
  /-- RunProcess handles a message -/
  | deliver
  deriving DecidableEq, Repr

/-- `_create_process`, base/src/process.ext.c:84-196. -/
def spawn (s : S) (ok : Bool) : S :=
  if ok then { s with created := true, outOpen := true, errOpen := true, alive := true }
  else { s with created := true, told := s.told ++ [.error] }

/-- One event: `none` if it cannot happen now. RunProcess waits for the creation of the actor
Process (compiler/lib/src/Acton/Deactorizer.hs:192-197) and handles no message before. -/
def step (s : S) : Ev → Option S
  | .spawn ok => if s.created then none else some (spawn s ok)
  | .resume => if s.created && !s.process then some { s with process := true } else none
  | .out r => if s.outOpen then some { s with outOpen := goesOn r, mail := s.mail ++ (sent r).map .out } else none
  | .err r => if s.errOpen then some { s with errOpen := goesOn r, mail := s.mail ++ (sent r).map .err } else none
  | .exit c g => if s.alive then some { s with alive := false, mail := s.mail ++ [.exit c g] } else none
  | .deliver => match s.process, s.mail with
    | true, m :: ms => some (handle { s with mail := ms } m)
    | _, _ => none

/-- The states after a sequence of events. -/
inductive Run : List Ev → S → Prop
  | nil : Run [] s0
  | snoc {es s e s'} : Run es s → step s e = some s' → Run (es ++ [e]) s'

/-! ## Specification -/

/-- All that the process wrote to stdout, as far as it was read. -/
def outRead : List Ev → Bytes
  | [] => []
  | .out (.data b) :: es => b ++ outRead es
  | _ :: es => outRead es

/-- All that the process wrote to stderr, as far as it was read. -/
def errRead : List Ev → Bytes
  | [] => []
  | .err (.data b) :: es => b ++ errRead es
  | _ :: es => errRead es

end Verif.Proc
