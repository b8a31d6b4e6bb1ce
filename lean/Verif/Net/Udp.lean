import Verif.Net.Tcp
/-!
# Model of the actor UDPConnection; C160, C161

base/src/net.act:84-212 together with the C parts base/src/net.ext.c:371-503. As in the
model of TCPConnection, a state holds the attributes of the actor and what it waits for, and an
event takes one of these and runs the method that it calls. `close()` in `_connect_timeout` is
the local call of the action. Not modelled: sending and receiving (whose errors are reported to
the program too), `__resume__`, `_connections` and the other metrics, addresses.
-/
namespace Verif.Net.Udp

open Verif.Net.Tcp (Fam Phase Addr upd)

/-- The callbacks of the program that were called. -/
inductive Note
  | connect | error
  deriving DecidableEq, Repr

/-- The actor and what it waits for. -/
structure S where
  /-- `_state` -/
  st : Phase
  /-- `_sock`; `none` is -1 -/
  sock : Option Nat
  /-- `_dns_errors` -/
  dnsErrors : Nat
  /-- outstanding lookups -/
  dns : Fam → Nat
  /-- messages `_on_udp_ready` -/
  ready : Nat
  /-- messages `_on_udp_error` -/
  failed : Nat
  /-- calls of `_connect_timeout` that are due -/
  timers : Nat
  /-- open handles of libuv -/
  handles : List Nat
  /-- number of handles created -/
  next : Nat
  /-- what the program was told, latest last -/
  out : List Note

/-- The attributes at the beginning, base/src/net.act:86-97. -/
def s0 : S where
  st := .none
  sock := none
  dnsErrors := 0
  dns := fun _ => 0
  ready := 0
  failed := 0
  timers := 0
  handles := []
  next := 0
  out := []

/-- `_connect4`, `_connect6`, base/src/net.ext.c:390-464: with success the handle stays open and a
message `_on_udp_ready` is sent, otherwise the handle is closed and `_on_udp_error` is sent. -/
def start (s : S) (ok : Bool) : S :=
  if ok then { s with sock := some s.next, handles := s.handles ++ [s.next], next := s.next + 1, ready := s.ready + 1 }
  else { s with next := s.next + 1, failed := s.failed + 1 }

/-- `_connect`, base/src/net.act:176-187. -/
def connect (a : Addr) (ok : Bool) (s : S) : S :=
  match a with
  | .ip _ => start { s with timers := s.timers + 1, st := .connecting } ok
  | .name => { s with timers := s.timers + 1, st := .resolving, dns := fun f => s.dns f + 1 }

/-- The actor after its creation, base/src/net.act:212; `ok` is the result of the setup for an
address. -/
def init (a : Addr) (ok : Bool) : S := connect a ok s0

/-- `_on_dns_error`, base/src/net.act:130-141. -/
def onDnsError (s : S) : S :=
  if s.st ≠ .resolving then s
  else if s.dnsErrors + 1 ≥ 2 then { s with dnsErrors := s.dnsErrors + 1, st := .closed, out := s.out ++ [.error] }
  else { s with dnsErrors := s.dnsErrors + 1 }

/-- `_on_dns_resolve`, base/src/net.act:112-128; `some` tells whether there is an address, `ok`
whether the setup succeeds. -/
def onResolve (s : S) (some ok : Bool) : S :=
  if s.st ≠ .resolving then s
  else if some = false then onDnsError s
  else start { s with st := .connecting } ok

/-- `_on_udp_ready`, base/src/net.act:143-148. -/
def onReady (s : S) : S :=
  if s.st = .connecting then { s with st := .connected, out := s.out ++ [.connect] } else s

/-- `_on_udp_error`, base/src/net.act:150-153. -/
def onError (s : S) : S := { s with st := .closed, out := s.out ++ [.error] }

/-- `close`, base/src/net.ext.c:499-503, with `udp_close_handle`, 371-382. -/
def close (s : S) : S :=
  match s.sock with
  | none => { s with st := .closed }
  | some h => { s with st := .closed, sock := none, handles := s.handles.erase h }

/-- `_connect_timeout`, base/src/net.act:169-174. -/
def onTimeout (s : S) : S :=
  if s.st = .resolving ∨ s.st = .connecting then
    { close s with out := s.out ++ [.error] }
  else s

/-- What can happen. -/
inductive Ev
  /-- a lookup ends without error -/
  | resolved (f : Fam) (some ok : Bool)
  /-- a lookup fails -/
  | dnsError (f : Fam)
  /-- the message `_on_udp_ready` is handled -/
  | ready
  /-- the message `_on_udp_error` is handled -/
  | failed
  /-- a timer fires -/
  | timer
  /-- the program calls `close` -/
  | userClose
  deriving DecidableEq, Repr

/-- One event: `none` if it cannot happen now. -/
def step (s : S) : Ev → Option S
  | .resolved f b ok => if s.dns f = 0 then none else some (onResolve { s with dns := upd s.dns f (s.dns f - 1) } b ok)
  | .dnsError f => if s.dns f = 0 then none else some (onDnsError { s with dns := upd s.dns f (s.dns f - 1) })
  | .ready => if s.ready = 0 then none else some (onReady { s with ready := s.ready - 1 })
  | .failed => if s.failed = 0 then none else some (onError { s with failed := s.failed - 1 })
  | .timer => if s.timers = 0 then none else some (onTimeout { s with timers := s.timers - 1 })
  | .userClose => some (close s)

/-- A sequence of events. -/
def run : S → List Ev → Option S
  | s, [] => some s
  | s, e :: es => match step s e with
    | none => none
    | some s' => run s' es

/-- Nothing is outstanding. -/
def Quiet (s : S) : Prop := (∀ f, s.dns f = 0) ∧ s.ready = 0 ∧ s.failed = 0 ∧ s.timers = 0

end Verif.Net.Udp
