/-!
# Model of the actor TCPConnection

base/src/net.act:254-434 together with the C parts base/src/net.ext.c:687-868. One state holds
the attributes of the actor and what the actor waits for: outstanding lookups, connect requests,
timers, shutdowns and messages. An event takes one of these and runs the method that it calls.
A callback of libuv sends a message to the actor (`self->$class->_on_connect4(self)` in
net.ext.c:716-741, `__asyn__` in the others); an event stands for the callback and the handling
of its message, so all orders of messages are covered, also those that one queue excludes.

The code for IPv4 and IPv6 is the same up to names; it is modelled once, over `Fam`.
Not modelled: reading and writing data, the metrics on bytes, `__resume__`, the address strings and
the port, the failures of `uv_tcp_init`, `uv_ip4_addr`, `uv_tcp_connect` (whose results the code
ignores) and of `uv_read_start`, empty results of a successful lookup.
-/
namespace Verif.Net.Tcp

/-- IPv4 or IPv6. -/
inductive Fam
  | v4 | v6
  deriving DecidableEq, Repr

/-- The other family. -/
def Fam.other : Fam → Fam
  | .v4 => .v6
  | .v6 => .v4

/-- `_state`, base/src/net.act:266-271. -/
inductive Phase
  | none | resolving | connecting | connected | closed
  deriving DecidableEq, Repr

/-- `_sock4_state`, `_sock6_state`, base/src/net.act:260, 263: the values that are assigned. -/
inductive Sub
  | none | connecting | connected
  deriving DecidableEq, Repr

/-- What the argument of `close` does: `_on_close` of `_connect_timeout` (base/src/net.act:390-392),
`_connect` (395), or a callback of the program. -/
inductive Cb
  | timeout | reconnect | user
  deriving DecidableEq, Repr

/-- The callbacks of the program that were called. -/
inductive Note
  | connect | error | closed | remoteClose
  deriving DecidableEq, Repr

/-- The address is an IPv4 or IPv6 address, or a name, base/src/net.act:400-412. -/
inductive Addr
  | ip (f : Fam)
  | name
  deriving DecidableEq, Repr

/-- The actor and what it waits for. -/
structure S where
  /-- `_state` -/
  st : Phase
  /-- `_sock4_state`, `_sock6_state` -/
  sub : Fam → Sub
  /-- `_sock4_error != ""`, `_sock6_error != ""`; the messages are never empty (net.ext.c:721, 734) -/
  err : Fam → Bool
  /-- `_sock`; `none` is -1 -/
  sock : Option Nat
  /-- `_sock4`, `_sock6` -/
  sockf : Fam → Option Nat
  /-- outstanding lookups -/
  dns : Fam → Nat
  /-- lookups that will be repeated after 0.1 s -/
  retry : Fam → Nat
  /-- handles with an outstanding connect request -/
  req : Fam → List Nat
  /-- calls of `_connect_timeout` that are due -/
  timers : Nat
  /-- outstanding shutdowns with the callback of `close` -/
  shut : List (Nat × Cb)
  /-- callbacks of `close` that were sent and are not handled yet -/
  cbs : List Cb
  /-- open handles of libuv -/
  handles : List Nat
  /-- handles that are read from -/
  reading : List Nat
  /-- number of handles created -/
  next : Nat
  /-- what the program was told, latest last -/
  out : List Note
  /-- a handle was closed twice, or the pointer -1 was used -/
  crash : Bool

/-- Change one entry. -/
def upd {α} (g : Fam → α) (f : Fam) (x : α) : Fam → α := fun f' => if f' = f then x else g f'

/-- The attributes at the beginning, base/src/net.act:256-271. -/
def s0 : S where
  st := .none
  sub := fun _ => .none
  err := fun _ => false
  sock := none
  sockf := fun _ => none
  dns := fun _ => 0
  retry := fun _ => 0
  req := fun _ => []
  timers := 0
  shut := []
  cbs := []
  handles := []
  reading := []
  next := 0
  out := []
  crash := false

/-- `_connect4`, `_connect6`, base/src/net.ext.c:743-775. -/
def connectF (s : S) (f : Fam) : S :=
  { s with sockf := upd s.sockf f (some s.next), req := upd s.req f (s.req f ++ [s.next]),
           handles := s.handles ++ [s.next], next := s.next + 1 }

/-- Both start a connection over one family, base/src/net.act:287-291, 298-302 and 400-407. -/
def begin (s : S) (f : Fam) : S :=
  connectF { s with sub := upd s.sub f .connecting, st := .connecting } f

/-- `_connect`, base/src/net.act:397-412. -/
def connect (a : Addr) (s : S) : S :=
  match a with
  | .ip f => begin { s with timers := s.timers + 1 } f
  | .name => { s with timers := s.timers + 1, st := .resolving, dns := fun f => s.dns f + 1 }

/-- The actor after its creation, base/src/net.act:434. -/
def init (a : Addr) : S := connect a s0

/-- `_on_tcp_error`, base/src/net.act:308-328. -/
def onTcpError (s : S) (f : Fam) : S :=
  { s with err := upd s.err f true,
           out := if s.sub f.other = .none ∨ s.err f.other = true then s.out ++ [.error] else s.out }

/-- `_on_connect`, base/src/net.act:357-373, with `_read_start`, base/src/net.ext.c:777-791, which
uses the pointer -1 if there is no socket. -/
def onConnect (s : S) (sock : Option Nat) : S :=
  if s.st = .connecting then
    { s with st := .connected, sock := sock, reading := sock.toList ++ s.reading,
             crash := s.crash || sock.isNone, out := s.out ++ [.connect] }
  else s

/-- `_on_connect4`, `_on_connect6`, base/src/net.act:338-354. -/
def onConnectF (s : S) (f : Fam) : S :=
  if s.sub f.other = .connected then { s with sub := upd s.sub f .connected, err := upd s.err f false }
  else onConnect { s with sub := upd s.sub f .connected, err := upd s.err f false } (s.sockf f)

/-- `close`, base/src/net.ext.c:837-868; `ok` tells whether `uv_shutdown` accepts the request. -/
def close (s : S) (cb : Cb) (ok : Bool) : S :=
  match s.sock with
  | none => { s with cbs := s.cbs ++ [cb] }
  | some h =>
    if ok then { s with shut := s.shut ++ [(h, cb)], sock := none, sockf := fun _ => none }
    else { s with cbs := s.cbs ++ [cb], sock := none, sockf := fun _ => none }

/-- `_connect_timeout`, base/src/net.act:386-392. -/
def onTimeout (s : S) (ok : Bool) : S :=
  if s.st = .connecting then close { s with st := .closed } .timeout ok else s

/-- A callback of `close` is handled, base/src/net.act:390-391, 395. -/
def onClosed (a : Addr) (s : S) : Cb → S
  | .timeout => { s with out := s.out ++ [.error] }
  | .reconnect => connect a s
  | .user => { s with out := s.out ++ [.closed] }

/-- `uv_close`; a handle must not be closed twice. -/
def closeHandle (s : S) (h : Nat) : S :=
  { s with handles := s.handles.erase h, crash := s.crash || !s.handles.contains h }

/-- What can happen. -/
inductive Ev
  /-- a lookup succeeds -/
  | resolved (f : Fam)
  /-- a lookup fails -/
  | dnsError (f : Fam)
  /-- a lookup is repeated -/
  | again (f : Fam)
  /-- a connect request succeeds -/
  | connOk (f : Fam) (h : Nat)
  /-- a connect request fails -/
  | connErr (f : Fam) (h : Nat)
  /-- a timer fires -/
  | timer (ok : Bool)
  /-- a shutdown is complete -/
  | shutdown (h : Nat) (cb : Cb)
  /-- the callback of `close` is handled -/
  | callback (cb : Cb)
  /-- the peer closes the connection -/
  | eof (h : Nat)
  /-- the program calls `close` -/
  | userClose (ok : Bool)
  /-- the program calls `reconnect` -/
  | userReconnect (ok : Bool)
  deriving DecidableEq, Repr

/-- One event: `none` if it cannot happen now. -/
def step (a : Addr) (s : S) : Ev → Option S
  -- base/src/net.act:287-291, 298-302
  | .resolved f => if s.dns f = 0 then none else some (begin { s with dns := upd s.dns f (s.dns f - 1) } f)
  -- base/src/net.act:293-295, 304-306
  | .dnsError f => if s.dns f = 0 then none else
      some { s with dns := upd s.dns f (s.dns f - 1),
                    retry := if s.st = .resolving then upd s.retry f (s.retry f + 1) else s.retry }
  | .again f => if s.retry f = 0 then none else
      some { s with retry := upd s.retry f (s.retry f - 1), dns := upd s.dns f (s.dns f + 1) }
  -- base/src/net.ext.c:717-741
  | .connOk f h => if h ∈ s.req f then some (onConnectF { s with req := upd s.req f ((s.req f).erase h) } f) else none
  | .connErr f h => if h ∈ s.req f then some (onTcpError { s with req := upd s.req f ((s.req f).erase h) } f) else none
  | .timer ok => if s.timers = 0 then none else some (onTimeout { s with timers := s.timers - 1 } ok)
  -- `after_shutdown`, base/src/net.ext.c:827-835
  | .shutdown h cb => if (h, cb) ∈ s.shut then
      some (closeHandle { s with shut := s.shut.erase (h, cb), cbs := s.cbs ++ [cb] } h) else none
  | .callback cb => if cb ∈ s.cbs then some (onClosed a { s with cbs := s.cbs.erase cb } cb) else none
  -- `netQ_TCPConnection__on_receive`, base/src/net.ext.c:687-700
  | .eof h => if h ∈ s.reading ∧ h ∈ s.handles then
      some { closeHandle s h with sock := none, sockf := fun _ => none, out := s.out ++ [.remoteClose] } else none
  | .userClose ok => some (close s .user ok)
  | .userReconnect ok => some (close s .reconnect ok)

/-- A sequence of events. -/
def run (a : Addr) : S → List Ev → Option S
  | s, [] => some s
  | s, e :: es => match step a s e with
    | none => none
    | some s' => run a s' es

end Verif.Net.Tcp
