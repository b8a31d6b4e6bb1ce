import Verif.Bytes.Model
import Verif.Str.Utf8
import Verif.Big.Text
/-!
# HTTP messages, client and server (base/src/http.act)

`bytes` are lists of numbers below 256, `str` are lists of code points (C09 to C13 relate `str` to its code points). The
methods `split`, `rstrip` and `strip` of `bytes` are the functions of `Verif/Bytes/Model.lean`. Not modelled: logging, and the
connection objects of `net` (their calls are recorded).
-/
namespace Verif.Http
open Verif Verif.Bytes

abbrev Text := List Nat

def crlf : Bytes := [13, 10]
def crlf2 : Bytes := [13, 10, 13, 10]
/-- "content-length" -/
def sContentLength : Text := [99, 111, 110, 116, 101, 110, 116, 45, 108, 101, 110, 103, 116, 104]
/-- "transfer-encoding" -/
def sTransferEncoding : Text := [116, 114, 97, 110, 115, 102, 101, 114, 45, 101, 110, 99, 111, 100, 105, 110, 103]
/-- "chunked" -/
def sChunked : Text := [99, 104, 117, 110, 107, 101, 100]
/-- "connection" -/
def sConnection : Text := [99, 111, 110, 110, 101, 99, 116, 105, 111, 110]
/-- "close" -/
def sClose : Text := [99, 108, 111, 115, 101]
/-- "1.1" and "1.0" -/
def v11 : Bytes := [49, 46, 49]
def v10 : Bytes := [49, 46, 48]

/-! ## Text -/

/-- A code point that UTF-8 can encode. -/
def scalar (c : Nat) : Bool := decide (c < 0xD800 ∨ 0xE000 ≤ c ∧ c < 0x110000)

/-- One step of a UTF-8 decoder: `utf8proc_iterate`, which rejects overlong forms, surrogates and values above 0x10FFFF. -/
def decode1 (s : Bytes) : Option (Nat × Bytes) :=
  let try_ (k c : Nat) : Option (Nat × Bytes) := if s.take k = Str.enc1 c ∧ scalar c then some (c, s.drop k) else none
  let d (k : Nat) : Nat := s.getD k 0 - 0x80
  match s with
  | [] => none
  | a :: _ =>
    if a < 0x80 then try_ 1 a
    else if a < 0xE0 then try_ 2 ((a - 0xC0) * 64 + d 1)
    else if a < 0xF0 then try_ 3 ((a - 0xE0) * 4096 + d 1 * 64 + d 2)
    else try_ 4 ((a - 0xF0) * 262144 + d 1 * 4096 + d 2 * 64 + d 3)

/-- All of `s`. -/
def decodeAll : Nat → Bytes → Option Text
  | 0, s => if s = [] then some [] else none
  | n + 1, s =>
    if s = [] then some []
    else match decode1 s with
      | none => none
      | some (c, r) => (decodeAll n r).map (c :: ·)

/-- `bytes.decode`: `B_bytesD_decode`, str.c:3065-3067, and `to$str`, str.c:350-399, which stops at the first zero byte. -/
def decode (b : Bytes) : Res Text :=
  let s := b.takeWhile (· ≠ 0)
  match decodeAll s.length s with
  | some t => .ok t
  | none => .raise .valueError

/-- `str.strip(" ")` (C12). -/
def stripSp (t : Text) : Text := ((t.dropWhile (· = 32)).reverse.dropWhile (· = 32)).reverse

/-- `int(s)` and `int(s, base)` for a `str`: `B_intG_new`, int.c:27-37. -/
def toInt (t : Text) (base : Option Int) : Res Int :=
  (Big.setStr (Str.enc t) base).bind fun v => if InI64 v then .ok v else .raise .valueError

/-- `try: … except ValueError:`. -/
def tryValue {α} : Res α → Res (Option α)
  | .ok a => .ok (some a)
  | .raise .valueError => .ok none
  | .raise e => .raise e
  | .ub => .ub
  | .diverge => .diverge

/-- `b[:n]` and `b[n:]` (C01). -/
def upTo (b : Bytes) (n : Int) : Bytes := if n < 0 then b.take (b.length + n).toNat else b.take n.toNat
def from_ (b : Bytes) (n : Int) : Bytes := if n < 0 then b.drop (b.length + n).toNat else b.drop n.toNat

/-! ## Headers: `dict[str, str]` (C06) -/

abbrev Headers := List (Text × Text)

def hset : Headers → Text → Text → Headers
  | [], k, v => [(k, v)]
  | (k', v') :: t, k, v => if k' = k then (k', v) :: t else (k', v') :: hset t k v

def hget : Headers → Text → Option Text
  | [], _ => none
  | (k', v') :: t, k => if k' = k then some v' else hget t k

structure Message where
  start : Bytes
  headers : Headers
  body : Bytes
deriving DecidableEq, Repr

/-! ## Parsing -/

section
variable (lower : Text → Text)

/-- http.act:210-215: the header line with its colon; `none` stands for the exception handler. -/
def headerField (h : Headers) (n v : Bytes) : Res (Option Headers) :=
  tryValue do
    let n ← decode n
    let v ← decode v
    return hset h (lower (stripSp n)) (stripSp v)

/-- http.act:205-215: one iteration. -/
def headerLine (h : Headers) (line : Bytes) : Res (Option Headers) := do
  let hv ← split line [58] (some 1)
  match hv with
  | [n, v] => headerField lower h n v
  | _ => return some h

/-- http.act:203-215: the loop over the header lines. -/
def headerLines : Headers → List Bytes → Res (Option Headers)
  | h, [] => .ok (some h)
  | h, l :: ls => do
    match ← headerLine lower h l with
    | some h => headerLines h ls
    | none => return none

end

/-- What an iteration of the loop of http.act:240-289 does: return `None`, go on with a rest and a body, or return a message
with this body and this rest. -/
inductive Step where
  | stop
  | next (rest body : Bytes)
  | done (rest body : Bytes)

/-- http.act:264-285: a chunk of the given length. The end marker is accepted if two bytes are there, whatever they are. -/
def chunkData (rest body : Bytes) (clen : Int) : Step :=
  if (rest.length : Int) ≥ clen then
    let r := from_ rest clen
    if r.length < 2 ∧ r.take 2 ≠ crlf then .stop
    else if clen = 0 then .done (r.drop 2) (body ++ upTo rest clen)
    else .next (r.drop 2) (body ++ upTo rest clen)
  else .stop

/-- http.act:256-285: a chunk header has been read. One that is no number is skipped. -/
def chunkSize (rest body : Bytes) (h : Text) : Res Step := do
  match ← tryValue (toInt h (some 16)) with
  | none => return .next rest body
  | some clen => return chunkData rest body clen

/-- http.act:246-256. -/
def chunkHeader (m0 m1 body : Bytes) : Res Step := do
  let h ← strip m0 (some crlf)
  if h = [] then return .stop
  else
    match ← tryValue (decode h) with
    | none => return .stop
    | some t => chunkSize m1 body t

/-- http.act:241-289: one iteration. -/
def chunkStep (rest body : Bytes) : Res Step := do
  let mc ← split rest crlf (some 1)
  match mc with
  | [_] => return .stop
  | [m0, m1] => chunkHeader m0 m1 body
  | _ => .raise .valueError

/-- http.act:236-289: the loop; `none` stands for `return None, i`. Every iteration that goes on shortens the rest. -/
def chunkLoop : Nat → Bytes → Bytes → Res (Option (Bytes × Bytes))
  | 0, _, _ => .diverge
  | n + 1, rest, body => do
    match ← chunkStep rest body with
    | .stop => return none
    | .done r b => return some (b, r)
    | .next r b => chunkLoop n r b

/-- http.act:221-231: a body of given length. -/
def sizedBody (v : Text) (r : Bytes) : Res (Option (Bytes × Bytes)) := do
  let clen ← toInt (stripSp v) none
  if (r.length : Int) ≥ clen then return some (upTo r clen, from_ r clen) else return none

/-- http.act:233-289, and 295. -/
def codedBody (v : Text) (r : Bytes) : Res (Option (Bytes × Bytes)) := do
  let tenc ← split (stripSp v) [44] none
  if sChunked ∈ tenc then chunkLoop (r.length + 1) r [] else return none

/-- http.act:218-295: body and rest. -/
def messageBody (h : Headers) (r : Bytes) : Res (Option (Bytes × Bytes)) :=
  match hget h sContentLength, hget h sTransferEncoding with
  | some v, _ => sizedBody v r
  | none, some v => codedBody v r
  | none, none => .ok (some ([], r))

section
variable (lower : Text → Text)

/-- http.act:200-295: the head has been found. -/
def messageFrom (i head r : Bytes) : Res (Option Message × Bytes) := do
  let hl ← split head crlf none
  let start ← rstrip (hl.headD []) (some crlf)
  match ← headerLines lower [] hl.tail with
  | none => return (none, i)
  | some h =>
    match ← messageBody h r with
    | none => return (none, i)
    | some (b, rest) => return (some ⟨start, h, b⟩, rest)

/-- `parse_message`, http.act:195-295. -/
def parseMessage (i : Bytes) : Res (Option Message × Bytes) := do
  let rs ← split i crlf2 (some 1)
  match rs with
  | [_] => return (none, i)
  | head :: r :: _ => messageFrom lower i head r
  | [] => .raise .indexError

structure Request where
  method : Text
  path : Text
  version : Bytes
  headers : Headers
  body : Bytes
deriving DecidableEq, Repr

structure Response where
  version : Bytes
  status : Int
  headers : Headers
  body : Bytes
deriving DecidableEq, Repr

/-- http.act:312-319 and 331-339: the version behind the slash. -/
def versionOf (p : Bytes) : Res (Option Bytes) := do
  let vp ← split p [47] (some 1)
  match vp with
  | [_, v] => return if v ≠ v11 ∧ v ≠ v10 then none else some v
  | _ => return none

/-- http.act:301-320: the start line of a request. -/
def requestOf (m : Message) : Res (Option Request) := do
  let sl ← split m.start [32] none
  match sl with
  | [a, b, c] =>
    match ← tryValue (do let a ← decode a; let b ← decode b; return (a, b)) with
    | none => return none
    | some (a, b) =>
      match ← versionOf c with
      | none => return none
      | some v => return some ⟨a, b, v, m.headers, m.body⟩
  | _ => return none

/-- `parse_request`, http.act:298-322. An invalid start line gives up the whole input. -/
def parseRequest (i : Bytes) : Res (Option Request × Bytes) := do
  match ← parseMessage lower i with
  | (none, _) => return (none, i)
  | (some m, rest) =>
    match ← requestOf m with
    | none => return (none, [])
    | some r => return (some r, rest)

/-- http.act:327-348: the start line of a response. -/
def responseOf (m : Message) : Res (Option Response) := do
  let sl ← split m.start [32] none
  match sl with
  | a :: b :: _ =>
    match ← versionOf a with
    | none => return none
    | some v =>
      match ← tryValue (do let b ← decode b; toInt b none) with
      | none => return none
      | some st => return some ⟨v, st, m.headers, m.body⟩
  | _ => return none

/-- `parse_response`, http.act:324-349. -/
def parseResponse (i : Bytes) : Res (Option Response × Bytes) := do
  match ← parseMessage lower i with
  | (none, _) => return (none, i)
  | (some m, rest) =>
    match ← responseOf m with
    | none => return (none, [])
    | some r => return (some r, rest)

/-! ## Building -/

/-- "Host", "User-Agent", "Accept", "Connection", "Content-Length" and what they are set to by http.act:80-91. -/
def hHost : Text := [72, 111, 115, 116]
def hUserAgent : Text := [85, 115, 101, 114, 45, 65, 103, 101, 110, 116]
def hAccept : Text := [65, 99, 99, 101, 112, 116]
def hConnection : Text := [67, 111, 110, 110, 101, 99, 116, 105, 111, 110]
def hContentLength : Text := [67, 111, 110, 116, 101, 110, 116, 45, 76, 101, 110, 103, 116, 104]
def sHost : Text := [104, 111, 115, 116]
def sUserAgent : Text := [117, 115, 101, 114, 45, 97, 103, 101, 110, 116]
def sAccept : Text := [97, 99, 99, 101, 112, 116]
def vUserAgent : Text := [65, 99, 116, 111, 110, 32, 72, 84, 84, 80, 32, 67, 108, 105, 101, 110, 116]
def vAccept : Text := [42, 47, 42]
def vConnection : Text := [107, 101, 101, 112, 45, 97, 108, 105, 118, 101]

/-- `str(n)` of a natural number. -/
def decText (n : Nat) : Text := Big.dec n

/-- http.act:80-91: one of the default headers. `ls` are the lower-case names that were given. -/
def default_ (ls : List Text) (l k v : Text) (h : Headers) : Headers := if l ∈ ls then h else hset h k v

/-- http.act:76-91: the headers with their defaults. They are added to the caller's dictionary. -/
def withDefaults (host : Text) (h : Headers) (body : Bytes) : Headers :=
  let ls := h.map (fun p => lower p.1)
  default_ ls sContentLength hContentLength (decText body.length)
    (default_ ls sConnection hConnection vConnection
      (default_ ls sAccept hAccept vAccept (default_ ls sUserAgent hUserAgent vUserAgent (default_ ls sHost hHost host h))))

/-- http.act:93-94. -/
def headerText (p : Text × Text) : Bytes := Str.enc p.1 ++ [58, 32] ++ Str.enc p.2

/-- `build_request`, http.act:74-100; the result is also the caller's dictionary afterwards. -/
def buildRequest (host : Text) (method path version : Bytes) (h : Headers) (body : Bytes) : Res (Bytes × Headers) := do
  let h' := withDefaults lower host h body
  let start := method ++ [32] ++ path ++ [32, 72, 84, 84, 80, 47] ++ version
  let res ← join crlf (start :: h'.map headerText ++ [crlf])
  return (if body.length > 0 then res ++ body else res, h')

/-- "Server", "Content-Type", "Date" and what the first two are set to by http.act:112-117. -/
def hServer : Text := [83, 101, 114, 118, 101, 114]
def hContentType : Text := [67, 111, 110, 116, 101, 110, 116, 45, 84, 121, 112, 101]
def hDate : Text := [68, 97, 116, 101]
def sServer : Text := [115, 101, 114, 118, 101, 114]
def sContentType : Text := [99, 111, 110, 116, 101, 110, 116, 45, 116, 121, 112, 101]
def sDate : Text := [100, 97, 116, 101]
def vServer : Text := [65, 99, 116, 111, 110, 32, 72, 84, 84, 80, 32, 83, 101, 114, 118, 101, 114]
def vContentType : Text := [116, 101, 120, 116, 47, 104, 116, 109, 108, 59, 32, 99, 104, 97, 114, 115, 101, 116, 61, 117, 116, 102, 45, 56]

/-- http.act:111-117: the headers with their defaults; `date` is the text of the present time (C35, C39). -/
def responseDefaults (date : Text) (h : Headers) : Headers :=
  let ls := h.map (fun p => lower p.1)
  default_ ls sDate hDate date (default_ ls sContentType hContentType vContentType (default_ ls sServer hServer vServer h))

/-- http.act:107-108. -/
def reasonText : Option Bytes → Bytes
  | none => []
  | some r => 32 :: r

/-- `build_response`, http.act:103-131, for a status that is not negative; `reason` is the entry of `responses`,
http.act:7-71, and `b` the encoded body. -/
def buildResponse (version : Bytes) (status : Nat) (reason : Option Bytes) (date : Text) (h : Headers) (b : Bytes) :
    Res (Bytes × Headers) := do
  let start := [72, 84, 84, 80, 47] ++ version ++ [32] ++ decText status ++ reasonText reason
  let h' := responseDefaults lower date h
  let sent := h'.filter (fun p => lower p.1 ≠ sContentLength) ++ [(hContentLength, decText b.length)]
  let res ← join crlf (start :: sent.map headerText ++ [crlf])
  return (if b.length > 0 then res ++ b else res, h')

/-! ## Client -/

/-- The variables of `Client` that matter here: `buf`, the outstanding requests (only their identity), the responses handed
to the callbacks with the identity of the request, and the number of times the connection was closed and opened again. -/
structure Client where
  buf : Bytes
  waiting : List Nat
  delivered : List (Nat × Response)
  reconnects : Nat
deriving DecidableEq

/-- http.act:631-635. -/
def closes (h : Headers) : Bool := hget h sConnection = some sClose

/-- http.act:628-645: the loop of `_on_con_receive`. An exception of `parse_response` leaves the method. -/
def clientLoop : Nat → Client → Res Client
  | 0, _ => .diverge
  | n + 1, c => do
    match ← parseResponse lower c.buf with
    | (none, b) => return { c with buf := b }
    | (some r, b) =>
      let rc := if closes r.headers then c.reconnects + 1 else c.reconnects
      match c.waiting with
      | [] => return { c with buf := b, reconnects := rc }
      | w :: ws => clientLoop n ⟨b, ws, c.delivered ++ [(w, r)], rc⟩

/-- `_on_con_receive`, http.act:623-645. -/
def clientReceive (c : Client) (d : Bytes) : Res Client :=
  clientLoop lower ((c.buf ++ d).length + 1) { c with buf := c.buf ++ d }

/-! ## Server -/

/-- The variables of `Server` and `TLSServer`, http.act:355-362 and 446-453, and what the server has done: the requests handed to the
callback, the responses written and the times the connection was closed. Responses are given by their identity. -/
structure Server where
  cb : Bool
  version : Option Bytes
  buf : Bytes
  close : Bool
  queries : Nat
  responses : Nat
  handed : List Request
  sent : List Nat
  closed : Nat
deriving DecidableEq

def Server.init : Server := ⟨false, none, [], true, 0, 0, [], [], 0⟩

/-- `cb_install`, http.act:364-368 and 455-459: a request that is already there is parsed and dropped. -/
def install (s : Server) : Res Server := do
  if s.buf ≠ [] then
    let p ← parseRequest lower s.buf
    return { s with cb := true, buf := p.2 }
  else return { s with cb := true }

/-- http.act:387-402: `close_connection`. -/
def closeAfter (v : Bytes) (h : Headers) (old : Bool) : Bool :=
  if v = v10 then
    match hget h sConnection with
    | some c => if c = sClose then true else old
    | none => true
  else if v = v11 then
    if hget h sConnection = some sClose then true else false
  else old

/-- http.act:380-424: a request has been parsed. -/
def accept (s : Server) (r : Request) : Server :=
  let v := s.version.getD r.version
  { s with
    version := some v
    closed := if s.version.isSome ∧ v ≠ r.version then s.closed + 1 else s.closed
    close := closeAfter v r.headers s.close
    queries := s.queries + 1
    handed := s.handed ++ [r] }

/-- `on_conn_receive`, http.act:370-425 and 461-516. -/
def serverReceive (s : Server) (d : Bytes) : Res Server := do
  if s.cb = false then return { s with buf := s.buf ++ d }
  else
    match ← parseRequest lower (s.buf ++ d) with
    | (none, b) => return { s with buf := b }
    | (some r, b) => return accept { s with buf := b } r

/-- `respond` and `send_response`, http.act:405-416, 434-440, 496-507 and 525-531: the response `i` of the application. The test reads the
variables of the actor at the time of the call. (The counters are `u64`; they do not overflow in fewer than `2^64` requests.) -/
def respond (s : Server) (i : Nat) : Server :=
  if s.queries = s.responses + 1 then
    { s with
      sent := if s.version.isSome then s.sent ++ [i] else s.sent
      closed := if s.close then s.closed + 1 else s.closed
      responses := s.responses + 1 }
  else s

end
end Verif.Http
