import Verif.Common
/-!
# Model of the reading of packets from sockets and of the comparison of addresses (backend/comm.c, backend/client_api.c)

A packet is its length in four bytes, least significant first, and that many bytes. The socket is the list of
bytes that the peer has sent before it closes the connection; how many of them a call of `read` gives, and when it
fails, is arbitrary.
-/
namespace Verif.Comm
open Verif

/-- A socket: the bytes to come, and the behaviour of the next calls of `read`: `none` fails, `some k` gives at most
`k + 1` bytes. Afterwards calls give as many bytes as there are and asked for. -/
structure Src where
  bytes : List Nat
  orc : List (Option Nat)

/-- `read(fd, buf, n)` for positive `n`: `none` is a negative result, no bytes mean that the connection is closed. -/
def rd (s : Src) (n : Nat) : Option (List Nat) × Src :=
  match s.orc with
  | [] => (some (s.bytes.take n), ⟨s.bytes.drop n, []⟩)
  | none :: o => (none, ⟨s.bytes, o⟩)
  | some k :: o => (some (s.bytes.take (Nat.min n (k + 1))), ⟨s.bytes.drop (Nat.min n (k + 1)), o⟩)

/-- `*((int *)inbuf)` after `bzero`, comm.c:372-390. -/
def headerVal (h : List Nat) : Int :=
  wrap32 (h.getD 0 0 + 256 * h.getD 1 0 + 65536 * h.getD 2 0 + 16777216 * h.getD 3 0)

/-- `announced_msg_len` and the part of the packet that has been read: `read_buf_offset` is its length. -/
structure St where
  ann : Int
  body : List Nat

inductive Packet
  | packet (body : List Nat)
  | closed
  deriving DecidableEq

/-- The part of the loop that reads the rest of the packet, comm.c:397-428: the result, or what to go on with. The
buffer has `size` bytes, of which the first four hold the length. -/
def readBody (size : Nat) (st : St) (src : Src) : Res (Packet × St × Src) ⊕ (St × Src) :=
  if st.ann ≤ 0 then .inr (⟨st.ann, []⟩, src)
  else
    match rd src (st.ann.toNat - st.body.length) with
    | (none, src) => .inr (st, src)
    | (some [], src) => .inl (.ok (.closed, st, src))
    | (some d, src) =>
      if 4 + st.body.length + d.length > size then .inl .ub
      else if (d.length : Int) < st.ann - st.body.length then .inr (⟨st.ann, st.body ++ d⟩, src)
      else if st.ann = d.length then .inl (.ok (.packet (st.body ++ d), st, src))
      else .inl (.raise .assertFail)

/-- One round of the loop, comm.c:364-431. -/
def round (size : Nat) (st : St) (src : Src) : Res (Packet × St × Src) ⊕ (St × Src) :=
  if ¬ st.body.length < size - 4 then .inl (.raise .assertFail)
  else if st.body.length = 0 then
    match rd src 4 with
    | (none, src) => .inr (st, src)
    | (some [], src) => .inl (.ok (.closed, st, src))
    | (some h, src) => readBody size ⟨headerVal h, []⟩ src
  else readBody size st src

/-- The loop of `read_full_packet`, comm.c:364-433, and of `comm_thread_loop`, client_api.c:379-450, which is the same,
for at most `fuel` rounds. -/
def loop (size : Nat) : Nat → St → Src → Res (Packet × St × Src)
  | 0, _, _ => .diverge
  | fuel + 1, st, src =>
    match round size st src with
    | .inl r => r
    | .inr (st, src) => loop size fuel st src

/-- `read_full_packet`, comm.c:358-437: its variables are local. -/
def readFullPacket (size fuel : Nat) (src : Src) : Res (Packet × Src) := do
  let r ← loop size fuel ⟨-1, []⟩ src
  return (r.1, r.2.2)

/-- The part of `comm_thread_loop` that reads a packet from one of its sockets, client_api.c:377-452: its variables are
those of the loop over all sockets, and `read_buf_offset` is set back only after a packet. -/
def clientRead (size fuel : Nat) (st : St) (src : Src) : Res (Packet × St × Src) := do
  let r ← loop size fuel st src
  match r.1 with
  | .packet b => return (.packet b, ⟨r.2.1.ann, []⟩, r.2.2)
  | .closed => return (.closed, r.2.1, r.2.2)

/-! ### Addresses -/

/-- `struct sockaddr_in`: address and port in the byte order of the host. -/
structure Addr where
  addr : Nat
  port : Nat
  deriving DecidableEq

/-- `sockaddr_cmp`, comm.c:439-471, for `AF_INET`: the difference of the addresses, which are `uint32_t`, is converted
to `int`. -/
def sockaddrCmp (x y : Addr) : Int :=
  if x.addr ≠ y.addr then wrap32 ((x.addr : Int) - y.addr)
  else if x.port ≠ y.port then (x.port : Int) - y.port
  else 0

end Verif.Comm
