import Verif.VClock.Model
/-!
# Model of the installation of membership views (backend/client_api.c, backend/actondb.c)

A view is identified by a vector clock. Connections, the lists of peers and the placement of actors are not
modelled, nor is the order of the messages of different senders: a run is an arbitrary sequence of messages.
-/
namespace Verif.View
open Verif VClock

/-- The loop of `update_or_replace_vc`, vector_clock.c:116-127: the components, and whether a node id differs
(the loop stops there, the counters before it are already overwritten). -/
def overwriteLoop : List (Int × Int) → List (Int × Int) → List (Int × Int) × Bool
  | d :: ds, s :: ss =>
    if d.1 ≠ s.1 then (d :: ds, true)
    else ((d.1, s.2) :: (overwriteLoop ds ss).1, (overwriteLoop ds ss).2)
  | ds, _ => (ds, false)

/-- `update_or_replace_vc`, vector_clock.c:110-138; `copy_vc` gives a clock with the capacity of the source. -/
def updateOrReplace (dest : Option VC) (src : VC) : VC :=
  match dest with
  | none => src
  | some d =>
    if d.ids.length ≠ src.ids.length then src
    else if (overwriteLoop d.ids src.ids).2 then src
    else ⟨(overwriteLoop d.ids src.ids).1, d.cap⟩

/-- A notified view: its clock and the run-time systems that it lists, with the status (live or not). -/
structure Msg where
  vc : VC
  clients : List (Int × Bool)

/-- The loop over the listed run-time systems, client_api.c:251-270: `none` if the local one is listed as not live,
otherwise whether it is listed. -/
def findLocal (me : Int) : List (Int × Bool) → Bool → Option Bool
  | [], found => some found
  | c :: cs, found =>
    if c.1 = me then if c.2 then findLocal me cs true else none
    else findLocal me cs found

/-- `install_gossiped_view`, client_api.c:217-316: the view of the client afterwards. -/
def installClient (me : Int) (view : Option VC) (m : Msg) : Option VC :=
  if view.isSome ∧ (compare view (some m.vc) = .incomparable ∨ compare view (some m.vc) = .disjoint) then view
  else if view.isSome ∧ compare view (some m.vc) = .after then view
  else match findLocal me m.clients false with
    | some true => some (updateOrReplace view m.vc)
    | _ => view

/-- `install_agreed_view`, actondb.c:1945-2041: the view of the server afterwards. -/
def installServer (view : Option VC) (vc : VC) : Option VC :=
  if compare view (some vc) = .after then view else some (updateOrReplace view vc)

/-- The answers to a proposal, actondb.c:106-108. -/
inductive Ack
  | accepted | amended | rejected
  deriving DecidableEq, Repr

/-- The status of a proposal, actondb.c:104-108. -/
inductive Status
  | nonExisting | active | accepted | amended | rejected
  deriving DecidableEq, Repr

/-- The part of `membership` (actondb.c) that belongs to views and proposals; `out` is the nonce of the outstanding
proposal (`none` if `outstanding_view_id` is `NULL`), `acks` is `outstanding_proposal_acks`, `lc` the clock of
the server. -/
structure Node where
  view : Option VC
  lc : VC
  out : Option Int
  status : Status
  acks : Int

/-- What happens at a server. The numbers `nonce` and `peers` are those of a proposal that it makes: a random
number, and the number of live peers to which it is sent. -/
inductive Ev
  | propose (nonce : Int) (peers : Nat)
  | response (id : Int) (ack : Ack) (vc : VC) (nonce : Int) (peers : Nat)
  | notify (vc : VC)

/-- What the server does. -/
inductive Out
  | none
  | proposed (nonce : Int) (peers : Nat)
  | installed (vc : VC)
  deriving DecidableEq

/-- The clock after a message of a server, actondb.c:2257-2263. -/
def tick (me : Int) (lc vc : VC) : Res VC := do
  let l ← update lc vc.ids
  let i ← increment l me
  return i.getD l

/-- `propose_local_membership`, actondb.c:1582-1628. -/
def propose (n : Node) (nonce : Int) (peers : Nat) : Node × Out :=
  (⟨n.view, n.lc, some nonce, .active, peers⟩, .proposed nonce peers)

/-- The status after a response, actondb.c:1842-1878, without the checks for the number of responses. -/
def nextStatus (s : Status) (acks : Int) : Ack → Status
  | .accepted => if acks = 0 ∧ s = .active then .accepted else s
  | .amended => if s ≠ .rejected then .amended else s
  | .rejected => .rejected

/-- `*merged_membership != NULL` after a response, actondb.c:1842-1871. -/
def merged (s : Status) (acks : Int) : Ack → Bool
  | .accepted => decide (acks = 0)
  | .amended => decide (s ≠ .rejected ∧ acks = 0)
  | .rejected => false

/-- The case of a response in `handle_server_message`, actondb.c:2275-2329 and 2360-2379, after
`handle_agreement_response_message`, actondb.c:1815-1884. `peers` is the number of live peers in the merged
responses, to which the result is sent and which are counted again (l. 2377). -/
def respond (n : Node) (id : Int) (ack : Ack) (nonce : Int) (peers : Nat) : Res (Node × Out) :=
  if n.out = none then .ok (n, .none)
  else if n.out ≠ some id then .ok (n, .none)
  else if n.acks - 1 < 0 then .raise .assertFail
  else
    let acks := n.acks - 1
    let st := nextStatus n.status acks ack
    if (st = .amended ∨ st = .accepted) ∧ acks = 0 ∧ merged n.status acks ack = false then .raise .assertFail
    else if st = .rejected then
      -- no case of its own: the message of a rejected proposal is sent, and `merged_membership` must not be `NULL`
      if merged n.status acks ack then .ok (⟨n.view, n.lc, n.out, st, acks + peers⟩, .none) else .raise .assertFail
    else if acks = 0 then
      if merged n.status acks ack = false then .raise .assertFail
      else if st = .accepted then
        .ok (⟨installServer n.view n.lc, n.lc, n.out, st, acks + peers⟩, .installed n.lc)
      else if st = .amended then .ok (⟨n.view, n.lc, some nonce, .active, peers⟩, .proposed nonce peers)
      else .ok (⟨n.view, n.lc, n.out, st, acks + peers⟩, .none)
    else .ok (⟨n.view, n.lc, n.out, st, acks⟩, .none)

/-- An event at the server `me`; `handle_server_message`, actondb.c:2220-2395. -/
def step (me : Int) (n : Node) : Ev → Res (Node × Out)
  | .propose nonce peers => .ok (propose n nonce peers)
  | .response id ack vc nonce peers => do
    let l ← tick me n.lc vc
    respond ⟨n.view, l, n.out, n.status, n.acks⟩ id ack nonce peers
  | .notify vc => do
    let l ← tick me n.lc vc
    return (⟨installServer n.view vc, l, n.out, n.status, n.acks⟩, .none)

def run (me : Int) : List Ev → Node → Res (Node × List (Ev × Out))
  | [], n => .ok (n, [])
  | e :: es, n => do
    let x ← step me n e
    let y ← run me es x.1
    return (y.1, (e, x.2) :: y.2)

end Verif.View
