import Verif.Common
/-!
# Model of the client's side of transactions (backend/client_api.c)

A request is sent to all servers that the client knows (client_api.c:1221-1239); the replies are collected
under its nonce. What arrives, and in which order, is arbitrary. Connections, locks and the client's
own copy of the transaction are not modelled.
-/
namespace Verif.Quorum
open Verif

def VAL_COMMIT : Int := 0
def VAL_ABORT : Int := 1
def VAL_ABORT_SCHEMA : Int := -8
def NO_QUORUM_ERR : Int := -1
def NO_SUCH_TXN : Int := -3

/-- `quorum_size`, client_api.c:176. -/
def quorumSize (rf : Nat) : Nat := rf / 2 + 1

/-- `add_reply_to_msg_callback`, client_api.c:3559-3592: the array has `replication_factor` cells
(client_api.c:3553). -/
def addReply (rf : Nat) (replies : List Int) (r : Int) : Res (List Int) :=
  if replies.length < rf then .ok (replies ++ [r]) else .ub

/-- All replies that arrive for a request. -/
def collect (rf : Nat) (replies : List Int) : List Int → Res (List Int)
  | [] => .ok replies
  | r :: rs => do
    let x ← addReply rf replies r
    collect rf x rs

/-- The loop that counts the replies, client_api.c:3197-3212: successes. -/
def countOk : List Int → Nat
  | [] => 0
  | r :: rs => if r = VAL_COMMIT then countOk rs + 1 else countOk rs

/-- `_remote_validate_txn`, client_api.c:3159-3223, with `servers` known servers and the replies that have arrived
when the client goes on. -/
def validate (rf servers : Nat) (arrived : List Int) : Res Int :=
  if servers < quorumSize rf then .ok NO_QUORUM_ERR
  else do
    let replies ← collect rf [] arrived
    if replies.length < quorumSize rf then .ok NO_QUORUM_ERR
    else if countOk replies < quorumSize rf then .ok VAL_ABORT
    else .ok VAL_COMMIT

/-- `_remote_persist_txn`, client_api.c:3312-3378. -/
def persist (rf servers : Nat) (arrived : List Int) : Res Int :=
  if servers < quorumSize rf then .ok NO_QUORUM_ERR
  else do
    let replies ← collect rf [] arrived
    if replies.length < quorumSize rf then .ok NO_QUORUM_ERR
    else if countOk replies < quorumSize rf then .ok NO_QUORUM_ERR
    else .ok 0

/-- The loop of `remote_commit_txn`, client_api.c:3417-3427, for at most `fuel` rounds; `arrived k` are the replies
to the round `k`. The loop has no bound: the result is that of some `fuel` with which it is not `diverge`. -/
def persistLoop (rf servers : Nat) (arrived : Nat → List Int) : Nat → Nat → Res Int
  | 0, _ => .diverge
  | fuel + 1, k => do
    let r ← persist rf servers (arrived k)
    if r = 0 then .ok 0 else persistLoop rf servers arrived fuel (k + 1)

/-- The requests of `remote_commit_txn`, client_api.c:3381-3470, after the validation: the transaction is persisted,
aborted, or left as it is on the servers. -/
inductive After
  | persist | abort | nothing
  deriving DecidableEq

def next (verdict : Int) : After :=
  if verdict = VAL_COMMIT then .persist
  else if verdict = VAL_ABORT ∨ verdict = VAL_ABORT_SCHEMA then .abort
  else .nothing

end Verif.Quorum
