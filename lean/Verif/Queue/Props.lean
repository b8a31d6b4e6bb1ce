import Verif.Queue.Lemmas
/-!
# Queues: properties C25 and C26

The specification looks only at the sequence of operations with their answers.
-/
namespace Verif.Queue
open Verif Verif.Skiplist

variable {α : Type}

/-! ## Specification -/

/-- Operations; `lvl` is the random level of the new node of the skip list. -/
inductive Op (α : Type) where
  | enq (v : α) (lvl : Nat)
  | read (c max : Int)
  | consume (c head : Int)
  | sub (c : Int)
  | unsub (c : Int)

/-- What can be observed: an operation with its answer. -/
inductive Ev (α : Type) where
  | sent (v : α)
  | got (c max status : Int) (entries : List α)
  | ack (c head code : Int)
  | sub (c code : Int)
  | unsub (c code : Int)
  deriving DecidableEq

/-- The entries sent. -/
def sentOf (es : List (Ev α)) : List α := es.filterMap fun e => match e with | .sent v => some v | _ => none

/-- The entries that `c` received since it last subscribed. -/
def recvStep (c : Int) (acc : List α) : Ev α → List α
  | .got c' _ _ xs => if c' = c then acc ++ xs else acc
  | .unsub c' _ => if c' = c then [] else acc
  | _ => acc

def received (c : Int) (es : List (Ev α)) : List α := es.foldl (recvStep c) []

/-- Whether `c` is subscribed. -/
def subStep (c : Int) (acc : Bool) : Ev α → Bool
  | .sub c' _ => if c' = c then true else acc
  | .unsub c' _ => if c' = c then false else acc
  | _ => acc

def subscribed (c : Int) (es : List (Ev α)) : Bool := es.foldl (subStep c) false

/-- What the event `e` has to be after the events `P`. -/
def EvOk (P : List (Ev α)) : Ev α → Prop
  | .sent _ => True
  | .got c max st xs =>
    if subscribed c P then
      xs = ((sentOf P).drop (received c P).length).take max.toNat ∧
      (st = READ_COMPLETE ↔ received c P ++ xs = sentOf P) ∧ (st = READ_COMPLETE ∨ st = READ_INCOMPLETE)
    else xs = [] ∧ st = ERR_NO_CONSUMER
  | .ack c head code =>
    if subscribed c P then (received c P).length ≤ head → code = ERR_HEAD_INVALID
    else code = ERR_NO_CONSUMER
  | .sub c code => code = if subscribed c P then ERR_DUPLICATE_CONSUMER else 0
  | .unsub _ code => code = 0

/-- The event belongs to the operation. -/
def Op.matches : Op α → Ev α → Prop
  | .enq v _, e => e = .sent v
  | .read c max, e => ∃ st xs, e = .got c max st xs
  | .consume c h, e => ∃ code, e = .ack c h code
  | .sub c, e => ∃ code, e = .sub c code
  | .unsub c, e => ∃ code, e = .unsub c code

/-- The operations for which the claim holds: levels that `rand_level` can return, batches that are
not empty. -/
def Op.Ok : Op α → Prop
  | .enq _ lvl => lvl < maxLevel
  | .read _ max => 1 ≤ max
  | _ => True

def enqs : List (Op α) → Nat
  | [] => 0
  | .enq _ _ :: ops => enqs ops + 1
  | _ :: ops => enqs ops

/-! ## Running the code -/

def step (r : Row α) : Op α → Res (Row α × Ev α)
  | .enq v lvl => do
    let r' ← enqueue r v lvl
    return (r', .sent v)
  | .read c max => do
    let x ← Queue.read r c max
    return (x.1, .got c max x.2.status x.2.entries)
  | .consume c h => do
    let x ← Queue.consume r c h
    return (x.1, .ack c h x.2)
  | .sub c => .ok ((subscribe r c).1, .sub c (subscribe r c).2)
  | .unsub c => .ok ((unsubscribe r c).1, .unsub c (unsubscribe r c).2)

def run (r : Row α) : List (Op α) → Res (Row α × List (Ev α))
  | [] => .ok (r, [])
  | op :: ops => do
    let x ← step r op
    let y ← run x.1 ops
    return (y.1, x.2 :: y.2)

/-! ## C25 -/

/-- The row after the events `P`. -/
structure LInv (r : Row α) (P : List (Ev α)) : Prop where
  q : QInv r (sentOf P)
  none : ∀ c, r.consumers c = none → subscribed c P = false ∧ received c P = []
  some : ∀ c cs, r.consumers c = some cs → subscribed c P = true ∧
    received c P = (sentOf P).take (cs.readHead + 1).toNat

theorem sentOf_snoc (P : List (Ev α)) (e : Ev α) : sentOf (P ++ [e]) = sentOf P ++ sentOf [e] := by
  unfold sentOf; rw [List.filterMap_append]

theorem received_snoc (c : Int) (P : List (Ev α)) (e : Ev α) :
    received c (P ++ [e]) = recvStep c (received c P) e := by
  unfold received; rw [List.foldl_append]; rfl

theorem subscribed_snoc (c : Int) (P : List (Ev α)) (e : Ev α) :
    subscribed c (P ++ [e]) = subStep c (subscribed c P) e := by
  unfold subscribed; rw [List.foldl_append]; rfl

/-- Changing the entry of one consumer. -/
theorem LInv.set {r : Row α} {P : List (Ev α)} (h : LInv r P) {c : Int} {cs : Consumer} {e : Ev α}
    (hs : sentOf [e] = []) (hr : -1 ≤ cs.readHead ∧ cs.readHead ≤ (sentOf P).length - 1 ∧ cs.consumeHead ≤ cs.readHead)
    (h1 : subStep c (subscribed c P) e = true)
    (h2 : recvStep c (received c P) e = (sentOf P).take (cs.readHead + 1).toNat)
    (h3 : ∀ d, d ≠ c → subStep d (subscribed d P) e = subscribed d P ∧ recvStep d (received d P) e = received d P) :
    LInv (⟨r.cells, r.noEntries, setC r.consumers c (.some cs)⟩ : Row α) (P ++ [e]) := by
  have hse : sentOf (P ++ [e]) = sentOf P := by rw [sentOf_snoc, hs, List.append_nil]
  refine ⟨⟨?_, ?_, ?_, ?_⟩, ?_, ?_⟩
  · rw [hse]; exact h.q.abs
  · rw [hse]; exact h.q.count
  · rw [hse]; exact h.q.small
  · intro d ds hd
    rw [hse]
    simp only [setC] at hd
    split at hd
    · cases hd; exact hr
    · exact h.q.heads d ds hd
  · intro d hd
    simp only [setC] at hd
    split at hd
    · cases hd
    · rename_i hne
      rw [subscribed_snoc, received_snoc, (h3 d hne).1, (h3 d hne).2]
      exact h.none d hd
  · intro d ds hd
    rw [subscribed_snoc, received_snoc, hse]
    simp only [setC] at hd
    split at hd
    · rename_i hdc
      cases hd
      subst hdc
      exact ⟨h1, h2⟩
    · rename_i hne
      rw [(h3 d hne).1, (h3 d hne).2]
      exact h.some d ds hd

/-- An event that changes nothing. -/
theorem LInv.same {r : Row α} {P : List (Ev α)} (h : LInv r P) {e : Ev α} (hs : sentOf [e] = [])
    (h3 : ∀ d, subStep d (subscribed d P) e = subscribed d P ∧ recvStep d (received d P) e = received d P) :
    LInv r (P ++ [e]) := by
  have hse : sentOf (P ++ [e]) = sentOf P := by rw [sentOf_snoc, hs, List.append_nil]
  refine ⟨by rw [hse]; exact h.q, ?_, ?_⟩
  · intro d hd
    rw [subscribed_snoc, received_snoc, (h3 d).1, (h3 d).2]
    exact h.none d hd
  · intro d ds hd
    rw [subscribed_snoc, received_snoc, hse, (h3 d).1, (h3 d).2]
    exact h.some d ds hd

theorem step_enq {r : Row α} {P : List (Ev α)} (h : LInv r P) (v : α) {lvl : Nat} (hl : lvl < maxLevel)
    (hn : (sentOf P).length < 2 ^ 31 - 2) :
    ∃ r' e, step r (.enq v lvl) = .ok (r', e) ∧ LInv r' (P ++ [e]) ∧ EvOk P e ∧ (Op.enq v lvl).matches e := by
  obtain ⟨r', e1, q1, c1⟩ := enqueue_spec h.q v hl hn
  refine ⟨r', .sent v, ?_, ⟨?_, ?_, ?_⟩, trivial, rfl⟩
  · simp only [step]; rw [e1]; rfl
  · rw [sentOf_snoc]; exact q1
  · intro c hc
    rw [c1] at hc
    rw [subscribed_snoc, received_snoc]
    exact h.none c hc
  · intro c cs hc
    rw [c1] at hc
    rw [subscribed_snoc, received_snoc, sentOf_snoc]
    refine ⟨(h.some c cs hc).1, ?_⟩
    have hh := h.q.heads c cs hc
    rw [List.take_append_of_le_length (by omega)]
    exact (h.some c cs hc).2

theorem cmin_le (a b : Int) : cmin a b ≤ a ∧ cmin a b ≤ b ∧ (cmin a b = a ∨ cmin a b = b) := by
  unfold cmin; split <;> omega

theorem step_read {r : Row α} {P : List (Ev α)} (h : LInv r P) (c : Int) {max : Int} (hm : 1 ≤ max) :
    ∃ r' e, step r (.read c max) = .ok (r', e) ∧ LInv r' (P ++ [e]) ∧ EvOk P e ∧ (Op.read c max).matches e := by
  simp only [step, Queue.read]
  cases hc : r.consumers c with
  | none =>
    obtain ⟨s1, s2⟩ := h.none c hc
    refine ⟨r, .got c max ERR_NO_CONSUMER [], rfl, h.same rfl ?_, ?_, _, _, rfl⟩
    · intro d
      simp [subStep, recvStep]
    · simp [EvOk, s1]
  | some cs =>
    obtain ⟨s1, s2⟩ := h.some c cs hc
    have hh := h.q.heads c cs hc
    have hlen : (received c P).length = (cs.readHead + 1).toNat := by rw [s2, List.length_take]; omega
    have hcnt := h.q.count
    simp only
    unfold readFound
    rw [if_neg (by omega)]
    by_cases he : cs.readHead = r.noEntries - 1
    · rw [if_pos he]
      refine ⟨r, .got c max READ_COMPLETE [], rfl, h.same rfl ?_, ?_, _, _, rfl⟩
      · intro d
        simp [subStep, recvStep]
      · simp only [EvOk]
        rw [if_pos s1, hlen, s2, List.append_nil, List.drop_of_length_le (by omega),
          List.take_of_length_le (l := sentOf P) (by omega)]
        simp
    · rw [if_neg he]
      have hcm := cmin_le (cs.readHead + max) (r.noEntries - 1)
      generalize hhd : cmin (cs.readHead + max) (r.noEntries - 1) = head at hcm
      have hcat : (sentOf P).take (cs.readHead + 1).toNat ++
          ((sentOf P).drop (cs.readHead + 1).toNat).take (head - cs.readHead).toNat =
          (sentOf P).take (head + 1).toNat := by
        rw [← List.take_add]
        congr 1
        omega
      simp only
      rw [fetch_spec h.q (by omega) (by omega) (by omega)]
      refine ⟨_, _, rfl, ?_, ?_, _, _, rfl⟩
      · apply h.set rfl
        · simp only; omega
        · exact s1
        · simp only [recvStep, if_true]
          rw [s2]
          exact hcat
        · intro d hd
          simp [subStep, recvStep, Ne.symm hd]
      · simp only [EvOk]
        rw [if_pos s1, hlen, s2, hcat]
        refine ⟨?_, ?_, ?_⟩
        · rcases hcm.2.2 with h4 | h4
          · rw [h4]; congr 1; omega
          · rw [List.take_of_length_le (by rw [List.length_drop]; omega),
              List.take_of_length_le (by rw [List.length_drop]; omega)]
        · constructor
          · intro hst
            split at hst
            · rw [List.take_of_length_le (by omega)]
            · cases hst
          · intro htk
            have := congrArg List.length htk
            rw [List.length_take] at this
            rw [if_pos (by omega)]
        · split <;> simp

theorem step_consume {r : Row α} {P : List (Ev α)} (h : LInv r P) (c head : Int) :
    ∃ r' e, step r (.consume c head) = .ok (r', e) ∧ LInv r' (P ++ [e]) ∧ EvOk P e ∧
      (Op.consume c head).matches e := by
  simp only [step, Queue.consume]
  cases hc : r.consumers c with
  | none =>
    obtain ⟨s1, s2⟩ := h.none c hc
    refine ⟨r, .ack c head ERR_NO_CONSUMER, rfl, h.same rfl ?_, ?_, _, rfl⟩
    · intro d; simp [subStep, recvStep]
    · simp [EvOk, s1]
  | some cs =>
    obtain ⟨s1, s2⟩ := h.some c cs hc
    have hh := h.q.heads c cs hc
    have hlen : (received c P).length = (cs.readHead + 1).toNat := by rw [s2, List.length_take]; omega
    simp only
    rw [if_neg (by omega)]
    by_cases h1 : head > cs.readHead
    · rw [if_pos h1]
      refine ⟨_, _, rfl, h.same rfl ?_, ?_, _, rfl⟩
      · intro d; simp [subStep, recvStep]
      · simp [EvOk, s1]
    · rw [if_neg h1]
      by_cases h2 : head = cs.consumeHead
      · rw [if_pos h2]
        refine ⟨_, _, rfl, h.same rfl ?_, ?_, _, rfl⟩
        · intro d; simp [subStep, recvStep]
        · simp only [EvOk]
          rw [if_pos s1]
          intro; omega
      · rw [if_neg h2]
        refine ⟨_, _, rfl, ?_, ?_, _, rfl⟩
        · apply h.set rfl
          · simp only; omega
          · exact s1
          · exact s2
          · intro d hd; simp [subStep, recvStep]
        · simp only [EvOk]
          rw [if_pos s1]
          intro; omega

theorem step_sub {r : Row α} {P : List (Ev α)} (h : LInv r P) (c : Int) :
    ∃ r' e, step r (.sub c) = .ok (r', e) ∧ LInv r' (P ++ [e]) ∧ EvOk P e ∧ (Op.sub c : Op α).matches e := by
  simp only [step, subscribe]
  cases hc : r.consumers c with
  | none =>
    obtain ⟨s1, s2⟩ := h.none c hc
    refine ⟨_, _, rfl, ?_, ?_, _, rfl⟩
    · apply h.set rfl
      · simp only; omega
      · simp [subStep]
      · simp [recvStep, s2]
      · intro d hd; simp [subStep, recvStep, Ne.symm hd]
    · simp [EvOk, s1]
  | some cs =>
    obtain ⟨s1, s2⟩ := h.some c cs hc
    refine ⟨_, _, rfl, h.same rfl ?_, ?_, _, rfl⟩
    · intro d
      simp only [subStep, recvStep, and_true]
      split
      · rename_i he; rw [← he, s1]
      · rfl
    · simp [EvOk, s1]

theorem step_unsub {r : Row α} {P : List (Ev α)} (h : LInv r P) (c : Int) :
    ∃ r' e, step r (.unsub c) = .ok (r', e) ∧ LInv r' (P ++ [e]) ∧ EvOk P e ∧ (Op.unsub c : Op α).matches e := by
  have hse : sentOf (P ++ [Ev.unsub c 0]) = sentOf P := by rw [sentOf_snoc]; simp [sentOf]
  refine ⟨_, _, rfl, ⟨⟨?_, ?_, ?_, ?_⟩, ?_, ?_⟩, rfl, _, rfl⟩ <;> simp only [unsubscribe]
  · rw [hse]; exact h.q.abs
  · rw [hse]; exact h.q.count
  · rw [hse]; exact h.q.small
  · intro d ds hd
    rw [hse]
    simp only [setC] at hd
    split at hd
    · cases hd
    · exact h.q.heads d ds hd
  · intro d hd
    rw [subscribed_snoc, received_snoc]
    simp only [subStep, recvStep]
    simp only [setC] at hd
    split at hd
    · rename_i he
      simp [he]
    · rename_i he
      rw [if_neg (Ne.symm he), if_neg (Ne.symm he)]
      exact h.none d hd
  · intro d ds hd
    rw [subscribed_snoc, received_snoc, hse]
    simp only [subStep, recvStep]
    simp only [setC] at hd
    split at hd
    · cases hd
    · rename_i he
      rw [if_neg (Ne.symm he), if_neg (Ne.symm he)]
      exact h.some d ds hd

theorem step_spec {r : Row α} {P : List (Ev α)} (h : LInv r P) (op : Op α) (hop : op.Ok)
    (hn : (sentOf P).length + enqs [op] ≤ 2 ^ 31 - 2) :
    ∃ r' e, step r op = .ok (r', e) ∧ LInv r' (P ++ [e]) ∧ EvOk P e ∧ op.matches e := by
  cases op with
  | enq v lvl => exact step_enq h v hop (by simp only [enqs] at hn; omega)
  | read c max => exact step_read h c hop
  | consume c head => exact step_consume h c head
  | sub c => exact step_sub h c
  | unsub c => exact step_unsub h c

theorem sentOf_len {op : Op α} {e : Ev α} (h : op.matches e) : (sentOf [e]).length = enqs [op] := by
  cases op <;> simp only [Op.matches] at h
  · subst h; rfl
  · obtain ⟨_, _, rfl⟩ := h; rfl
  · obtain ⟨_, rfl⟩ := h; rfl
  · obtain ⟨_, rfl⟩ := h; rfl
  · obtain ⟨_, rfl⟩ := h; rfl

theorem enqs_cons (op : Op α) (ops : List (Op α)) : enqs (op :: ops) = enqs [op] + enqs ops := by
  cases op <;> simp only [enqs] <;> omega

theorem run_spec : ∀ (ops : List (Op α)) {r : Row α} {P : List (Ev α)}, LInv r P → (∀ op ∈ ops, op.Ok) →
    (sentOf P).length + enqs ops ≤ 2 ^ 31 - 2 →
    ∃ r' es, run r ops = .ok (r', es) ∧ LInv r' (P ++ es) ∧ List.Forall₂ Op.matches ops es ∧
      ∀ Q e S, es = Q ++ e :: S → EvOk (P ++ Q) e := by
  intro ops
  induction ops with
  | nil =>
    intro r P h _ _
    refine ⟨r, [], rfl, by rwa [List.append_nil], .nil, ?_⟩
    intro Q e S hq
    simp at hq
  | cons op ops ih =>
    intro r P h hok hn
    rw [enqs_cons] at hn
    obtain ⟨r1, e, e1, i1, o1, m1⟩ := step_spec h op (hok op (by simp)) (by omega)
    obtain ⟨r2, es, e2, i2, m2, o2⟩ := ih i1 (fun o ho => hok o (by simp [ho]))
      (by rw [sentOf_snoc, List.length_append, sentOf_len m1]; omega)
    refine ⟨r2, e :: es, ?_, ?_, .cons m1 m2, ?_⟩
    · rw [run, e1, Res.ok_bind, e2]; rfl
    · simpa using i2
    · intro Q e' S hq
      cases Q with
      | nil =>
        rw [List.nil_append, List.cons.injEq] at hq
        rw [List.append_nil, ← hq.1]
        exact o1
      | cons q Q =>
        rw [List.cons_append, List.cons.injEq] at hq
        have := o2 Q e' S hq.2
        rw [← hq.1]
        simpa using this

theorem create_linv {lvl : Nat} (hl : lvl < maxLevel) : ∃ r : Row α, create lvl = .ok r ∧ LInv r [] := by
  obtain ⟨r, e1, q1, c1⟩ := create_spec (α := α) hl
  refine ⟨r, e1, q1, ?_, ?_⟩
  · intro c _; exact ⟨rfl, rfl⟩
  · intro c cs h; rw [c1] at h; cases h

/-- C25, for histories of whole operations of any number of consumers: no operation aborts or reads
bad memory; each read returns the next `max` entries sent that the consumer has not received; it says
complete iff nothing remains; consuming past the read position is refused; the entries received since
the subscription are a prefix of the entries sent.

Missing: more than `2^31-2` entries in one queue (the order of the cells is that of `long_cmp`),
batches that are not positive (`C25_refuted_empty_batch`), and a read between the two parts of an
enqueue (`C25_refuted_race`). -/
theorem C25_queue_partial {lvl : Nat} (hl : lvl < maxLevel) (ops : List (Op α)) (hok : ∀ op ∈ ops, op.Ok)
    (hn : enqs ops ≤ 2 ^ 31 - 2) :
    ∃ r0 r es, create lvl = .ok r0 ∧ run r0 ops = .ok (r, es) ∧ List.Forall₂ Op.matches ops es ∧
      (∀ P e S, es = P ++ e :: S → EvOk P e) ∧ ∀ c, received c es <+: sentOf es := by
  obtain ⟨r0, e0, i0⟩ := create_linv (α := α) hl
  obtain ⟨r, es, e1, i1, m1, o1⟩ := run_spec ops i0 hok (by simpa [sentOf] using hn)
  refine ⟨r0, r, es, e0, e1, m1, by simpa using o1, ?_⟩
  intro c
  rw [List.nil_append] at i1
  cases hc : r.consumers c with
  | none => rw [(i1.none c hc).2]; exact List.nil_prefix
  | some cs => rw [(i1.some c cs hc).2]; exact List.take_prefix _ _

/-- The hypotheses hold and the answers are as expected for a history with two consumers. -/
def demoOps : List (Op Nat) :=
  [.sub 1, .enq 10 0, .enq 11 3, .read 1 1, .enq 12 1, .sub 2, .read 2 2, .consume 2 2, .consume 2 1, .read 1 5,
    .read 1 5, .unsub 2, .read 2 1, .sub 2, .read 2 1]

def demo : Res (List (Ev Nat)) := do
  let r ← create 2
  let x ← run r demoOps
  return x.2

example : (∀ op ∈ demoOps, op.Ok) ∧ enqs demoOps ≤ 2 ^ 31 - 2 := by
  refine ⟨?_, by decide⟩
  intro op h
  simp only [demoOps, List.mem_cons, List.not_mem_nil, or_false] at h
  rcases h with rfl | rfl | rfl | rfl | rfl | rfl | rfl | rfl | rfl | rfl | rfl | rfl | rfl | rfl | rfl <;>
    simp [Op.Ok, maxLevel]

example : demo = .ok [.sub 1 0, .sent 10, .sent 11, .got 1 1 0 [10], .sent 12, .sub 2 0, .got 2 2 0 [10, 11],
    .ack 2 2 (-5), .ack 2 1 1, .got 1 5 1 [11, 12], .got 1 5 1 [], .unsub 2 0, .got 2 1 (-3) [], .sub 2 0,
    .got 2 1 0 [10]] := by decide +kernel

/-- A refused or failing consume leaves the row as it is; an accepted one changes only the consume head. -/
theorem C25_consume (r : Row α) (c head : Int) (cs : Consumer) (hc : r.consumers c = some cs)
    (hh : cs.consumeHead ≤ cs.readHead) (hi : InI32 head) :
    (head > cs.readHead → Queue.consume r c head = .ok (r, -5)) ∧
    (head ≤ cs.readHead → head ≠ cs.consumeHead → ∃ r', Queue.consume r c head = .ok (r', head) ∧
      r'.cells = r.cells ∧ r'.noEntries = r.noEntries ∧ r'.consumers c = some ⟨cs.readHead, head⟩ ∧
      ∀ d, d ≠ c → r'.consumers d = r.consumers d) := by
  unfold Queue.consume
  rw [hc]
  simp only
  rw [if_neg (by omega)]
  refine ⟨fun h => by rw [if_pos h]; rfl, fun h1 h2 => ?_⟩
  rw [if_neg (by omega), if_neg h2]
  rw [wrap32_of_in hi]
  refine ⟨_, rfl, rfl, rfl, by simp [setC], ?_⟩
  intro d hd
  simp [setC, hd]

example : ∃ (r : Row Nat) (cs : Consumer), r.consumers 1 = some cs ∧ cs.consumeHead ≤ cs.readHead ∧ InI32 7 ∧
    InI32 3 ∧ (7 : Int) > cs.readHead ∧ (3 : Int) ≤ cs.readHead ∧ (3 : Int) ≠ cs.consumeHead :=
  ⟨⟨Skiplist.init longMax, 6, fun _ => some ⟨5, 2⟩⟩, ⟨5, 2⟩, rfl, by decide, by unfold InI32; omega,
    by unfold InI32; omega, by decide, by decide, by decide⟩

/-- Peeking returns what a read would return. -/
theorem C25_peek (r : Row α) (c max offset : Int) (ho : offset < 0) {r' : Row α} {x : ReadResult α}
    (h : Queue.read r c max = .ok (r', x)) : peek r c max offset = .ok x := by
  unfold Queue.read at h
  unfold peek
  cases hc : r.consumers c with
  | none => rw [hc] at h; cases h; rfl
  | some cs =>
    rw [hc] at h
    simp only at h ⊢
    rw [show (if offset ≥ 0 then offset else cs.readHead) = cs.readHead from if_neg (by omega)]
    unfold readFound at h
    split at h
    · cases h
    · rename_i h1
      rw [if_neg h1]
      split at h
      · rename_i h2
        rw [if_pos h2]
        cases h; rfl
      · rename_i h2
        rw [if_neg h2]
        simp only at h
        cases hf : fetch r cs.readHead (cmin (cs.readHead + max) (r.noEntries - 1)) with
        | ok y => rw [hf, Res.ok_bind] at h; cases h; rfl
        | raise e => rw [hf] at h; cases h
        | ub => rw [hf] at h; cases h
        | diverge => rw [hf] at h; cases h

/-- Reading consumes nothing and touches no other consumer: it changes only the read head of the reader. -/
theorem C25_read_frame (r : Row α) (c max : Int) {r' : Row α} {x : ReadResult α}
    (h : Queue.read r c max = .ok (r', x)) : r'.cells = r.cells ∧ r'.noEntries = r.noEntries ∧
      (∀ d, d ≠ c → r'.consumers d = r.consumers d) ∧
      (∀ cs, r.consumers c = some cs → r'.consumers c = some ⟨x.head, cs.consumeHead⟩) ∧
      (r.consumers c = none → r'.consumers c = none) := by
  unfold Queue.read at h
  cases hc : r.consumers c with
  | none => rw [hc] at h; cases h; exact ⟨rfl, rfl, fun _ _ => rfl, by simp, fun _ => hc⟩
  | some cs =>
    rw [hc] at h
    simp only at h
    unfold readFound at h
    split at h
    · cases h
    · split at h
      · cases h
        refine ⟨rfl, rfl, fun _ _ => rfl, ?_, by simp⟩
        intro cs' e
        cases e
        exact hc
      · simp only at h
        cases hf : fetch r cs.readHead (cmin (cs.readHead + max) (r.noEntries - 1)) with
        | ok y =>
          rw [hf, Res.ok_bind] at h
          cases h
          refine ⟨rfl, rfl, fun d hd => by simp [setC, hd], ?_, by simp⟩
          intro cs' e
          cases e
          have : x.head = cmin (cs.readHead + max) (r.noEntries - 1) := by
            unfold fetch at hf
            cases hr : rangeSearch r.cells (cs.readHead + 1) (cmin (cs.readHead + max) (r.noEntries - 1)) with
            | ok ns =>
              rw [hr, Res.ok_bind] at hf
              split at hf
              · cases hf
              · cases hv : valuesAt r.cells.heap ns with
                | ok vs => rw [hv, Res.ok_bind] at hf; cases hf; rfl
                | raise e => rw [hv] at hf; cases hf
                | ub => rw [hv] at hf; cases hf
                | diverge => rw [hv] at hf; cases hf
            | raise e => rw [hr] at hf; cases hf
            | ub => rw [hr] at hf; cases hf
            | diverge => rw [hr] at hf; cases hf
          rw [this]
          simp [setC]
        | raise e => rw [hf] at h; cases h
        | ub => rw [hf] at h; cases h
        | diverge => rw [hf] at h; cases h

def demoRow : Res (Row Nat) := do
  let r ← create 2
  let x ← run r [.sub 1, .enq 10 0, .enq 11 3, .enq 12 1]
  return x.1

example : ∃ r r' x, demoRow = .ok r ∧ Queue.read r 1 2 = .ok (r', x) ∧ x.entries = [10, 11] ∧ x.status = 0 := by
  have h1 : (demoRow.bind fun r => (Queue.read r 1 2).bind fun y => .ok y.2) = .ok ⟨0, 1, [10, 11]⟩ := by
    decide +kernel
  cases hr : demoRow with
  | ok r =>
    rw [hr] at h1
    simp only [Res.bind] at h1
    cases hq : Queue.read r 1 2 with
    | ok y =>
      rw [hq] at h1
      simp only [Res.ok.injEq] at h1
      exact ⟨r, y.1, y.2, rfl, hq, by rw [h1], by rw [h1]⟩
    | raise e => rw [hq] at h1; cases h1
    | ub => rw [hq] at h1; cases h1
    | diverge => rw [hq] at h1; cases h1
  | raise e => rw [hr] at h1; cases h1
  | ub => rw [hr] at h1; cases h1
  | diverge => rw [hr] at h1; cases h1

/-- The heads set at the commit of a transaction only move forward, and stay within what is there: a
consumer that a commit moves to `head` goes on reading behind `head`. -/
theorem C25_commit_heads {r : Row α} {E : List α} (h : QInv r E) (c head : Int) {r' : Row α} {code : Int} :
    (setReadHead r c head = .ok (r', code) → QInv r' E ∧ ∀ cs, r.consumers c = some cs →
      code = 0 ∧ cs.readHead ≤ head ∧ r'.consumers c = some ⟨head, cs.consumeHead⟩) ∧
    (setConsumeHead r c head = .ok (r', code) → QInv r' E ∧ ∀ cs, r.consumers c = some cs →
      code = 0 ∧ cs.consumeHead ≤ head ∧ r'.consumers c = some ⟨cs.readHead, head⟩) := by
  have aux : ∀ cs : Consumer, (-1 ≤ cs.readHead ∧ cs.readHead ≤ E.length - 1 ∧ cs.consumeHead ≤ cs.readHead) →
      QInv (⟨r.cells, r.noEntries, setC r.consumers c (some cs)⟩ : Row α) E := by
    intro cs hcs
    refine ⟨h.abs, h.count, h.small, ?_⟩
    intro d ds hd
    simp only [setC] at hd
    split at hd
    · cases hd; exact hcs
    · exact h.heads d ds hd
  have hcnt := h.count
  unfold setReadHead setConsumeHead
  cases hc : r.consumers c with
  | none =>
    refine ⟨fun he => ?_, fun he => ?_⟩ <;>
    · cases he
      exact ⟨h, fun cs hcs => by cases hcs⟩
  | some cs =>
    have hh := h.heads c cs hc
    refine ⟨fun he => ?_, fun he => ?_⟩ <;> simp only at he <;> split at he
    · rename_i hb
      cases he
      refine ⟨aux _ (by simp only; omega), ?_⟩
      intro cs' hcs'
      cases hcs'
      exact ⟨rfl, hb.2.1, by simp [setC]⟩
    · cases he
    · rename_i hb
      cases he
      refine ⟨aux _ (by simp only; omega), ?_⟩
      intro cs' hcs'
      cases hcs'
      exact ⟨rfl, hb.2.2, by simp [setC]⟩
    · cases he

example : (do
      let r ← demoRow
      let x ← setReadHead r 1 1
      let y ← setConsumeHead x.1 1 0
      return (y.1.consumers 1, y.2)) = Res.ok (some ⟨1, 0⟩, 0) := by decide +kernel

/-- A read of at most 0 entries aborts the server if there are unread entries. -/
theorem C25_refuted_empty_batch :
    (demoRow.bind fun r => (Queue.read r 1 0).bind fun y => .ok y.2) = .raise .assertFail := by decide +kernel

/-- A read by another thread between the two parts of an enqueue aborts the server: the entry is
counted but not there. -/
theorem C25_refuted_race :
    (demoRow.bind fun r => (Queue.read (reserve r).1 1 5).bind fun y => .ok y.2) = .raise .assertFail := by
  decide +kernel

/-- The consume position can be moved back. -/
theorem C25_refuted_consume_back :
    (do
      let r ← demoRow
      let x ← run r [.read 1 3, .consume 1 2, .consume 1 0]
      return (x.1.consumers 1, x.2)) =
    Res.ok (some ⟨2, 0⟩, [.got 1 3 1 [10, 11, 12], .ack 1 2 2, .ack 1 0 0]) := by decide +kernel

/-! ## C26 -/

/-- C26 where it holds: if nothing is consumed, replay from the start returns the first `max` entries
read, and says complete iff these are all. -/
theorem C26_replay_partial {r : Row α} {P : List (Ev α)} (h : LInv r P) (c : Int) {max : Int} (hm : 1 ≤ max)
    {cs : Consumer} (hc : r.consumers c = some cs) (hcon : cs.consumeHead = -1) :
    ∃ x, replay r c 0 max = .ok x ∧ x.entries = (received c P).take max.toNat ∧
      (x.status = READ_COMPLETE ↔ x.entries = received c P) := by
  obtain ⟨s1, s2⟩ := h.some c cs hc
  have hh := h.q.heads c cs hc
  unfold replay
  rw [hc]
  simp only [hcon, h.q.count]
  rw [if_neg (by omega)]
  by_cases he : -1 + 0 = cs.readHead
  · rw [if_pos he]
    refine ⟨_, rfl, ?_, ?_⟩
    · rw [s2, ← he]; simp
    · rw [s2, ← he]; simp
  · rw [if_neg he]
    have hcm := cmin_le (-1 + 0 + max) cs.readHead
    generalize cmin (-1 + 0 + max) cs.readHead = head at hcm
    obtain ⟨b, rfl⟩ : ∃ b : Nat, head = b := ⟨head.toNat, by omega⟩
    obtain ⟨ns, e1, e2, e3⟩ := range_spec h.q (a := -1 + 0) (a' := 0) (b := b) (by omega) (by simp) (by omega) (by omega)
    rw [e1, Res.ok_bind, if_neg (by omega), e3, Res.ok_bind]
    refine ⟨_, rfl, ?_, ?_⟩
    · rw [s2, List.take_take, List.drop_zero, Nat.sub_zero,
        show b + 1 = min max.toNat (cs.readHead + 1).toNat by omega]
    · simp only
      rw [s2, List.drop_zero]
      constructor
      · intro hst
        split at hst
        · congr 1; omega
        · cases hst
      · intro ht
        have := congrArg List.length ht
        rw [List.length_take, List.length_take] at this
        rw [if_pos (by omega)]

/-- Once an entry is consumed (or the offset is positive), replay aborts whenever there is something to
replay: the range search includes its start, which the assertion does not count. -/
theorem C26_refuted {r : Row α} {P : List (Ev α)} (h : LInv r P) (c : Int) {offset max : Int} (hm : 1 ≤ max)
    {cs : Consumer} (hc : r.consumers c = some cs) (h1 : 0 ≤ cs.consumeHead + offset)
    (h2 : cs.consumeHead + offset < cs.readHead) : replay r c offset max = .raise .assertFail := by
  have hh := h.q.heads c cs hc
  unfold replay
  rw [hc]
  simp only [h.q.count]
  rw [if_neg (by omega), if_neg (by omega)]
  have hcm := cmin_le (cs.consumeHead + offset + max) cs.readHead
  generalize cmin (cs.consumeHead + offset + max) cs.readHead = head at hcm
  obtain ⟨b, rfl⟩ : ∃ b : Nat, head = b := ⟨head.toNat, by omega⟩
  obtain ⟨ns, e1, e2, e3⟩ := range_spec h.q (a := cs.consumeHead + offset) (a' := (cs.consumeHead + offset).toNat) (b := b)
    (by omega) (by rw [if_neg (by omega)]; omega) (by omega) (by omega)
  rw [e1, Res.ok_bind, if_pos (by omega)]

/-- The hypotheses of the two theorems are met by runs of the code, for any history that ends so. -/
example : ∃ (r : Row Nat) (P : List (Ev Nat)) (cs : Consumer), LInv r P ∧ r.consumers 1 = some cs ∧
    cs.consumeHead = -1 ∧ cs.readHead = 1 := by
  obtain ⟨r0, e0, i0⟩ := create_linv (α := Nat) (lvl := 2) (by decide)
  obtain ⟨r, es, e1, i1, -, -⟩ := run_spec [.sub 1, .enq 10 0, .enq 11 3, .enq 12 1, .read 1 2] i0
    (by
      intro op h
      simp only [List.mem_cons, List.not_mem_nil, or_false] at h
      rcases h with rfl | rfl | rfl | rfl | rfl <;> simp [Op.Ok, maxLevel])
    (by decide)
  have hx : (do
      let r ← create 2
      let x ← run r [.sub 1, .enq 10 0, .enq 11 3, .enq 12 1, .read 1 2]
      return x.1.consumers 1 : Res (Option Consumer)) = .ok (some ⟨1, -1⟩) := by decide +kernel
  rw [e0, Res.ok_bind, e1, Res.ok_bind] at hx
  exact ⟨r, _, ⟨1, -1⟩, i1, Res.ok.inj hx, rfl, rfl⟩

example : ∃ (r : Row Nat) (P : List (Ev Nat)) (cs : Consumer), LInv r P ∧ r.consumers 1 = some cs ∧
    0 ≤ cs.consumeHead + 0 ∧ cs.consumeHead + 0 < cs.readHead := by
  obtain ⟨r0, e0, i0⟩ := create_linv (α := Nat) (lvl := 2) (by decide)
  obtain ⟨r, es, e1, i1, -, -⟩ := run_spec [.sub 1, .enq 10 0, .enq 11 3, .enq 12 1, .read 1 2, .consume 1 0] i0
    (by
      intro op h
      simp only [List.mem_cons, List.not_mem_nil, or_false] at h
      rcases h with rfl | rfl | rfl | rfl | rfl | rfl <;> simp [Op.Ok, maxLevel])
    (by decide)
  have hx : (do
      let r ← create 2
      let x ← run r [.sub 1, .enq 10 0, .enq 11 3, .enq 12 1, .read 1 2, .consume 1 0]
      return x.1.consumers 1 : Res (Option Consumer)) = .ok (some ⟨1, 0⟩) := by decide +kernel
  rw [e0, Res.ok_bind, e1, Res.ok_bind] at hx
  exact ⟨r, _, ⟨1, 0⟩, i1, Res.ok.inj hx, by decide, by decide⟩

end Verif.Queue
