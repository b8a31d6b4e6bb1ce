import Verif.Quorum.Model
import Verif.Txn.Atomic
import Mathlib.Data.Finset.Card
import Mathlib.Data.Fintype.Card
/-!
# C29: majority commits exclude conflicting commits
-/
namespace Verif.Quorum
open Verif Txn

variable {α ν : Type}

/-- The replies of the servers that a client has got, each server at most once. -/
structure Replies (n : Nat) where
  from_ : List (Fin n × Int)
  once : (from_.map (·.1)).Nodup

/-- The servers that replied success. -/
def Replies.granted {n : Nat} (R : Replies n) : Finset (Fin n) := ((R.from_.filter fun e => e.2 = 0).map (·.1)).toFinset

theorem collect_ok {rf : Nat} : ∀ (l acc x : List Int), collect rf acc l = .ok x → x = acc ++ l
  | [], acc, x, h => by cases h; simp
  | r :: l, acc, x, h => by
    simp only [collect, addReply] at h
    split at h
    · rw [collect_ok l (acc ++ [r]) x h]; simp
    · cases h

theorem countOk_eq : ∀ l : List Int, countOk l = (l.filter fun r => r = 0).length
  | [] => rfl
  | r :: l => by
    unfold countOk VAL_COMMIT
    rw [List.filter_cons]
    by_cases h : r = 0
    · simp [h, countOk_eq l]
    · simp [h, countOk_eq l]

theorem granted_card {n : Nat} (R : Replies n) : R.granted.card = countOk (R.from_.map (·.2)) := by
  unfold Replies.granted
  rw [List.toFinset_card_of_nodup, List.length_map, countOk_eq, List.filter_map, List.length_map]
  · rfl
  · exact List.Nodup.sublist (List.Sublist.map _ List.filter_sublist) R.once

/-- The verdict: a transaction is valid for the client exactly if a quorum of replies says so. -/
theorem C29_verdict {rf n : Nat} (R : Replies n) (h : validate rf n (R.from_.map (·.2)) = .ok VAL_COMMIT) :
    rf / 2 + 1 ≤ R.granted.card := by
  unfold validate at h
  split at h
  · simp [NO_QUORUM_ERR, VAL_COMMIT] at h
  · obtain ⟨x, hx, h⟩ := Txn.bind_ok h
    have := collect_ok _ _ _ hx
    rw [List.nil_append] at this
    subst this
    split at h
    · simp [NO_QUORUM_ERR, VAL_COMMIT] at h
    · split at h
      · simp [VAL_ABORT, VAL_COMMIT] at h
      · rename_i h1
        rw [granted_card]
        unfold quorumSize at h1
        omega

/-- A transaction that was told valid and neither committed nor aborted since. -/
def OpenSince (es : List (Op α ν × Int)) (i : Int) : Prop :=
  ∃ A v B, es = A ++ (.validate i v, 0) :: B ∧ ∀ e ∈ B, (∀ v, e.1 ≠ .commit i v) ∧ e.1 ≠ .abort i

theorem run_split {cv : Option ν → Option ν → Int} {lvl : Write α ν → Nat} : ∀ (ops : List (Op α ν)) {s s' : Server α ν}
    {A B : List (Op α ν × Int)}, Txn.run cv lvl ops s = .ok (s', A ++ B) →
    ∃ ops1 ops2 s1, ops = ops1 ++ ops2 ∧ Txn.run cv lvl ops1 s = .ok (s1, A) ∧ Txn.run cv lvl ops2 s1 = .ok (s', B)
  | ops, s, s', [], B, h => ⟨[], ops, s, rfl, rfl, h⟩
  | [], s, s', a :: A, B, h => by simp [Txn.run] at h
  | o :: os, s, s', a :: A, B, h => by
    simp only [Txn.run] at h
    obtain ⟨x, hx, h⟩ := Txn.bind_ok h
    obtain ⟨y, hy, h⟩ := Txn.bind_ok h
    simp only [pure, Res.ok.injEq, Prod.mk.injEq, List.cons_append, List.cons.injEq] at h
    obtain ⟨h1, h2, h3⟩ := h
    subst h1 h2
    obtain ⟨ops1, ops2, s1, e1, e2, e3⟩ := run_split (A := A) (B := B) os (s := x.1) (s' := y.1) (by rw [hy, ← h3])
    refine ⟨o :: ops1, ops2, s1, by rw [e1]; rfl, ?_, e3⟩
    simp only [Txn.run]
    rw [hx, Res.ok_bind, e2]
    rfl

theorem stays {b : Int} {Q : Int → Bool} {cv : Option ν → Option ν → Int} {lvl : Write α ν → Nat} {i : Int} :
    ∀ (ops : List (Op α ν)) {n : Nat} {s s' : Server α ν} {f : Int → Option (View α ν)} {es : List (Op α ν × Int)},
    TInv b Q n s f → n + ops.length ≤ 2 ^ 31 → (∀ o ∈ ops, o.Dom b Q) → Txn.run cv lvl ops s = .ok (s', es) →
    (∀ e ∈ es, (∀ v, e.1 ≠ .commit i v) ∧ e.1 ≠ .abort i) → (∃ x, f i = some x ∧ x.valid = true) →
    ∃ x, es.foldl see f i = some x ∧ x.valid = true
  | [], n, s, s', f, es, _, _, _, hr, _, hx => by cases hr; exact hx
  | o :: os, n, s, s', f, es, h, hn, hd, hr, hc, ⟨x, hx, hv⟩ => by
    simp only [Txn.run] at hr
    obtain ⟨a, ha, hr⟩ := Txn.bind_ok hr
    obtain ⟨y, hy, hr⟩ := Txn.bind_ok hr
    cases hr
    simp only [List.length_cons] at hn
    have h' := step_inv (n := n) h (by omega) (hd o (by simp)) ha
    show ∃ x, y.2.foldl see (see f (o, a.2)) i = some x ∧ x.valid = true
    refine stays os (n := n + 1) h' (by omega) (fun o ho => hd o (by simp [ho])) hy (fun e he => hc e (by simp [he])) ?_
    have hco := hc (o, a.2) (by simp)
    cases o with
    | start j =>
      simp only [see]
      split
      · rename_i h0
        by_cases hj : j = i
        · subst hj
          simp only [Txn.step] at ha
          rcases h.rel j with ⟨_, h2⟩ | ⟨t, x', h1, _, _⟩
          · rw [hx] at h2; cases h2
          · rw [h1] at ha
            cases ha
            simp [DUPLICATE_TXN] at h0
        · exact ⟨x, by simp [setI, Ne.symm hj, hx], hv⟩
      · exact ⟨x, hx, hv⟩
    | write j w =>
      by_cases h0 : a.2 = 0
      · by_cases hj : j = i
        · subst hj
          exact ⟨⟨x.writes ++ [w], x.valid⟩, by simp [see, h0, hx, setI], hv⟩
        · refine ⟨x, ?_, hv⟩
          cases hf : f j <;> simp [see, h0, hf, setI, Ne.symm hj, hx]
      · refine ⟨x, ?_, hv⟩
        cases hf : f j <;> simp [see, h0, hf, hx]
    | validate j v =>
      by_cases h0 : a.2 = 0
      · by_cases hj : j = i
        · subst hj
          exact ⟨⟨x.writes, true⟩, by simp [see, h0, hx, setI], rfl⟩
        · refine ⟨x, ?_, hv⟩
          cases hf : f j <;> simp [see, h0, hf, setI, Ne.symm hj, hx]
      · refine ⟨x, ?_, hv⟩
        cases hf : f j <;> simp [see, h0, hf, hx]
    | commit j v =>
      have hj : i ≠ j := by rintro rfl; exact hco.1 v rfl
      exact ⟨x, by simp [see, setI, hj, hx], hv⟩
    | abort j =>
      have hj : i ≠ j := by rintro rfl; exact hco.2 rfl
      exact ⟨x, by simp [see, setI, hj, hx], hv⟩

theorem open_valid {b : Int} {Q : Int → Bool} {cv : Option ν → Option ν → Int} {lvl : Write α ν → Nat} {st : Store α ν}
    {ops : List (Op α ν)} (hn : ops.length ≤ 2 ^ 31) (hd : ∀ o ∈ ops, o.Dom b Q) {s : Server α ν}
    {es : List (Op α ν × Int)} (hr : Txn.run cv lvl ops ⟨[], st⟩ = .ok (s, es)) {i : Int} (ho : OpenSince es i) :
    ∃ x, seen es i = some x ∧ x.valid = true := by
  obtain ⟨A, v, B, rfl, hB⟩ := ho
  obtain ⟨ops1, ops2, s1, e1, r1, r2⟩ := run_split (A := A) (B := (.validate i v, 0) :: B) ops hr
  subst e1
  simp only [List.length_append] at hn
  have i1 : TInv b Q (0 + ops1.length) s1 (seen A) :=
    run_inv ops1 (tinv_init st) (by omega) (fun o ho => hd o (by simp [ho])) r1
  cases ops2 with
  | nil => simp [Txn.run] at r2
  | cons o os =>
    simp only [Txn.run] at r2
    obtain ⟨a, ha, r2⟩ := Txn.bind_ok r2
    obtain ⟨y, hy, r2⟩ := Txn.bind_ok r2
    simp only [pure, Res.ok.injEq, Prod.mk.injEq, List.cons.injEq] at r2
    obtain ⟨h1, ⟨h2, h3⟩, h4⟩ := r2
    subst h1 h2 h4
    simp only [List.length_cons] at hn
    have i2 := step_inv i1 (by omega) (hd _ (by simp)) ha
    unfold seen
    rw [List.foldl_append, List.foldl_cons]
    rw [h3] at i2
    refine stays os i2 (by omega) (fun o ho => hd o (by simp [ho])) hy hB ?_
    rcases i1.rel i with ⟨h5, h6⟩ | ⟨t, x, h5, h6, h7⟩
    · simp only [Txn.step, h5] at ha
      cases ha
      simp [Txn.NO_SUCH_TXN] at h3
    · have h6' : (List.foldl see (fun _ => none) A) i = some x := h6
      exact ⟨⟨x.writes, true⟩, by simp [see, h6', setI], rfl⟩

/-- C29. There are at most as many servers as the replication factor. Every server has an arbitrary history of
messages, as in C27. Two clients have got replies to the validations of two different transactions, from
arbitrary servers, and both have the verdict to commit. Then there is a server that granted both, and if
both were open there, granted and neither committed nor aborted, then they have no key in common.
Missing for the whole claim: more servers than the replication factor, for which it is false, see the
refutation, and the missing cases of C27. -/
theorem C29_majority_partial {rf n : Nat} (hrf : n ≤ rf) (cv : Option ν → Option ν → Int) (lvl : Write α ν → Nat) (b : Int)
    (Q : Int → Bool) (st : Fin n → Store α ν) (ops : Fin n → List (Op α ν)) (hn : ∀ k, (ops k).length ≤ 2 ^ 31)
    (hd : ∀ k, ∀ o ∈ ops k, o.Dom b Q)
    (hl : ∀ k, ∀ B i w C, ops k = B ++ .write i w :: C → ∀ v, Op.validate i v ∉ B)
    (s : Fin n → Server α ν) (es : Fin n → List (Op α ν × Int))
    (hr : ∀ k, Txn.run cv lvl (ops k) ⟨[], st k⟩ = .ok (s k, es k))
    {i j : Int} (hij : i ≠ j) (R S : Replies n)
    (hR : ∀ e ∈ R.from_, ∃ v, (Op.validate i v, e.2) ∈ es e.1) (hS : ∀ e ∈ S.from_, ∃ v, (Op.validate j v, e.2) ∈ es e.1)
    (hi : validate rf n (R.from_.map (·.2)) = .ok VAL_COMMIT) (hj : validate rf n (S.from_.map (·.2)) = .ok VAL_COMMIT) :
    ∃ k, (∃ v, (Op.validate i v, 0) ∈ es k) ∧ (∃ v, (Op.validate j v, 0) ∈ es k) ∧
      (OpenSince (es k) i → OpenSince (es k) j → ∃ x y, seen (es k) i = some x ∧ seen (es k) j = some y ∧
        ∀ w ∈ x.writes, ∀ w' ∈ y.writes, Regular w → Regular w' → ¬ SameKey w w') := by
  have h1 := C29_verdict R hi
  have h2 := C29_verdict S hj
  have hcard : (R.granted ∪ S.granted).card ≤ n := by
    have := Finset.card_le_univ (R.granted ∪ S.granted)
    simpa using this
  have hsum := Finset.card_union_add_card_inter R.granted S.granted
  have hpos : 0 < (R.granted ∩ S.granted).card := by omega
  obtain ⟨k, hk⟩ := Finset.card_pos.1 hpos
  rw [Finset.mem_inter] at hk
  have key : ∀ (T : Replies n) (m : Int), (∀ e ∈ T.from_, ∃ v, (Op.validate m v, e.2) ∈ es e.1) → k ∈ T.granted →
      ∃ v, (Op.validate m v, 0) ∈ es k := by
    intro T m hT hk
    unfold Replies.granted at hk
    simp only [List.mem_toFinset, List.mem_map, List.mem_filter, decide_eq_true_eq] at hk
    obtain ⟨e, ⟨he, h0⟩, rfl⟩ := hk
    obtain ⟨v, hv⟩ := hT e he
    exact ⟨v, by rw [h0] at hv; exact hv⟩
  refine ⟨k, key R i hR hk.1, key S j hS hk.2, fun oi oj => ?_⟩
  obtain ⟨x, hx, vx⟩ := open_valid (hn k) (hd k) (hr k) oi
  obtain ⟨y, hy, vy⟩ := open_valid (hn k) (hd k) (hr k) oj
  exact ⟨x, y, hx, hy, C27_exclusive_partial cv lvl b Q (st k) (ops k) (hn k) (hd k) (hl k) (hr k) i j x y hij hx hy vx vy⟩

/-- C29 for clients that have sent the same writes to all servers and got them accepted: two transactions of which
each has the verdict to commit, open on all servers that granted both, have no key in common. -/
theorem C29_exclusive_partial {rf n : Nat} (hrf : n ≤ rf) (cv : Option ν → Option ν → Int) (lvl : Write α ν → Nat) (b : Int)
    (Q : Int → Bool) (st : Fin n → Store α ν) (ops : Fin n → List (Op α ν)) (hn : ∀ k, (ops k).length ≤ 2 ^ 31)
    (hd : ∀ k, ∀ o ∈ ops k, o.Dom b Q)
    (hl : ∀ k, ∀ B i w C, ops k = B ++ .write i w :: C → ∀ v, Op.validate i v ∉ B)
    (s : Fin n → Server α ν) (es : Fin n → List (Op α ν × Int))
    (hr : ∀ k, Txn.run cv lvl (ops k) ⟨[], st k⟩ = .ok (s k, es k))
    {i j : Int} (hij : i ≠ j) (R S : Replies n)
    (hR : ∀ e ∈ R.from_, ∃ v, (Op.validate i v, e.2) ∈ es e.1) (hS : ∀ e ∈ S.from_, ∃ v, (Op.validate j v, e.2) ∈ es e.1)
    (hi : validate rf n (R.from_.map (·.2)) = .ok VAL_COMMIT) (hj : validate rf n (S.from_.map (·.2)) = .ok VAL_COMMIT)
    (hoi : ∀ k v, (Op.validate i v, 0) ∈ es k → OpenSince (es k) i)
    (hoj : ∀ k v, (Op.validate j v, 0) ∈ es k → OpenSince (es k) j)
    (wi wj : List (Write α ν)) (hwi : ∀ k x, seen (es k) i = some x → x.writes = wi)
    (hwj : ∀ k x, seen (es k) j = some x → x.writes = wj) :
    ∀ w ∈ wi, ∀ w' ∈ wj, Regular w → Regular w' → ¬ SameKey w w' := by
  obtain ⟨k, ⟨v, h1⟩, ⟨v', h2⟩, h⟩ := C29_majority_partial hrf cv lvl b Q st ops hn hd hl s es hr hij R S hR hS hi hj
  obtain ⟨x, y, hx, hy, h⟩ := h (hoi k v h1) (hoj k v' h2)
  rw [hwi k x hx, hwj k y hy] at h
  exact h

/-- Three servers with replication factor 3; the transactions 1 and 2 write different cells, and each gets the
replies of another majority. -/
example : validate 3 3 [0, 0] = .ok VAL_COMMIT ∧ validate 3 3 [0, 1, 0] = .ok VAL_COMMIT ∧
    validate 3 3 [0, 1] = .ok VAL_ABORT ∧ validate 3 3 [0] = .ok NO_QUORUM_ERR := by decide

def testReplies : Replies 3 := ⟨[(2, 0), (0, 0)], by decide⟩

/-- The histories of `Txn.testOps'` on all three servers meet the hypotheses. -/
example : replies testOps' = .ok [0, 0, 0, 0, 0, 0] ∧ noLate testOps' [] = true := by decide +kernel

example (es : List (Op Nat Nat × Int)) (s : Server Nat Nat) (h : Txn.run cv0 lvl0 testOps' ⟨[], noStore⟩ = .ok (s, es)) :
    ∀ e ∈ testReplies.from_, ∃ v, (Op.validate 1 v, e.2) ∈ es := by
  have : es = testOps'.map fun o => (o, (0 : Int)) := by
    have h2 : (∀ os : List (Op Nat Nat), ∀ s s' : Server Nat Nat, ∀ es, Txn.run cv0 lvl0 os s = .ok (s', es) → es.map (·.1) = os) := by
      intro os
      induction os with
      | nil => intro s s' es h; cases h; rfl
      | cons o os ih =>
        intro s s' es h
        simp only [Txn.run] at h
        obtain ⟨x, hx, h⟩ := Txn.bind_ok h
        obtain ⟨y, hy, h⟩ := Txn.bind_ok h
        cases h
        simp [ih _ _ _ hy]
    have h3 : es.map (·.2) = [0, 0, 0, 0, 0, 0] := by
      have h4 : replies testOps' = .ok [0, 0, 0, 0, 0, 0] := by decide +kernel
      unfold replies at h4
      rw [h] at h4
      exact Res.ok.inj h4
    have h5 := h2 _ _ _ _ h
    have h6 : es = (es.map (·.1)).zip (es.map (·.2)) := by
      clear h h2 h3 h5
      induction es with
      | nil => rfl
      | cons e es ih => simp [← ih]
    rw [h6, h3, h5]
    rfl
  intro e he
  subst this
  simp only [testReplies, List.mem_cons, List.not_mem_nil, or_false] at he
  rcases he with rfl | rfl <;> exact ⟨0, by simp [testOps']⟩

/-- C29 is false when there are more servers than the replication factor: with factor 3 and four servers, two
conflicting transactions are granted by two servers each, and both clients get the verdict to commit. Nothing
limits the number of servers to which a client connects (client_api.c:283-290). -/
theorem C29_refuted_more_servers :
    (∃ R S : Replies 4, validate 3 4 (R.from_.map (·.2)) = .ok VAL_COMMIT ∧ validate 3 4 (S.from_.map (·.2)) = .ok VAL_COMMIT ∧
      R.granted ∩ S.granted = ∅ ∧ R.from_ = [(0, 0), (1, 0)] ∧ S.from_ = [(2, 0), (3, 0)]) ∧
    replies [.start 1, .write 1 (upd 0 [5, 1] 7), .start 2, .write 2 (upd 0 [5, 1] 8), .validate 1 0, .validate 2 0] =
      .ok [0, 0, 0, 0, 0, 1] ∧
    replies [.start 1, .write 1 (upd 0 [5, 1] 7), .start 2, .write 2 (upd 0 [5, 1] 8), .validate 2 0, .validate 1 0] =
      .ok [0, 0, 0, 0, 0, 1] := by
  refine ⟨⟨⟨[(0, 0), (1, 0)], by decide⟩, ⟨[(2, 0), (3, 0)], by decide⟩, by decide, by decide, by decide, rfl, rfl⟩,
    by decide +kernel, by decide +kernel⟩

/-- When more replies arrive than the replication factor, the client writes behind its array (client_api.c:3564). -/
theorem C29_refuted_overflow (rf : Nat) (arrived : List Int) (h : rf < arrived.length) : collect rf [] arrived = .ub := by
  have : ∀ (l acc : List Int), rf < acc.length + l.length → acc.length ≤ rf → collect rf acc l = .ub := by
    intro l
    induction l with
    | nil => intro acc h h'; simp at h; omega
    | cons r l ih =>
      intro acc h h'
      simp only [collect, addReply]
      split
      · exact ih _ (by simp at h ⊢; omega) (by simp; omega)
      · rfl
  exact this arrived [] (by simpa using h) (by simp)

/-- With fewer replies than a quorum the client neither commits nor aborts (client_api.c:3451-3457): a server that
granted the validation keeps the transaction, and refuses each transaction that writes one of its keys. -/
theorem C29_refuted_blocked :
    (∀ rf servers r, 2 ≤ rf → ∃ v, validate rf servers [r] = .ok v ∧ next v = .nothing) ∧
    replies [.start 1, .write 1 (upd 0 [5, 1] 7), .validate 1 0, .start 2, .write 2 (upd 0 [5, 1] 8), .validate 2 0, .abort 2,
      .start 3, .write 3 (upd 0 [5, 1] 8), .validate 3 0] = .ok [0, 0, 0, 0, 0, 1, 0, 0, 0, 1] := by
  refine ⟨fun rf servers r hrf => ⟨NO_QUORUM_ERR, ?_, by decide⟩, by decide +kernel⟩
  unfold validate
  split
  · rfl
  · have hq : 2 ≤ quorumSize rf := by unfold quorumSize; omega
    have hc : collect rf [] [r] = .ok [r] := by
      simp only [collect, addReply, List.length_nil]
      rw [if_pos (by omega)]
      rfl
    rw [hc, Res.ok_bind, if_pos (by simp; omega)]

/-- A commit whose first replies are lost never ends: the servers have closed the transaction, and reply
`NO_SUCH_TXN` to every further round. -/
theorem C29_refuted_retry (rf servers : Nat) (arrived : Nat → List Int) (hrf : 1 ≤ rf)
    (h0 : (arrived 0).length < quorumSize rf) (h : ∀ k, 0 < k → (∀ r ∈ arrived k, r = NO_SUCH_TXN) ∧ (arrived k).length ≤ rf) :
    (∀ fuel, persistLoop rf servers arrived fuel 0 = .diverge) ∧
    cellAfter [.start 1, .write 1 (upd 0 [5, 1] 7), .validate 1 0, .commit 1 0, .commit 1 0] 5 1 =
      .ok (some [7], [0, 0, 0, 0, -3]) := by
  have hq : quorumSize rf ≤ rf := by unfold quorumSize; omega
  have hq1 : 1 ≤ quorumSize rf := by unfold quorumSize; omega
  have hcol : ∀ (l acc : List Int), acc.length + l.length ≤ rf → collect rf acc l = .ok (acc ++ l) := by
    intro l
    induction l with
    | nil => intro acc _; simp [collect]
    | cons r l ih =>
      intro acc hl
      simp only [collect, addReply]
      simp only [List.length_cons] at hl
      rw [if_pos (by omega), Res.ok_bind, ih _ (by simp; omega)]
      simp
  have hno : ∀ l : List Int, (∀ r ∈ l, r = NO_SUCH_TXN) → countOk l = 0 := by
    intro l
    induction l with
    | nil => intro _; rfl
    | cons r l ih =>
      intro hl
      unfold countOk
      rw [if_neg (by rw [hl r (by simp)]; decide)]
      exact ih fun r hr => hl r (by simp [hr])
  have hp : ∀ k, persist rf servers (arrived k) = .ok NO_QUORUM_ERR := by
    intro k
    unfold persist
    split
    · rfl
    · rcases Nat.eq_zero_or_pos k with rfl | hk
      · rw [hcol _ [] (by simp; omega), Res.ok_bind, List.nil_append, if_pos h0]
      · obtain ⟨h1, h2⟩ := h k hk
        rw [hcol _ [] (by simp; omega), Res.ok_bind, List.nil_append]
        split
        · rfl
        · rw [hno _ h1, if_pos (by omega)]
  refine ⟨fun fuel => ?_, by decide +kernel⟩
  have : ∀ fuel k, persistLoop rf servers arrived fuel k = .diverge := by
    intro fuel
    induction fuel with
    | zero => intro k; rfl
    | succ f ih =>
      intro k
      simp only [persistLoop]
      rw [hp k, Res.ok_bind, if_neg (by decide)]
      exact ih (k + 1)
  exact this fuel 0

/-- Lost replies in the first round. -/
example : (fun k : Nat => if k = 0 then ([] : List Int) else [-3, -3, -3]) 0 = [] ∧ ([] : List Int).length < quorumSize 3 := by decide

end Verif.Quorum
