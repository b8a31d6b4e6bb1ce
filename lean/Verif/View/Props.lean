import Verif.View.Model
import Verif.VClock.Props
/-!
# C30: installed views never go backwards; C43: a view is installed when all peers have accepted it
-/
namespace Verif.View
open Verif VClock

/-! ### Comparison -/

/-- Same components, and no counter of `a` above that of `b`. -/
def Pre (a b : List (Int × Int)) : Prop := a.map (·.1) = b.map (·.1) ∧ ¬ Bigger a b

theorem pre_iff (a b : VC) : compare (some a) (some b) = .equal ∨ compare (some a) (some b) = .before ↔ Pre a.ids b.ids := by
  rw [compare_some]
  by_cases hl : a.ids.length = b.ids.length
  · rw [if_neg (by omega)]
    constructor
    · intro h
      have hk := compareLoop_ids a.ids b.ids false false hl (by rcases h with h | h <;> rw [h] <;> simp)
      obtain ⟨f, s, p1, p2, p3⟩ := compareLoop_spec a.ids b.ids false false hk
      rw [p3] at h
      refine ⟨hk, ?_⟩
      cases f <;> cases s <;> simp at h p1 p2 ⊢ <;> exact p1
    · rintro ⟨hk, h1⟩
      obtain ⟨f, s, p1, p2, p3⟩ := compareLoop_spec a.ids b.ids false false hk
      rw [p3]
      have hf : f = false := by cases f with
        | false => rfl
        | true => simp [h1] at p1
      rw [hf]
      cases s <;> simp
  · rw [if_pos hl]
    constructor
    · rintro (h | h) <;> cases h
    · rintro ⟨hk, -⟩; have := congrArg List.length hk; simp at this; exact absurd this hl

theorem pre_trans {a b c : List (Int × Int)} (h1 : Pre a b) (h2 : Pre b c) : Pre a c := by
  have l1 := congrArg List.length h1.1
  have l2 := congrArg List.length h2.1
  simp only [List.length_map] at l1 l2
  exact ⟨h1.1.trans h2.1, (noBigger_trans a b c l1 l2 h1.2 h2.2).1⟩

theorem pre_refl (a : VC) : Pre a.ids a.ids := (pre_iff a a).1 (.inl (C23_refl _))

theorem pre_look : ∀ (a b : List (Int × Int)), Pre a b → ∀ n, (look a n).getD 0 ≤ (look b n).getD 0
  | [], [], _, n => by simp [look]
  | [], _ :: _, h, _ => by simp [Pre] at h
  | _ :: _, [], h, _ => by simp [Pre] at h
  | x :: a, y :: b, ⟨h1, h2⟩, n => by
    simp only [List.map_cons, List.cons.injEq] at h1
    have hb : ¬ Bigger a b := fun ⟨p, hp, hg⟩ => h2 ⟨p, by simp [hp], hg⟩
    have hx : x.2 ≤ y.2 := by
      by_contra hc
      exact h2 ⟨(x, y), by simp, by simpa using hc⟩
    rw [look_cons, look_cons, ← h1.1]
    split
    · simpa using hx
    · exact pre_look a b ⟨h1.2, hb⟩ n

theorem pre_le {a b : VC} (h : Pre a.ids b.ids) : Le a b := fun n => by
  rw [comp_look, comp_look]
  exact pre_look _ _ h n

theorem pre_has {a b : VC} (h : Pre a.ids b.ids) (n : Int) : Has a n ↔ Has b n := by
  have h1 : ∀ l : List (Int × Int), (∃ c, (n, c) ∈ l) ↔ n ∈ l.map (·.1) := by intro l; simp
  unfold Has
  rw [h1, h1, h.1]

theorem overwrite_spec : ∀ (d s : List (Int × Int)), d.length = s.length → (overwriteLoop d s).2 = false →
    (overwriteLoop d s).1 = s
  | [], [], _, _ => rfl
  | [], _ :: _, h, _ => by simp at h
  | _ :: _, [], h, _ => by simp at h
  | d :: ds, s :: ss, h, hf => by
    unfold overwriteLoop at hf ⊢
    split at hf
    · cases hf
    · rename_i hne
      rw [if_neg hne]
      simp only at hf ⊢
      rw [overwrite_spec ds ss (by simpa using h) hf]
      have : d.1 = s.1 := by simpa using hne
      rw [this]

theorem updateOrReplace_ids (d : Option VC) (s : VC) : (updateOrReplace d s).ids = s.ids := by
  unfold updateOrReplace
  split
  · rfl
  · split
    · rfl
    · rename_i hl
      split
      · rfl
      · rename_i hf
        exact overwrite_spec _ _ (by simpa using hl) (by simpa using hf)

/-! ### C30, the client -/

/-- The view `w` is not older than `v`: the same nodes, all counters at least as high. -/
def NotOlder (v w : VC) : Prop := (∀ n, Has v n ↔ Has w n) ∧ Le v w

theorem installClient_step (me : Int) (v : VC) (m : Msg) :
    ∃ w, installClient me (some v) m = some w ∧ Pre v.ids w.ids := by
  unfold installClient
  split
  · exact ⟨v, rfl, pre_refl v⟩
  · rename_i h1
    split
    · exact ⟨v, rfl, pre_refl v⟩
    · rename_i h2
      split
      · refine ⟨_, rfl, ?_⟩
        rw [updateOrReplace_ids]
        apply (pre_iff v m.vc).1
        simp only [Option.isSome_some, true_and, not_or] at h1 h2
        cases hc : compare (some v) (some m.vc) <;> rw [hc] at h1 h2 <;> simp at h1 h2 ⊢
      · exact ⟨v, rfl, pre_refl v⟩

theorem installClient_all (me : Int) : ∀ (ms : List Msg) (v : VC),
    ∃ w, ms.foldl (installClient me) (some v) = some w ∧ Pre v.ids w.ids
  | [], v => ⟨v, rfl, pre_refl v⟩
  | m :: ms, v => by
    obtain ⟨w, e, p⟩ := installClient_step me v m
    obtain ⟨x, e', p'⟩ := installClient_all me ms w
    exact ⟨x, by rw [List.foldl_cons, e]; exact e', pre_trans p p'⟩

/-- C30 for the run-time systems: whatever views are notified, in whatever order, the view after more of them is not
older than the view before. The clocks need not be well-formed. -/
theorem C30_client (me : Int) (ms ms' : List Msg) (v : VC) (h : ms.foldl (installClient me) none = some v) :
    ∃ w, (ms ++ ms').foldl (installClient me) none = some w ∧ NotOlder v w := by
  rw [List.foldl_append, h]
  obtain ⟨w, e, p⟩ := installClient_all me ms' v
  exact ⟨w, e, pre_has p, pre_le p⟩

/-- A view that is newer, from the same servers and with the local run-time system, is installed. -/
theorem C30_client_installs (me : Int) (v : VC) (m : Msg) (hv : WF v) (hm : WF m.vc) (hs : ∀ n, Has v n ↔ Has m.vc n)
    (hl : Le v m.vc) (h1 : (me, true) ∈ m.clients) (h2 : (me, false) ∉ m.clients) :
    ∃ w, installClient me (some v) m = some w ∧ w.ids = m.vc.ids := by
  have hc := C23_compare_partial v m.vc hv hm hs
  have hfl : ∀ (cs : List (Int × Bool)) (f : Bool), (me, false) ∉ cs → ((me, true) ∈ cs ∨ f = true) →
      findLocal me cs f = some true := by
    intro cs
    induction cs with
    | nil => intro f _ h; rcases h with h | h
             · cases h
             · rw [h]; rfl
    | cons c cs ih =>
      intro f hn h
      unfold findLocal
      obtain ⟨i, b⟩ := c
      simp only [List.mem_cons, not_or] at hn
      by_cases hi : i = me
      · subst hi
        rw [if_pos rfl]
        cases b with
        | false => exact absurd rfl hn.1
        | true => rw [if_pos rfl]; exact ih true hn.2 (.inr rfl)
      · rw [if_neg hi]
        apply ih f hn.2
        rcases h with h | h
        · rcases List.mem_cons.1 h with h | h
          · exact absurd (by cases h; rfl) hi
          · exact .inl h
        · exact .inr h
  unfold installClient
  rw [if_neg, if_neg, hfl m.clients false h2 (.inl h1)]
  · exact ⟨_, rfl, updateOrReplace_ids _ _⟩
  · rintro ⟨-, h⟩
    exact (hc.2.2.1.1 h).1 hl
  · rintro ⟨-, h⟩
    exact (hc.2.2.2.1 h.symm).1 hl

/-- Once it has a view, a client never installs one with another set of servers: it ignores every view after a
server has joined. -/
theorem C30_refuted_client_progress (me : Int) (v : VC) (m : Msg) (h : ¬ ∀ n, Has v n ↔ Has m.vc n) :
    installClient me (some v) m = some v := by
  have : compare (some v) (some m.vc) = .incomparable := by
    rw [compare_some]
    by_cases hl : v.ids.length = m.vc.ids.length
    · rw [if_neg (by omega)]
      by_contra hc
      have hk := compareLoop_ids v.ids m.vc.ids false false hl hc
      apply h
      intro n
      have h1 : ∀ l : List (Int × Int), (∃ c, (n, c) ∈ l) ↔ n ∈ l.map (·.1) := by intro l; simp
      unfold Has
      rw [h1, h1, hk]
    · rw [if_pos hl]
  unfold installClient
  rw [if_pos ⟨rfl, .inl this⟩]

def vc1 : VC := ⟨[(1, 5), (2, 3)], 16⟩
def vc2 : VC := ⟨[(1, 5), (2, 4)], 16⟩
def vc3 : VC := ⟨[(1, 7)], 16⟩
def vc4 : VC := ⟨[(1, 4), (2, 4)], 16⟩

/-- A client gets the views 1, 2, 1 again, a concurrent one and one of another set of servers. -/
example : ([⟨vc1, [(9, true)]⟩, ⟨vc2, [(8, false), (9, true)]⟩, ⟨vc1, [(9, true)]⟩, ⟨vc4, [(9, true)]⟩, ⟨vc3, [(9, true)]⟩].foldl
    (installClient 9) none).map (·.ids) = some vc2.ids := by decide

example : WF vc1 ∧ WF vc2 := ⟨⟨by simp [vc1], by simp [vc1], by decide⟩, ⟨by simp [vc2], by simp [vc2], by decide⟩⟩

/-! ### C30, the server -/

/-- The clocks of the views that a server could install: those of the notifications and of its own proposals. -/
def candidates : List (Ev × Out) → List VC
  | [] => []
  | (.notify vc, _) :: t => vc :: candidates t
  | (_, .installed vc) :: t => vc :: candidates t
  | _ :: t => candidates t

/-- Two clocks of the same servers, one of them not after the other. -/
def Comparable (a b : VC) : Prop := (∀ n, Has a n ↔ Has b n) ∧ (Le a b ∨ Le b a)

theorem pre_of_not_after {a b : VC} (ha : WF a) (hb : WF b) (h : Comparable a b) (hc : compare (some a) (some b) ≠ .after) :
    Pre a.ids b.ids := by
  have hs := C23_compare_partial a b ha hb h.1
  apply (pre_iff a b).1
  cases hr : compare (some a) (some b) with
  | equal => exact .inl rfl
  | before => exact .inr rfl
  | after => exact absurd hr hc
  | incomparable =>
    have := hs.2.2.2.1 (.inr hr)
    rcases h.2 with h | h
    · exact absurd h this.1
    · exact absurd h this.2
  | disjoint =>
    have := hs.2.2.2.1 (.inl hr)
    rcases h.2 with h | h
    · exact absurd h this.1
    · exact absurd h this.2

theorem compare_ids {a a' : VC} (h : a.ids = a'.ids) (b : VC) : compare (some a) (some b) = compare (some a') (some b) := by
  rw [compare_some, compare_some, h]

theorem bind_ok {α β : Type} {x : Res α} {f : α → Res β} {y : β} (h : (x >>= f) = .ok y) : ∃ a, x = .ok a ∧ f a = .ok y := by
  cases x with
  | ok a => exact ⟨a, rfl, h⟩
  | raise e => cases h
  | ub => cases h
  | diverge => cases h

/-- The effect of an event on the view. -/
theorem step_view {me : Int} {n n' : Node} {e : Ev} {o : Out} (h : step me n e = .ok (n', o)) :
    n'.view = n.view ∧ candidates [(e, o)] = [] ∨
    ∃ vc, n'.view = installServer n.view vc ∧ candidates [(e, o)] = [vc] := by
  cases e with
  | propose nonce peers => cases h; exact .inl ⟨rfl, rfl⟩
  | notify vc =>
    simp only [step] at h
    obtain ⟨l, _, h⟩ := bind_ok h
    cases h
    exact .inr ⟨vc, rfl, rfl⟩
  | response id ack vc nonce peers =>
    simp only [step] at h
    obtain ⟨l, _, h⟩ := bind_ok h
    unfold respond at h
    simp only at h
    split at h
    · cases h; exact .inl ⟨rfl, rfl⟩
    · split at h
      · cases h; exact .inl ⟨rfl, rfl⟩
      · split at h
        · cases h
        · split at h
          · cases h
          · split at h
            · split at h
              · cases h; exact .inl ⟨rfl, rfl⟩
              · cases h
            · split at h
              · split at h
                · cases h
                · split at h
                  · cases h; exact .inr ⟨l, rfl, rfl⟩
                  · split at h
                    · cases h; exact .inl ⟨rfl, rfl⟩
                    · cases h; exact .inl ⟨rfl, rfl⟩
              · cases h; exact .inl ⟨rfl, rfl⟩

theorem candidates_append (s t : List (Ev × Out)) : candidates (s ++ t) = candidates s ++ candidates t := by
  induction s with
  | nil => rfl
  | cons x s ih =>
    obtain ⟨e, o⟩ := x
    cases e <;> cases o <;> simp [candidates, ih]

theorem run_append {me : Int} : ∀ (es es' : List Ev) {n : Node} {x : Node × List (Ev × Out)},
    run me (es ++ es') n = .ok x → ∃ y z, run me es n = .ok y ∧ run me es' y.1 = .ok z ∧ x = (z.1, y.2 ++ z.2)
  | [], es', n, x, h => ⟨(n, []), x, rfl, h, rfl⟩
  | e :: es, es', n, x, h => by
    simp only [List.cons_append, run] at h
    obtain ⟨a, ha, h⟩ := bind_ok h
    obtain ⟨b, hb, h⟩ := bind_ok h
    cases h
    obtain ⟨y, z, e1, e2, e3⟩ := run_append es es' hb
    subst e3
    refine ⟨(y.1, (e, a.2) :: y.2), z, ?_, e2, rfl⟩
    simp only [run]
    rw [ha, Res.ok_bind, e1]
    rfl

/-- The invariant: the view is one of the candidates `C`. -/
def ViewIn (n : Node) (C : List VC) : Prop := ∀ v, n.view = some v → ∃ c ∈ C, v.ids = c.ids

theorem wf_ids {a b : VC} (h : a.ids = b.ids) (hb : WF b) (hc : a.ids.length ≤ a.cap ∧ 0 < a.cap) : WF a :=
  ⟨by rw [h]; exact hb.sorted, by rw [h]; exact hb.nonneg, hc⟩

theorem run_view {me : Int} {C : List VC} (hwf : ∀ c ∈ C, WF c) (hcmp : ∀ a ∈ C, ∀ c ∈ C, Comparable a c) :
    ∀ (es : List Ev) {n : Node} {x : Node × List (Ev × Out)}, run me es n = .ok x → ViewIn n C →
    (∀ c ∈ candidates x.2, c ∈ C) →
    ViewIn x.1 C ∧ ∀ v, n.view = some v → ∃ w, x.1.view = some w ∧ Pre v.ids w.ids
  | [], n, x, h, hv, _ => by
    cases h
    exact ⟨hv, fun v h => ⟨v, h, pre_refl v⟩⟩
  | e :: es, n, x, h, hv, hc => by
    simp only [run] at h
    obtain ⟨a, ha, h⟩ := bind_ok h
    obtain ⟨b, hb, h⟩ := bind_ok h
    cases h
    have hsplit : candidates ((e, a.2) :: b.2) = candidates [(e, a.2)] ++ candidates b.2 := candidates_append [(e, a.2)] b.2
    simp only [hsplit, List.mem_append] at hc
    have key : ViewIn a.1 C ∧ ∀ v, n.view = some v → ∃ w, a.1.view = some w ∧ Pre v.ids w.ids := by
      rcases step_view ha with ⟨h1, _⟩ | ⟨vc, h1, h2⟩
      · exact ⟨fun v hv' => hv v (by rw [← h1]; exact hv'), fun v hv' => ⟨v, by rw [h1]; exact hv', pre_refl v⟩⟩
      · have hvc : vc ∈ C := hc vc (.inl (by rw [h2]; simp))
        unfold installServer at h1
        split at h1
        · exact ⟨fun v hv' => hv v (by rw [← h1]; exact hv'), fun v hv' => ⟨v, by rw [h1]; exact hv', pre_refl v⟩⟩
        · rename_i hna
          refine ⟨fun v hv' => ?_, fun v hv' => ?_⟩
          · rw [h1] at hv'
            cases hv'
            exact ⟨vc, hvc, updateOrReplace_ids _ _⟩
          · refine ⟨_, h1, ?_⟩
            rw [updateOrReplace_ids]
            obtain ⟨c, hcC, e1⟩ := hv v hv'
            rw [hv', compare_ids e1] at hna
            rw [e1]
            exact pre_of_not_after (hwf c hcC) (hwf vc hvc) (hcmp c hcC vc hvc) hna
    obtain ⟨k1, k2⟩ := run_view hwf hcmp es hb key.1 (fun c hc' => hc c (.inr hc'))
    refine ⟨k1, fun v hv' => ?_⟩
    obtain ⟨w, e1, p1⟩ := key.2 v hv'
    obtain ⟨w', e2, p2⟩ := k2 w e1
    exact ⟨w', e2, pre_trans p1 p2⟩

/-- C30 for the servers: whatever events happen, in whatever order, the view after more of them is not older than
the view before, if the clocks of all the views have the same servers and none of them are concurrent. Missing
for the whole claim: other clocks, with which the view does go backwards, see the refutation. -/
theorem C30_server_partial (me : Int) (es es' : List Ev) (n : Node) (hn : n.view = none) (x : Node × List (Ev × Out))
    (hr : run me (es ++ es') n = .ok x) (hwf : ∀ c ∈ candidates x.2, WF c)
    (hcmp : ∀ a ∈ candidates x.2, ∀ c ∈ candidates x.2, Comparable a c) :
    ∃ y, run me es n = .ok y ∧ ∀ v, y.1.view = some v → ∃ w, x.1.view = some w ∧ NotOlder v w := by
  obtain ⟨y, z, e1, e2, rfl⟩ := run_append es es' hr
  simp only [candidates_append] at hwf hcmp
  refine ⟨y, e1, fun v hv => ?_⟩
  obtain ⟨k1, _⟩ := run_view hwf hcmp es e1 (by intro v hv; rw [hn] at hv; cases hv) (fun c hc => by simp [hc])
  obtain ⟨_, k2⟩ := run_view hwf hcmp es' e2 k1 (fun c hc => by simp [hc])
  obtain ⟨w, e3, p⟩ := k2 v hv
  exact ⟨w, e3, pre_has p, pre_le p⟩

def node0 : Node := ⟨none, ⟨[(1, 0), (2, 0)], 16⟩, none, .nonExisting, 0⟩

def viewAfter (es : List Ev) : Res (Option (List (Int × Int))) := do
  let x ← run 1 es node0
  return x.1.view.map (·.ids)

/-- A server gets the notification 2, an older one, and then has a proposal of its own accepted by two peers. -/
def testEvs : List Ev :=
  [.notify vc2, .notify vc1, .propose 77 2, .response 77 .accepted vc2 0 2, .response 77 .accepted vc2 0 2]

example : viewAfter (testEvs.take 2) = .ok (some [(1, 5), (2, 4)]) ∧ viewAfter testEvs = .ok (some [(1, 9), (2, 4)]) := by
  decide +kernel

/-- The clocks of its views: they meet the hypotheses of `C30_server_partial`. -/
example : (match run 1 testEvs node0 with | .ok x => (candidates x.2).map (·.ids) | _ => []) =
    [[(1, 5), (2, 4)], [(1, 5), (2, 3)], [(1, 9), (2, 4)]] := by decide +kernel

example : Comparable vc2 vc1 := by
  refine ⟨fun n => by simp [Has, vc1, vc2, exists_or], .inr fun n => ?_⟩
  simp only [comp_look, look_cons, look_nil, vc1, vc2]
  split <;> (try split) <;> simp

/-- C30 is false for the servers: a view of fewer servers is installed although it is older than the installed one,
and after a concurrent view an old one is installed again. -/
theorem C30_refuted_server :
    viewAfter [.notify vc2, .notify ⟨[(1, 4)], 16⟩] = .ok (some [(1, 4)]) ∧
    (Le ⟨[(1, 4)], 16⟩ vc2 ∧ ¬ Le vc2 ⟨[(1, 4)], 16⟩) ∧
    viewAfter [.notify vc2, .notify ⟨[(1, 6), (2, 1)], 16⟩, .notify ⟨[(1, 5), (2, 2)], 16⟩] = .ok (some [(1, 5), (2, 2)]) ∧
    (Le ⟨[(1, 5), (2, 2)], 16⟩ vc2 ∧ ¬ Le vc2 ⟨[(1, 5), (2, 2)], 16⟩) := by
  refine ⟨by decide +kernel, ⟨fun n => ?_, fun h => ?_⟩, by decide +kernel, ⟨fun n => ?_, fun h => ?_⟩⟩
  · simp only [comp_look, look_cons, look_nil, vc2]
    split <;> (try split) <;> simp
  · have := h 1; revert this; decide
  · simp only [comp_look, look_cons, look_nil, vc2]
    split <;> (try split) <;> simp
  · have := h 2; revert this; decide

/-! ### C43 -/

/-- The state of the last proposal, as seen from outside: its nonce, the number of peers it was sent to, the
number of responses to it, and whether all of them accepted it. -/
structure Tally where
  nonce : Int
  sent : Nat
  answers : Nat
  agreed : Bool

def count (T : Option Tally) : Ev × Out → Option Tally
  | (_, .proposed nonce peers) => some ⟨nonce, peers, 0, true⟩
  | (.response id ack _ _ _, _) => match T with
    | none => none
    | some T => if id = T.nonce then some ⟨T.nonce, T.sent, T.answers + 1, T.agreed && decide (ack = .accepted)⟩ else some T
  | _ => T

def tally (t : List (Ev × Out)) : Option Tally := t.foldl count none

/-- The relation between the server's own books and the tally. -/
def Books (n : Node) : Option Tally → Prop
  | none => n.out = none
  | some T => n.out = some T.nonce ∧ n.status ≠ .rejected ∧ n.status ≠ .nonExisting ∧
      (n.status = .active → T.agreed = true ∧ n.acks = T.sent - T.answers) ∧
      (n.status = .accepted → T.agreed = true ∧ T.sent ≤ T.answers)

theorem step_books {me : Int} {n n' : Node} {e : Ev} {o : Out} {T : Option Tally} (hb : Books n T)
    (h : step me n e = .ok (n', o)) :
    Books n' (count T (e, o)) ∧
    ∀ vc, o = .installed vc → ∃ T', count T (e, o) = some T' ∧ T'.agreed = true ∧ T'.sent ≤ T'.answers ∧
      ∃ lc w p, e = .response T'.nonce .accepted lc w p := by
  cases e with
  | propose nonce peers =>
    cases h
    refine ⟨⟨rfl, by simp, by simp, fun _ => ⟨rfl, by simp⟩, fun h => by simp at h⟩, fun vc h => by cases h⟩
  | notify vc =>
    simp only [step] at h
    obtain ⟨l, _, h⟩ := bind_ok h
    cases h
    refine ⟨?_, fun vc h => by cases h⟩
    cases T <;> exact hb
  | response id ack vc nonce peers =>
    simp only [step] at h
    obtain ⟨l, _, h⟩ := bind_ok h
    cases T with
    | none =>
      have hb' : n.out = none := hb
      simp only [respond, hb', if_true] at h
      cases h
      exact ⟨rfl, fun vc h => by cases h⟩
    | some T =>
      obtain ⟨b1, b2, b3, b4, b5⟩ := hb
      unfold respond at h
      simp only [b1] at h
      rw [if_neg (by simp)] at h
      by_cases hid : id = T.nonce
      · subst hid
        rw [if_neg (by simp)] at h
        split at h
        · cases h
        · rename_i hacks
          cases ack with
          | rejected => simp [nextStatus, merged] at h
          | accepted =>
            simp only [nextStatus, merged] at h
            cases hst : n.status with
            | rejected => exact absurd hst b2
            | nonExisting => exact absurd hst b3
            | active =>
              obtain ⟨c1, c2⟩ := b4 hst
              simp only [hst] at h
              by_cases h0 : n.acks - 1 = 0
              · simp [h0] at h
                obtain ⟨rfl, rfl⟩ := h
                simp only [count, if_true]
                refine ⟨⟨rfl, by simp, by simp, fun h => by simp at h, fun _ => ⟨by simp [c1], by simp only; omega⟩⟩,
                  fun vc' _ => ⟨_, rfl, by simp [c1], by simp only; omega, _, _, _, rfl⟩⟩
              · simp [h0] at h
                obtain ⟨rfl, rfl⟩ := h
                simp only [count, if_true]
                refine ⟨⟨rfl, by simp, by simp, fun _ => ⟨by simp [c1], by simp only; omega⟩, fun h => by simp at h⟩,
                  fun vc' h => by cases h⟩
            | accepted =>
              obtain ⟨c1, c2⟩ := b5 hst
              simp only [hst] at h
              by_cases h0 : n.acks - 1 = 0
              · simp [h0] at h
                obtain ⟨rfl, rfl⟩ := h
                simp only [count, if_true]
                refine ⟨⟨rfl, by simp, by simp, fun h => by simp at h, fun _ => ⟨by simp [c1], by simp only; omega⟩⟩,
                  fun vc' _ => ⟨_, rfl, by simp [c1], by simp only; omega, _, _, _, rfl⟩⟩
              · simp [h0] at h
                obtain ⟨rfl, rfl⟩ := h
                simp only [count, if_true]
                refine ⟨⟨rfl, by simp, by simp, fun h => by simp at h, fun _ => ⟨by simp [c1], by simp only; omega⟩⟩,
                  fun vc' h => by cases h⟩
            | amended =>
              simp only [hst] at h
              by_cases h0 : n.acks - 1 = 0
              · simp [h0] at h
                obtain ⟨rfl, rfl⟩ := h
                simp only [count]
                refine ⟨⟨rfl, by simp, by simp, fun _ => ⟨rfl, by simp⟩, fun h => by simp at h⟩, fun vc h => by cases h⟩
              · simp [h0] at h
                obtain ⟨rfl, rfl⟩ := h
                simp only [count, if_true]
                exact ⟨⟨rfl, by simp, by simp, fun h => by simp at h, fun h => by simp at h⟩, fun vc h => by cases h⟩
          | amended =>
            simp only [nextStatus, merged, if_pos b2] at h
            by_cases h0 : n.acks - 1 = 0
            · simp [h0, b2] at h
              obtain ⟨rfl, rfl⟩ := h
              simp only [count]
              refine ⟨⟨rfl, by simp, by simp, fun _ => ⟨rfl, by simp⟩, fun h => by simp at h⟩, fun vc h => by cases h⟩
            · simp [h0] at h
              obtain ⟨rfl, rfl⟩ := h
              simp only [count, if_true]
              exact ⟨⟨rfl, by simp, by simp, fun h => by simp at h, fun h => by simp at h⟩, fun vc h => by cases h⟩
      · rw [if_pos (by simp; exact fun h => hid h.symm)] at h
        cases h
        simp only [count, if_neg hid]
        exact ⟨⟨rfl, b2, b3, b4, b5⟩, fun vc h => by cases h⟩

theorem run_books {me : Int} : ∀ (es : List Ev) {n : Node} {T : Option Tally} {x : Node × List (Ev × Out)}, Books n T →
    run me es n = .ok x → Books x.1 (x.2.foldl count T)
  | [], n, T, x, hb, h => by cases h; exact hb
  | e :: es, n, T, x, hb, h => by
    simp only [run] at h
    obtain ⟨a, ha, h⟩ := bind_ok h
    obtain ⟨b, hb', h⟩ := bind_ok h
    cases h
    show Books b.1 (b.2.foldl count (count T (e, a.2)))
    exact run_books es (step_books hb ha).1 hb'

/-- C43. A server that starts without a proposal installs a view of its own only when the last proposal has been
answered, with its nonce, by at least as many peers as it was sent to, and all answers accepted it. -/
theorem C43_unanimous (me : Int) (es : List Ev) (e : Ev) (n : Node) (hn : n.out = none) (x : Node × List (Ev × Out))
    (hr : run me es n = .ok x) (n' : Node) (vc : VC) (hs : step me x.1 e = .ok (n', .installed vc)) :
    ∃ T, tally (x.2 ++ [(e, .installed vc)]) = some T ∧ T.agreed = true ∧ T.sent ≤ T.answers ∧ vc = n'.lc ∧
      ∃ lc w p, e = .response T.nonce .accepted lc w p := by
  have hb : Books x.1 (tally x.2) := run_books es (T := none) hn hr
  obtain ⟨T, h1, h2, h3, h4⟩ := (step_books hb hs).2 vc rfl
  refine ⟨T, ?_, h2, h3, ?_, h4⟩
  · unfold tally
    rw [List.foldl_append]
    exact h1
  · obtain ⟨lc, w, p, rfl⟩ := h4
    simp only [step] at hs
    obtain ⟨l, _, hs⟩ := bind_ok hs
    unfold respond at hs
    simp only at hs
    repeat' split at hs
    all_goals first | (cases hs; rfl) | cases hs

/-- C43. A proposal that all peers accept is installed by the proposer with its clock. -/
theorem C43_installed (me : Int) (n : Node) (nonce : Int) (p : Int × Nat) : ∀ (vcs : List VC) (vc : VC),
    n.out = some nonce → n.status = .active → n.acks = vcs.length + 1 →
    ∀ x : Node × List (Ev × Out), run me ((vcs ++ [vc]).map fun v => .response nonce .accepted v p.1 p.2) n = .ok x →
    ∃ t, x.2 = t ++ [(.response nonce .accepted vc p.1 p.2, .installed x.1.lc)] ∧ x.1.view = installServer n.view x.1.lc := by
  intro vcs
  induction vcs generalizing n with
  | nil =>
    intro vc h1 h2 h3 x h
    simp only [List.nil_append, List.map_cons, List.map_nil, run] at h
    obtain ⟨a, ha, h⟩ := bind_ok h
    cases h
    simp only [step] at ha
    obtain ⟨l, _, ha⟩ := bind_ok ha
    simp [respond, h1, h2, h3, nextStatus, merged] at ha
    subst ha
    exact ⟨[], rfl, rfl⟩
  | cons v vcs ih =>
    intro vc h1 h2 h3 x h
    simp only [List.cons_append, List.map_cons, run] at h
    obtain ⟨a, ha, h⟩ := bind_ok h
    obtain ⟨b, hb, h⟩ := bind_ok h
    cases h
    simp only [step] at ha
    obtain ⟨l, _, ha⟩ := bind_ok ha
    simp only [List.length_cons] at h3
    have hn0 : ¬ n.acks - 1 = 0 := by omega
    have hn1 : ¬ n.acks - 1 < 0 := by omega
    simp [respond, h1, h2, nextStatus, merged, hn0, hn1] at ha
    subst ha
    obtain ⟨t, e1, e2⟩ := ih _ vc rfl rfl (by simp only; omega) b hb
    exact ⟨(_, _) :: t, by rw [e1]; rfl, e2⟩

/-- The last event of `testEvs` is such an installation. -/
example : (match run 1 testEvs node0 with | .ok x => (tally x.2).map fun T => (T.nonce, T.sent, T.answers, T.agreed) | _ => none) =
    some (77, 2, 2, true) := by decide +kernel

/-- A proposal that a peer amends is sent again, with another nonce. -/
example : (match run 1 [.propose 77 2, .response 77 .accepted vc1 0 0, .response 77 .amended vc1 78 2] node0 with
    | .ok x => x.2.map (·.2) | _ => []) = [.proposed 77 2, .none, .proposed 78 2] := by decide +kernel

/-- C43 is false for a rejected proposal: the proposer aborts (actondb.c:2363), whatever its state. A peer rejects
a proposal when its own view is newer (actondb.c:1790-1800). -/
theorem C43_refuted_rejected (n : Node) (id : Int) (nonce : Int) (peers : Nat) (h : n.out = some id) :
    respond n id .rejected nonce peers = .raise .assertFail := by
  unfold respond
  simp only [h]
  rw [if_neg (by simp), if_neg (by simp)]
  split
  · rfl
  · simp [nextStatus, merged]

end Verif.View
