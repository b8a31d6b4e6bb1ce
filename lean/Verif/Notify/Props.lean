import Verif.Notify.Lemmas
/-!
# Properties of subscriptions and groups (C122–C126)
-/
namespace Verif.Notify
open Verif

/-! ## C122: an enqueue tells the subscribers -/

/-- C122 is false of the code as compiled: no call, on no state, tells anyone. -/
theorem C122_refuted_nobody (wr : Int → Bool) (d : Db) (o : Op) (d' : Db) (t : List Nat)
    (h : step .address wr d o = .ok (d', t)) : t = [] := by
  have ann : ∀ d q, announce .address wr d q = .ok (d', t) → t = [] := by
    intro d q h
    simp only [announce] at h
    split at h
    · simp only [Res.ok.injEq, Prod.mk.injEq] at h; exact h.2.symm
    · rename_i r hr
      obtain ⟨gs, hgs⟩ := notifyGroups_nobody (rd := .address) wr (groups := d.groups) (.inr rfl) r.subs
      simp only [notifyAll_address, hgs, Res.ok_bind, Res.pure_eq, Res.ok.injEq, Prod.mk.injEq, List.append_nil] at h
      exact h.2.symm
  cases o with
  | enqueue q => exact ann _ q h
  | announce q => exact ann _ q h
  | read q c max =>
    simp only [step] at h
    cases hy : read d q c max with
    | ok y => simp only [hy, Res.ok_bind, Res.pure_eq, Res.ok.injEq, Prod.mk.injEq] at h; exact h.2.symm
    | _ => simp [hy] at h
  | commit q c head =>
    simp only [step] at h
    cases hy : setReadHead d q c head with
    | ok y => simp only [hy, Res.ok_bind, Res.pure_eq, Res.ok.injEq, Prod.mk.injEq] at h; exact h.2.symm
    | _ => simp [hy] at h
  | _ => simp only [step, Res.ok.injEq, Prod.mk.injEq] at h; exact h.2.symm

/-- A local subscriber waits for an entry. -/
def waiting : Db := ⟨[(7, ⟨0, [(1, ⟨2 ^ 64 - 1, -1, false, .callback⟩)], []⟩)], []⟩

/-- The subscriber of `waiting` comes from a run, it is due, and the enqueue comes through. -/
theorem C122_refuted_witness (wr : Int → Bool) :
    run .address wr init [.create 7 [], .subscribe 7 1 .callback] = .ok waiting ∧
    Due wr ⟨2 ^ 64 - 1, -1, false, .callback⟩ ∧
    ∃ d, enqueue .address wr waiting 7 = .ok (d, []) := by
  exact ⟨rfl, ⟨rfl, rfl, trivial⟩, _, rfl⟩

/-- C122, where the test is read as it is meant: all of the subscribers that are due are told, once and in
the order of their ids, no others, and just they are marked. What is missing: this is not how the test is
compiled, and the members of groups are not told. -/
theorem C122_told_partial (wr : Int → Bool) (d : Db) (q : Nat) (r : Row) (hr : look q d.queues = some r)
    (hs : ∀ p ∈ r.consumers, Sound p.2) (hm : Members d.groups) :
    ∃ d' r', enqueue .signed wr d q = .ok (d', (r.consumers.filter fun p => decide (Due wr p.2)).map Prod.fst) ∧
      look q d'.queues = some r' ∧ r'.noEntries = r.noEntries + 1 ∧
      r'.consumers = r.consumers.map fun p => (p.1, told wr p.2) := by
  obtain ⟨gs, hgs⟩ := notifyGroups_nobody (rd := .signed) wr (groups := d.groups) (.inl hm) r.subs
  refine ⟨⟨put q ⟨r.noEntries + 1, r.consumers.map fun p => (p.1, told wr p.2), r.subs⟩
    (put q ⟨r.noEntries + 1, r.consumers, r.subs⟩ d.queues), gs⟩, _, ?_, look_put_self _ _ _, rfl, rfl⟩
  simp only [enqueue, reserve, hr, announce, look_put_self, notifyAll_sound wr hs, hgs, Res.ok_bind, Res.pure_eq,
    List.append_nil]

example : ∃ r, look 7 waiting.queues = some r ∧ (∀ p ∈ r.consumers, Sound p.2) ∧ Members waiting.groups ∧
    ((r.consumers.filter fun p => decide (Due (fun _ => true) p.2)).map Prod.fst) = [1] := by
  refine ⟨_, rfl, ?_, ?_, by decide⟩
  · intro p hp
    simp only [List.mem_singleton] at hp
    subst hp
    exact .inr ⟨rfl, .inl rfl⟩
  · intro x hx; simp [waiting] at hx

/-- C122 fails for groups in both readings: who is told is subscribed to the queue itself. -/
theorem C122_refuted_group (rd : Reading) (wr : Int → Bool) (d : Db) (q : Nat) (hm : Members d.groups)
    (d' : Db) (t : List Nat) (h : enqueue rd wr d q = .ok (d', t)) (c : Nat) (hc : c ∈ t) :
    ∃ r cs, look q d.queues = some r ∧ (c, cs) ∈ r.consumers ∧ ¬ cs.group < 2 ^ 63 := by
  simp only [enqueue, reserve, announce] at h
  cases hr : look q d.queues with
  | none =>
    simp only [hr, Res.ok.injEq, Prod.mk.injEq] at h
    rw [← h.2] at hc; simp at hc
  | some r =>
    obtain ⟨gs, hgs⟩ := notifyGroups_nobody (rd := rd) wr (groups := d.groups) (.inl hm) r.subs
    simp only [hr, look_put_self, hgs] at h
    cases h1 : notifyAll rd wr r.consumers with
    | ok a =>
      simp only [h1, Res.ok_bind, Res.pure_eq, Res.ok.injEq, Prod.mk.injEq, List.append_nil] at h
      obtain ⟨cs, hm, hg⟩ := notifyAll_from (l' := a.1) (t := a.2) (by rw [h1]) (by rw [h.2]; exact hc)
      exact ⟨r, cs, rfl, hm, by omega⟩
    | _ => simp [h1] at h

/-- A queue of the group 5 with the local member 1. -/
def grouped : Db :=
  ⟨[(7, ⟨0, [(1, ⟨5, -1, false, .null⟩)], [5]⟩)], [(5, ⟨[(1, ⟨5, -1, false, .callback⟩)], []⟩)]⟩

/-- The member of the group of a queue is not told of its entries. -/
theorem C122_refuted_member (rd : Reading) (wr : Int → Bool) :
    run rd wr init [.subscribeGroup 5 1 .callback, .create 7 [5]] = .ok grouped ∧
    ∃ d, enqueue rd wr grouped 7 = .ok (d, []) := by
  cases rd <;> exact ⟨rfl, _, rfl⟩

example : Members grouped.groups := by
  intro x hx p hp
  simp only [grouped, List.mem_singleton] at hx
  subst hx
  simp only [List.mem_singleton] at hp
  subst hp
  decide

/-- C122 fails for clients in the reading that is meant: the first enqueue behind the subscription of a
client reads a variable that is gone. -/
theorem C122_refuted_frame (wr : Int → Bool) (fd : Int) :
    ∃ d, run .signed wr init [.create 7 [], .handle 7 1 fd] = .ok d ∧ enqueue .signed wr d 7 = .ub :=
  ⟨_, rfl, rfl⟩

/-! ## C123: no wake-up is lost -/

/-- C123, where the test is read as it is meant, for the calls of one thread outside transactions: a
subscriber that has read all entries is told of the next. What is missing: see the refutations. -/
theorem C123_wake_partial (wr : Int → Bool) (os : List Op) (ho : ∀ o ∈ os, Plain o) (d : Db)
    (hd : run .signed wr init os = .ok d) (q : Nat) (r : Row) (hr : look q d.queues = some r) (c : Nat) (cs : CS)
    (hc : look c r.consumers = some cs) (own : Own cs) (reach : Reach wr cs.sink)
    (all : cs.readHead = r.noEntries - 1) (d' : Db) (t : List Nat) (h : enqueue .signed wr d q = .ok (d', t)) :
    c ∈ t := by
  have hf := fresh_run (d := init) (fun x hx => by simp [init] at hx) ho hd
  have hn := (fresh_of_look hf hr).2 _ (mem_of_look hc)
  have due : Due wr cs := by
    refine ⟨own, ?_, reach⟩
    cases e : cs.notified with
    | false => rfl
    | true => have := hn.2 e; simp only at this; omega
  simp only [enqueue, reserve, hr, announce, look_put_self] at h
  cases h1 : notifyAll .signed wr r.consumers with
  | ok a =>
    cases h2 : notifyGroups .signed wr d.groups r.subs with
    | ok b =>
      simp only [h1, h2, Res.ok_bind, Res.pure_eq, Res.ok.injEq, Prod.mk.injEq] at h
      rw [← h.2]
      exact List.mem_append_left _ (notifyAll_due (l' := a.1) (t := a.2) (by rw [h1]) (mem_of_look hc) due)
    | _ => simp [h1, h2] at h
  | _ => simp [h1] at h

/-- The calls of the example: two entries, read in two steps, with a second subscriber. -/
def calls : List Op :=
  [.create 7 [], .subscribe 7 1 .callback, .enqueue 7, .subscribe 7 2 (.socket 4), .enqueue 7, .read 7 1 1, .read 7 1 1]

example : (∀ o ∈ calls, Plain o) ∧ ∃ d r cs d', run .signed (fun _ => true) init calls = .ok d ∧
    look 7 d.queues = some r ∧ look 1 r.consumers = some cs ∧ Own cs ∧ Reach (fun _ => true) cs.sink ∧
    cs.readHead = r.noEntries - 1 ∧ enqueue .signed (fun _ => true) d 7 = .ok (d', [1]) := by
  refine ⟨by decide, _, _, _, _, rfl, rfl, rfl, rfl, trivial, rfl, rfl⟩

/-- C123 fails with transactions: the subscriber was told, has read all in a transaction that committed,
and is told of no further entry. -/
theorem C123_refuted_commit (wr : Int → Bool) :
    ∃ d r cs, run .signed wr init [.create 7 [], .subscribe 7 1 .callback, .enqueue 7, .commit 7 1 0] = .ok d ∧
      look 7 d.queues = some r ∧ look 1 r.consumers = some cs ∧ Own cs ∧ Reach wr cs.sink ∧
      cs.readHead = r.noEntries - 1 ∧ ∃ d', enqueue .signed wr d 7 = .ok (d', []) :=
  ⟨_, _, _, rfl, rfl, rfl, rfl, trivial, rfl, _, rfl⟩

/-- C123 fails with two threads: the entry is read between the parts of the enqueue. The subscriber is
told of an entry that it has read; when it then finds nothing to read it stays marked. -/
theorem C123_refuted_race (wr : Int → Bool) :
    ∃ d r cs, run .signed wr init
        [.create 7 [], .subscribe 7 1 .callback, .reserve 7, .read 7 1 1, .announce 7, .read 7 1 1] = .ok d ∧
      look 7 d.queues = some r ∧ look 1 r.consumers = some cs ∧ Own cs ∧ Reach wr cs.sink ∧
      cs.readHead = r.noEntries - 1 ∧ ∃ d', enqueue .signed wr d 7 = .ok (d', []) :=
  ⟨_, _, _, rfl, rfl, rfl, rfl, trivial, rfl, _, rfl⟩

/-! ## C124: a subscription reaches the subscriber where it subscribed last -/

/-- C124 for groups: behind a subscription the member is reached by the connection given. -/
theorem C124_group (d : Db) (g c : Nat) (s : Sink) :
    ∃ gr cs, look g (subscribeGroup d g c s).1.groups = some gr ∧ look c gr.consumers = some cs ∧ cs.sink = s := by
  simp only [subscribeGroup]
  split
  · exact ⟨_, _, look_put_self _ _ _, look_put_self _ _ _, rfl⟩
  · exact ⟨_, _, look_put_self _ _ _, look_put_self _ _ _, rfl⟩

/-- C124 for queues, for the first subscription. What is missing: see `C124_refuted_again`. -/
theorem C124_first_partial (d : Db) (q c : Nat) (s : Sink) (r : Row) (hr : look q d.queues = some r)
    (hc : look c r.consumers = none) :
    (subscribe d q c s).2 = 0 ∧ ∃ r' cs, look q (subscribe d q c s).1.queues = some r' ∧
      look c r'.consumers = some cs ∧ cs.sink = s ∧ Own cs ∧ cs.readHead = -1 := by
  simp only [subscribe, hr, subscribeRow, hc]
  exact ⟨trivial, _, _, look_put_self _ _ _, look_put_self _ _ _, rfl, rfl, rfl⟩

example : ∃ r, look 7 waiting.queues = some r ∧ look 2 r.consumers = none := ⟨_, rfl, rfl⟩

/-- C124 is false for queues: a subscriber that connects and subscribes again is still looked for at its
old connection, whatever the state. -/
theorem C124_refuted_again (d : Db) (q c : Nat) (s : Sink) (r : Row) (cs : CS) (hr : look q d.queues = some r)
    (hc : look c r.consumers = some cs) :
    (subscribe d q c s).2 = ERR_DUPLICATE_CONSUMER ∧ ∃ r', look q (subscribe d q c s).1.queues = some r' ∧
      look c r'.consumers = some cs := by
  simp only [subscribe, hr, subscribeRow, hc]
  exact ⟨trivial, _, look_put_self _ _ _, hc⟩

example : ∃ r cs, look 7 waiting.queues = some r ∧ look 1 r.consumers = some cs := ⟨_, _, rfl, rfl⟩

/-- The witness: a subscriber whose socket 3 was closed subscribes by the socket 4 and is not told. -/
theorem C124_refuted_witness : ∃ d, run .signed (fun fd => fd == 4) init
      [.create 7 [], .subscribe 7 1 (.socket 3), .subscribe 7 1 (.socket 4)] = .ok d ∧
    ∃ d', enqueue .signed (fun fd => fd == 4) d 7 = .ok (d', []) := ⟨_, rfl, _, rfl⟩

/-! ## C125: the queues of a group are a set -/

/-- C125 where the group has no queue of the table: the queue is added, and no other. -/
theorem C125_add_partial (g : Grp) (t q : Nat) (ht : look t g.tables = none) :
    ∃ g', addQueue g t q = .ok g' ∧ g'.consumers = g.consumers ∧
      ∀ t' q', inGroup g' t' q' = true ↔ (t' = t ∧ q' = q) ∨ inGroup g t' q' = true := by
  refine ⟨⟨g.consumers, put t (put q () []) g.tables⟩, by simp only [addQueue, ht], rfl, fun t' q' => ?_⟩
  by_cases e : t' = t
  · subst e
    simp only [inGroup, look_put_self, ht]
    by_cases eq : q' = q
    · subst eq; simp [look_put_self]
    · simp [look_put_ne eq, look, eq]
  · simp [inGroup, look_put_ne e, e]

/-- C125 for the removal of a queue. -/
theorem C125_remove (g : Grp) (t q : Nat) (ho : ∀ l, look t g.tables = some l → Ordered l) (t' q' : Nat) :
    inGroup (removeQueue g t q).1 t' q' = true ↔ inGroup g t' q' = true ∧ ¬ (t' = t ∧ q' = q) := by
  simp only [removeQueue]
  cases ht : look t g.tables with
  | none =>
    simp only
    by_cases e : t' = t
    · subst e; simp [inGroup, ht]
    · simp [e]
  | some l =>
    simp only
    cases hq : look q l with
    | none =>
      simp only
      by_cases e : t' = t ∧ q' = q
      · obtain ⟨rfl, rfl⟩ := e; simp [inGroup, ht, hq]
      · simp [e]
    | some u =>
      simp only
      by_cases e : t' = t
      · subst e
        simp only [inGroup, look_put_self, ht]
        by_cases eq : q' = q
        · subst eq; simp [look_del_self (ho l ht)]
        · simp [look_del_ne eq, eq]
      · simp [inGroup, look_put_ne e, e]

/-- A group with a queue. -/
def withQueue : Grp := ⟨[], [(3, [(8, ()), (9, ())])]⟩

example : look 4 withQueue.tables = none ∧ (∀ l, look 3 withQueue.tables = some l → Ordered l) ∧
    inGroup withQueue 3 8 = true ∧ inGroup (removeQueue withQueue 3 8).1 3 8 = false := by
  refine ⟨rfl, ?_, rfl, rfl⟩
  intro l hl
  simp only [withQueue, look, if_true, Option.some.injEq] at hl
  subst hl
  simp [Ordered]

/-- C125 is false: a second queue of a table is added by way of a null pointer, whatever the group. -/
theorem C125_refuted_second (g g' : Grp) (t q q' : Nat) (h : addQueue g t q = .ok g') : addQueue g' t q' = .ub := by
  simp only [addQueue] at h
  split at h
  · cases h
  · simp only [Res.ok.injEq] at h
    subst h
    simp [addQueue, look_put_self]

example : ∃ g', addQueue withQueue 4 1 = .ok g' := ⟨_, rfl⟩

/-- The queue 0 is removed, and said not to be there. -/
theorem C125_refuted_zero : ∃ g, addQueue ⟨[], []⟩ 3 0 = .ok g ∧ inGroup g 3 0 = true ∧
    inGroup (removeQueue g 3 0).1 3 0 = false ∧ (removeQueue g 3 0).2 = ERR_NO_QUEUE := ⟨_, rfl, rfl, rfl, rfl⟩

/-! ## C126: the members of its groups can read a queue -/

/-- C126 at the creation of a queue: each member of its groups has a read head, before the first entry. -/
theorem C126_create (d : Db) (q : Nat) (subs : List Nat) (hq : look q d.queues = none) (gid : Nat) (hg : gid ∈ subs)
    (g : Grp) (hl : look gid d.groups = some g) (c : Nat) (cs : CS) (hc : look c g.consumers = some cs) (max : Int) :
    (create d q subs).2 = 0 ∧ read (create d q subs).1 q c max = .ok ((create d q subs).1, READ_COMPLETE) := by
  have hk := kept_headers d.groups ⟨0, [], subs⟩ subs
  have hs := has_headers d.groups ⟨0, [], subs⟩ subs hg hl (mem_of_look hc)
  have hf := fresh_headers d.groups (r := ⟨0, [], subs⟩) ⟨Int.le_refl _, by simp⟩ subs
  obtain ⟨h, hh⟩ := Option.isSome_iff_exists.1 hs
  have hb : -1 ≤ h.readHead := by
    have : ∀ p ∈ (headers d.groups ⟨0, [], subs⟩ subs).consumers, -1 ≤ p.2.readHead :=
      low_headers d.groups (by simp) subs
    exact this _ (mem_of_look hh)
  have hu := (hf.2 _ (mem_of_look hh)).1
  have hn : (headers d.groups ⟨0, [], subs⟩ subs).noEntries = 0 := hk.1
  simp only at hu
  simp only [create, hq, read, look_put_self, hh]
  refine ⟨trivial, ?_⟩
  rw [if_neg (by omega), if_pos (by omega)]

/-- C126 when a view is installed: each member of the groups has a read head, and the heads that are there
stay. -/
theorem C126_refresh (d : Db) (q : Nat) (subs : List Nat) (r : Row) (hq : look q d.queues = some r) :
    ∃ r', look q (refresh d q subs).queues = some r' ∧ r'.noEntries = r.noEntries ∧
      (∀ c cs, look c r.consumers = some cs → look c r'.consumers = some cs) ∧
      ∀ gid ∈ subs, ∀ g, look gid d.groups = some g → ∀ c cs, look c g.consumers = some cs →
        (look c r'.consumers).isSome := by
  have hk := kept_headers d.groups ⟨r.noEntries, r.consumers, subs⟩ subs
  refine ⟨_, by simp only [refresh, hq, look_put_self], hk.1, hk.2, ?_⟩
  intro gid hg g hl c cs hc
  exact has_headers d.groups _ subs hg hl (mem_of_look hc)

example : look 8 grouped.queues = none ∧ 5 ∈ [5] ∧ ∃ g cs, look 5 grouped.groups = some g ∧
    look 1 g.consumers = some cs := ⟨rfl, by decide, _, _, rfl, rfl⟩

example : ∃ r, look 7 grouped.queues = some r ∧ look 1 r.consumers ≠ none := ⟨_, rfl, by decide⟩

/-- C126 is false behind the creation: who joins the group of a queue later cannot read it until a view is
installed. -/
theorem C126_refuted_late (rd : Reading) (wr : Int → Bool) :
    ∃ d g r cs, run rd wr init [.subscribeGroup 5 1 .callback, .create 7 [5], .subscribeGroup 5 2 .callback] = .ok d ∧
      look 7 d.queues = some r ∧ 5 ∈ r.subs ∧ look 5 d.groups = some g ∧ look 2 g.consumers = some cs ∧
      read d 7 2 1 = .ok (d, ERR_NO_CONSUMER) :=
  ⟨_, _, _, _, rfl, rfl, by decide, rfl, rfl, rfl⟩

end Verif.Notify
