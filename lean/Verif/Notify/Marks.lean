import Verif.Notify.Props
/-!
# C122: who is told once is not told again before all entries are read; C126: who leaves a group
-/
namespace Verif.Notify
open Verif

/-- The subscriber has been told of an entry of the queue. -/
def Marked (d : Db) (q c : Nat) : Prop :=
  ∃ r cs, look q d.queues = some r ∧ look c r.consumers = some cs ∧ cs.notified = true

/-- The subscriber has read all entries of the queue. -/
def ReadAll (d : Db) (q c : Nat) : Prop :=
  ∃ r cs, look q d.queues = some r ∧ look c r.consumers = some cs ∧ cs.readHead = r.noEntries - 1

theorem marked_put {d : Db} {q c : Nat} (h : Marked d q c) (q' : Nat) (r' : Row) (gs : List (Nat × Grp))
    (hr : ∀ r cs, q' = q → look q d.queues = some r → look c r.consumers = some cs → cs.notified = true →
      ∃ cs', look c r'.consumers = some cs' ∧ cs'.notified = true) : Marked ⟨put q' r' d.queues, gs⟩ q c := by
  obtain ⟨r, cs, h1, h2, h3⟩ := h
  by_cases e : q' = q
  · obtain ⟨cs', h4, h5⟩ := hr r cs e h1 h2 h3
    subst e
    exact ⟨r', cs', look_put_self _ _ _, h4, h5⟩
  · exact ⟨r, cs, by rw [look_put_ne (fun h => e h.symm)]; exact h1, h2, h3⟩

theorem notifyAll_marked {rd : Reading} {wr : Int → Bool} {l l' : List (Nat × CS)} {t : List Nat}
    (h : notifyAll rd wr l = .ok (l', t)) {c : Nat} {cs : CS} (hc : look c l = some cs) (hn : cs.notified = true) :
    look c l' = some cs := by
  induction l generalizing l' t with
  | nil => simp [look] at hc
  | cons x l ih =>
    obtain ⟨k, x⟩ := x
    simp only [notifyAll] at h
    cases h1 : notifyOne rd wr x with
    | ok a =>
      simp only [h1, Res.ok_bind] at h
      cases h2 : notifyAll rd wr l with
      | ok b =>
        simp only [h2, Res.ok_bind, Res.pure_eq, Res.ok.injEq, Prod.mk.injEq] at h
        obtain ⟨b1, b2⟩ := b
        rw [← h.1]
        simp only [look] at hc ⊢
        split at hc
        · next e =>
          rw [if_pos e]
          cases hc
          simp only [notifyOne, hn, if_true] at h1
          split at h1 <;> (cases h1; rfl)
        · next e => rw [if_neg e]; exact ih h2 hc
      | _ => simp [h2] at h
    | _ => simp [h1] at h

theorem announce_marked {rd : Reading} {wr : Int → Bool} {d : Db} {q' : Nat} {x : Db × List Nat} {q c : Nat}
    (hm : Marked d q c) (hx : announce rd wr d q' = .ok x) : Marked x.1 q c := by
  simp only [announce] at hx
  cases hr : look q' d.queues with
  | none => simp only [hr, Res.ok.injEq] at hx; rw [← hx]; exact hm
  | some r =>
    simp only [hr] at hx
    cases h1 : notifyAll rd wr r.consumers with
    | ok a =>
      simp only [h1, Res.ok_bind] at hx
      cases h2 : notifyGroups rd wr d.groups r.subs with
      | ok b =>
        simp only [h2, Res.ok_bind, Res.pure_eq, Res.ok.injEq] at hx
        rw [← hx]
        refine marked_put hm q' _ _ fun r0 cs e h3 h4 h5 => ?_
        subst e
        rw [hr] at h3; cases h3
        exact ⟨cs, notifyAll_marked h1 h4 h5, h5⟩
      | _ => simp [h2] at hx
    | _ => simp [h1] at hx

theorem reserve_marked {d : Db} {q' q c : Nat} (hm : Marked d q c) : Marked (reserve d q').1 q c := by
  simp only [reserve]
  cases hr : look q' d.queues with
  | none => exact hm
  | some r =>
    refine marked_put hm q' _ _ fun r0 cs e h3 h4 h5 => ?_
    subst e
    rw [hr] at h3; cases h3
    exact ⟨cs, h4, h5⟩

theorem subscribe_marked {d : Db} {q' k q c : Nat} {s : Sink} (hm : Marked d q c) : Marked (subscribe d q' k s).1 q c := by
  simp only [subscribe]
  cases hr : look q' d.queues with
  | none => exact hm
  | some r =>
    refine marked_put hm q' _ _ fun r0 cs e h3 h4 h5 => ?_
    subst e
    rw [hr] at h3; cases h3
    exact ⟨cs, (kept_subscribeRow r k NOGROUP s).2 c cs h4, h5⟩

/-- C122: who has been told of an entry stays marked until it has read all entries or unsubscribes,
whatever is called by whatever thread. -/
theorem C122_marked (rd : Reading) (wr : Int → Bool) (d : Db) (o : Op) (d' : Db) (t : List Nat)
    (h : step rd wr d o = .ok (d', t)) (q c : Nat) (hm : Marked d q c) :
    Marked d' q c ∨ o = .unsubscribe q c ∨ ∃ max, o = .read q c max ∧ ReadAll d' q c := by
  cases o with
  | create q' subs =>
    simp only [step, Res.ok.injEq, Prod.mk.injEq] at h
    rw [← h.1]
    refine .inl ?_
    simp only [create]
    split
    · exact hm
    · next hn =>
      refine marked_put hm q' _ _ fun r cs e h1 _ _ => ?_
      subst e
      rw [hn] at h1; cases h1
  | refresh q' subs =>
    simp only [step, Res.ok.injEq, Prod.mk.injEq] at h
    rw [← h.1]
    refine .inl ?_
    simp only [refresh]
    split
    · exact hm
    · next r hr =>
      refine marked_put hm q' _ _ fun r0 cs e h3 h4 h5 => ?_
      subst e
      rw [hr] at h3; cases h3
      exact ⟨cs, (kept_headers d.groups ⟨r.noEntries, r.consumers, subs⟩ subs).2 c cs h4, h5⟩
  | subscribe q' k s =>
    simp only [step, Res.ok.injEq, Prod.mk.injEq] at h
    rw [← h.1]; exact .inl (subscribe_marked hm)
  | handle q' k fd =>
    simp only [step, Res.ok.injEq, Prod.mk.injEq] at h
    rw [← h.1]; exact .inl (subscribe_marked hm)
  | subscribeGroup g k s =>
    simp only [step, Res.ok.injEq, Prod.mk.injEq] at h
    rw [← h.1]
    refine .inl ?_
    simp only [subscribeGroup]
    split <;> exact hm
  | unsubscribe q' k =>
    simp only [step, Res.ok.injEq, Prod.mk.injEq] at h
    rw [← h.1]
    by_cases e : q' = q ∧ k = c
    · obtain ⟨rfl, rfl⟩ := e; exact .inr (.inl rfl)
    · refine .inl ?_
      simp only [unsubscribe]
      split
      · exact hm
      · next r hr =>
        refine marked_put hm q' _ _ fun r0 cs e' h3 h4 h5 => ?_
        subst e'
        rw [hr] at h3; cases h3
        exact ⟨cs, by rw [look_del_ne (fun h => e ⟨rfl, h.symm⟩)]; exact h4, h5⟩
  | unsubscribeGroup g k =>
    simp only [step, Res.ok.injEq, Prod.mk.injEq] at h
    rw [← h.1]
    refine .inl ?_
    simp only [unsubscribeGroup]
    split <;> exact hm
  | enqueue q' => exact .inl (announce_marked (reserve_marked hm) h)
  | reserve q' =>
    simp only [step, Res.ok.injEq, Prod.mk.injEq] at h
    rw [← h.1]; exact .inl (reserve_marked hm)
  | announce q' => exact .inl (announce_marked hm h)
  | read q' k max =>
    simp only [step] at h
    cases hx : read d q' k max with
    | ok x =>
      simp only [hx, Res.ok_bind, Res.pure_eq, Res.ok.injEq, Prod.mk.injEq] at h
      rw [← h.1]
      simp only [read] at hx
      cases hr : look q' d.queues with
      | none => simp only [hr, Res.ok.injEq] at hx; rw [← hx]; exact .inl hm
      | some r =>
        simp only [hr] at hx
        cases hk : look k r.consumers with
        | none => simp only [hk, Res.ok.injEq] at hx; rw [← hx]; exact .inl hm
        | some ks =>
          simp only [hk] at hx
          split at hx
          · cases hx
          split at hx
          · simp only [Res.ok.injEq] at hx; rw [← hx]; exact .inl hm
          have keep : ∀ (gs : List (Nat × Grp)) (a : CS), (¬ (q' = q ∧ k = c) ∨ a.notified = ks.notified) →
              Marked ⟨put q' ⟨r.noEntries, put k a r.consumers, r.subs⟩ d.queues, gs⟩ q c := by
            intro gs a ha
            refine marked_put hm q' _ _ fun r0 cs e h3 h4 h5 => ?_
            subst e
            rw [hr] at h3; cases h3
            by_cases e : c = k
            · subst e
              rw [hk] at h4; cases h4
              exact ⟨a, look_put_self _ _ _, (ha.resolve_left (fun h => h ⟨rfl, rfl⟩)).trans h5⟩
            · exact ⟨cs, by rw [look_put_ne e]; exact h4, h5⟩
          split at hx
          · next hh =>
            simp only [Res.ok.injEq] at hx; rw [← hx]
            by_cases e : q' = q ∧ k = c
            · obtain ⟨rfl, rfl⟩ := e
              exact .inr (.inr ⟨max, rfl, _, _, look_put_self _ _ _, look_put_self _ _ _, hh⟩)
            · exact .inl (keep _ _ (.inl e))
          · next hh =>
            simp only [Res.ok.injEq] at hx; rw [← hx]
            exact .inl (keep _ _ (.inr (by simp only [advance]; rw [if_neg hh])))
    | _ => simp [hx] at h
  | commit q' k head =>
    simp only [step] at h
    cases hx : setReadHead d q' k head with
    | ok x =>
      simp only [hx, Res.ok_bind, Res.pure_eq, Res.ok.injEq, Prod.mk.injEq] at h
      rw [← h.1]
      simp only [setReadHead] at hx
      cases hr : look q' d.queues with
      | none => simp only [hr, Res.ok.injEq] at hx; rw [← hx]; exact .inl hm
      | some r =>
        simp only [hr] at hx
        cases hk : look k r.consumers with
        | none => simp only [hk, Res.ok.injEq] at hx; rw [← hx]; exact .inl hm
        | some ks =>
          simp only [hk] at hx
          split at hx
          · simp only [Res.ok.injEq] at hx; rw [← hx]
            refine .inl (marked_put hm q' _ _ fun r0 cs e h3 h4 h5 => ?_)
            subst e
            rw [hr] at h3; cases h3
            by_cases e : c = k
            · subst e
              rw [hk] at h4; cases h4
              exact ⟨_, look_put_self _ _ _, h5⟩
            · exact ⟨cs, by rw [look_put_ne e]; exact h4, h5⟩
          · cases hx
    | _ => simp [hx] at h

theorem notifyAll_unmarked {rd : Reading} {wr : Int → Bool} {l l' : List (Nat × CS)} {t : List Nat}
    (h : notifyAll rd wr l = .ok (l', t)) {c : Nat} (hc : c ∈ t) : ∃ cs, (c, cs) ∈ l ∧ cs.notified = false := by
  induction l generalizing l' t with
  | nil => simp only [notifyAll, Res.ok.injEq, Prod.mk.injEq] at h; rw [← h.2] at hc; simp at hc
  | cons x l ih =>
    obtain ⟨k, x⟩ := x
    simp only [notifyAll] at h
    cases h1 : notifyOne rd wr x with
    | ok a =>
      simp only [h1, Res.ok_bind] at h
      cases h2 : notifyAll rd wr l with
      | ok b =>
        simp only [h2, Res.ok_bind, Res.pure_eq, Res.ok.injEq, Prod.mk.injEq] at h
        obtain ⟨b1, b2⟩ := b
        rw [← h.2] at hc
        have tail : c ∈ b2 → ∃ cs, (c, cs) ∈ (k, x) :: l ∧ cs.notified = false := fun hm => by
          obtain ⟨cs, h3, h4⟩ := ih h2 hm
          exact ⟨cs, List.mem_cons_of_mem _ h3, h4⟩
        cases ha : a.2 with
        | false => rw [ha] at hc; exact tail (by simpa using hc)
        | true =>
          rw [ha] at hc
          simp only [if_true, List.mem_cons] at hc
          rcases hc with rfl | hc
          · refine ⟨x, by simp, ?_⟩
            cases hn : x.notified with
            | false => rfl
            | true =>
              obtain ⟨a1, a2⟩ := a
              simp only [notifyOne, hn, if_true] at h1
              simp only at ha
              split at h1 <;> (simp only [Res.ok.injEq, Prod.mk.injEq] at h1; rw [← h1.2] at ha; cases ha)
          · exact tail hc
      | _ => simp [h2] at h
    | _ => simp [h1] at h

theorem ordered_unique {α : Type} {l : List (Nat × α)} (h : Ordered l) {k : Nat} {a b : α} (ha : look k l = some a)
    (hb : (k, b) ∈ l) : a = b := by
  induction l with
  | nil => simp at hb
  | cons x l ih =>
    obtain ⟨j, v⟩ := x
    have h := List.pairwise_cons.1 h
    simp only [look] at ha
    rcases List.mem_cons.1 hb with e | hm
    · cases e; rw [if_pos rfl] at ha; exact (Option.some.inj ha).symm
    · have := h.1 _ hm
      simp only at this
      rw [if_neg (by omega)] at ha
      exact ih h.2 ha hm

/-- C122: who is marked is not told of a further entry. -/
theorem C122_quiet (rd : Reading) (wr : Int → Bool) (d : Db) (q : Nat) (hg : Members d.groups)
    (ho : ∀ r, look q d.queues = some r → Ordered r.consumers) (d' : Db) (t : List Nat)
    (h : enqueue rd wr d q = .ok (d', t)) (c : Nat) (hm : Marked d q c) : c ∉ t := by
  intro hc
  obtain ⟨r, cs, hr, hl, hn⟩ := hm
  obtain ⟨gs, hgs⟩ := notifyGroups_nobody (rd := rd) wr (groups := d.groups) (.inl hg) r.subs
  simp only [enqueue, reserve, announce, hr, look_put_self, hgs] at h
  cases h1 : notifyAll rd wr r.consumers with
  | ok a =>
    simp only [h1, Res.ok_bind, Res.pure_eq, Res.ok.injEq, Prod.mk.injEq, List.append_nil] at h
    obtain ⟨a1, a2⟩ := a
    rw [← h.2] at hc
    obtain ⟨x, h2, h3⟩ := notifyAll_unmarked h1 hc
    rw [← ordered_unique (ho r hr) hl h2, hn] at h3
    cases h3
  | _ => simp [h1] at h

/-- A subscriber that has been told. -/
def toldOnce : Db := ⟨[(7, ⟨1, [(1, ⟨2 ^ 64 - 1, -1, true, .callback⟩)], []⟩)], []⟩

example (wr : Int → Bool) : ∃ t, run .signed wr init [.create 7 [], .subscribe 7 1 .callback, .enqueue 7] = .ok toldOnce ∧
    Marked toldOnce 7 1 ∧ Members toldOnce.groups ∧ (∀ r, look 7 toldOnce.queues = some r → Ordered r.consumers) ∧
    step .signed wr toldOnce (.enqueue 7) = .ok (⟨[(7, ⟨2, [(1, ⟨2 ^ 64 - 1, -1, true, .callback⟩)], []⟩)], []⟩, t) := by
  refine ⟨_, rfl, ⟨_, _, rfl, rfl, rfl⟩, by intro x hx; simp [toldOnce] at hx, ?_, rfl⟩
  intro r hr
  simp only [toldOnce, look, if_true, Option.some.injEq] at hr
  subst hr
  simp [Ordered]

/-- C126: who leaves a group is no member any more; the others stay as they are, in all groups. -/
theorem C126_leave (d : Db) (gid c : Nat) (g : Grp) (hg : look gid d.groups = some g) (ho : Ordered g.consumers) :
    (unsubscribeGroup d gid c).1.queues = d.queues ∧
    (∀ j, j ≠ gid → look j (unsubscribeGroup d gid c).1.groups = look j d.groups) ∧
    ∃ g', look gid (unsubscribeGroup d gid c).1.groups = some g' ∧ g'.tables = g.tables ∧
      look c g'.consumers = none ∧ ∀ k, k ≠ c → look k g'.consumers = look k g.consumers := by
  simp only [unsubscribeGroup, hg]
  refine ⟨trivial, fun j hj => look_put_ne hj _ _, _, look_put_self _ _ _, rfl, look_del_self ho, fun k hk => look_del_ne hk _⟩

example : ∃ g, look 5 grouped.groups = some g ∧ Ordered g.consumers ∧ look 1 g.consumers ≠ none :=
  ⟨_, rfl, by simp [Ordered], by decide⟩

end Verif.Notify
