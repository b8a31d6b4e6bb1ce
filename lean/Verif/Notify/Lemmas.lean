import Verif.Notify.Spec
import Mathlib.Tactic.Tauto
import Mathlib.Tactic.ByContra
/-! # Lemmas on maps and on the invariant of C123 -/
namespace Verif.Notify
open Verif

variable {α : Type}

theorem look_put_self (k : Nat) (a : α) (l : List (Nat × α)) : look k (put k a l) = some a := by
  induction l with
  | nil => simp [put, look]
  | cons p l ih =>
    obtain ⟨j, b⟩ := p
    simp only [put]
    split
    · simp [look]
    · split
      · simp [look]
      · rename_i h; simp [look, h, ih]

theorem look_put_ne {k j : Nat} (h : j ≠ k) (a : α) (l : List (Nat × α)) : look j (put k a l) = look j l := by
  induction l with
  | nil => simp [put, look, Ne.symm h]
  | cons p l ih =>
    obtain ⟨i, b⟩ := p
    simp only [put]
    split
    · simp [look, Ne.symm h]
    · split
      · rename_i _ e; subst e; simp [look, Ne.symm h]
      · simp [look, ih]

theorem mem_put {k : Nat} {a : α} {l : List (Nat × α)} {p : Nat × α} (h : p ∈ put k a l) : p = (k, a) ∨ p ∈ l := by
  induction l with
  | nil => simpa [put] using h
  | cons x l ih =>
    obtain ⟨j, b⟩ := x
    simp only [put] at h
    split at h
    · simpa using h
    · split at h
      · simp only [List.mem_cons] at h ⊢; tauto
      · simp only [List.mem_cons] at h ⊢
        rcases h with h | h
        · exact .inr (.inl h)
        · rcases ih h with h | h <;> tauto

theorem mem_del {k : Nat} {l : List (Nat × α)} {p : Nat × α} (h : p ∈ del k l) : p ∈ l := by
  induction l with
  | nil => simp [del] at h
  | cons x l ih =>
    obtain ⟨j, b⟩ := x
    simp only [del] at h
    split at h
    · exact List.mem_cons_of_mem _ h
    · simp only [List.mem_cons] at h ⊢
      rcases h with h | h
      · exact .inl h
      · exact .inr (ih h)

theorem mem_of_look {k : Nat} {l : List (Nat × α)} {a : α} (h : look k l = some a) : (k, a) ∈ l := by
  induction l with
  | nil => simp [look] at h
  | cons x l ih =>
    obtain ⟨j, b⟩ := x
    simp only [look] at h
    split at h
    · rename_i e; subst e; simp only [Option.some.injEq] at h; subst h; simp
    · exact List.mem_cons_of_mem _ (ih h)

theorem look_none_of_lt {k : Nat} {l : List (Nat × α)} (h : ∀ p ∈ l, k < p.1) : look k l = none := by
  induction l with
  | nil => rfl
  | cons x l ih =>
    obtain ⟨j, b⟩ := x
    have := h (j, b) (by simp)
    simp only at this
    rw [look, if_neg (by omega)]
    exact ih fun p hp => h p (List.mem_cons_of_mem _ hp)

theorem look_del_self {k : Nat} {l : List (Nat × α)} (h : Ordered l) : look k (del k l) = none := by
  induction l with
  | nil => rfl
  | cons x l ih =>
    obtain ⟨j, b⟩ := x
    have h := List.pairwise_cons.1 h
    simp only [del]
    split
    · rename_i e; subst e; exact look_none_of_lt h.1
    · rename_i e; rw [look, if_neg e]; exact ih h.2

theorem look_del_ne {k j : Nat} (h : j ≠ k) (l : List (Nat × α)) : look j (del k l) = look j l := by
  induction l with
  | nil => rfl
  | cons x l ih =>
    obtain ⟨i, b⟩ := x
    simp only [del]
    split
    · rename_i e; subst e; rw [look, if_neg (Ne.symm h)]
    · rw [look, look, ih]

/-! ## Notification -/

theorem isGroup_address (g : Nat) : isGroup .address g = true := by simp [isGroup]

theorem notifyAll_address (wr : Int → Bool) (l : List (Nat × CS)) : notifyAll .address wr l = .ok (l, []) := by
  induction l with
  | nil => rfl
  | cons p l ih => obtain ⟨c, cs⟩ := p; simp [notifyAll, notifyOne, isGroup_address, ih]

theorem notifyAll_group {rd : Reading} (wr : Int → Bool) {l : List (Nat × CS)} (h : ∀ p ∈ l, p.2.group < 2 ^ 63) :
    notifyAll rd wr l = .ok (l, []) := by
  induction l with
  | nil => rfl
  | cons p l ih =>
    obtain ⟨c, cs⟩ := p
    have hc : isGroup rd cs.group = true := by
      have := h (c, cs) (by simp)
      cases rd
      · exact isGroup_address _
      · exact decide_eq_true this
    simp [notifyAll, notifyOne, hc, ih fun p hp => h p (List.mem_cons_of_mem _ hp)]

theorem members_put {groups : List (Nat × Grp)} (h : Members groups) {gid : Nat} {g : Grp}
    (hg : ∀ p ∈ g.consumers, p.2.group < 2 ^ 63) : Members (put gid g groups) := by
  intro x hx
  rcases mem_put hx with e | hx
  · subst e; exact hg
  · exact h x hx

theorem notifyGroups_nobody {rd : Reading} (wr : Int → Bool) {groups : List (Nat × Grp)} (h : Members groups ∨ rd = .address)
    (subs : List Nat) : ∃ gs, notifyGroups rd wr groups subs = .ok (gs, []) := by
  induction subs generalizing groups with
  | nil => exact ⟨groups, rfl⟩
  | cons gid l ih =>
    simp only [notifyGroups]
    split
    · exact ih h
    · rename_i g hg
      have e : notifyAll rd wr g.consumers = .ok (g.consumers, []) := by
        rcases h with h | h
        · exact notifyAll_group wr (h _ (mem_of_look hg))
        · subst h; exact notifyAll_address _ _
      obtain ⟨gs, hgs⟩ := ih (groups := put gid ⟨g.consumers, g.tables⟩ groups)
        (h.imp (fun h => members_put h (h _ (mem_of_look hg))) id)
      exact ⟨gs, by simp [e, hgs]⟩

theorem notifyOne_sound (wr : Int → Bool) {cs : CS} (h : Sound cs) :
    notifyOne .signed wr cs = .ok (told wr cs, decide (Due wr cs)) := by
  obtain ⟨g, rh, n, s⟩ := cs
  simp only [notifyOne, isGroup, told, Due, Own]
  rcases h with h | ⟨h, hs⟩
  · simp only at h
    have hn : ¬ g = 2 ^ 64 - 1 := by omega
    simp [h, hn]
  · simp only [Own] at h
    subst h
    cases n
    · rcases hs with hs | ⟨fd, hs⟩ <;> simp only at hs <;> subst hs
      · simp [Reach]
      · by_cases h0 : fd = 0
        · simp [Reach, h0]
        · cases hw : wr fd <;> simp [Reach, h0, hw]
    · simp

theorem notifyAll_sound (wr : Int → Bool) {l : List (Nat × CS)} (h : ∀ p ∈ l, Sound p.2) :
    notifyAll .signed wr l = .ok (l.map fun p => (p.1, told wr p.2),
      (l.filter fun p => decide (Due wr p.2)).map Prod.fst) := by
  induction l with
  | nil => rfl
  | cons p l ih =>
    obtain ⟨c, cs⟩ := p
    simp only [notifyAll, notifyOne_sound wr (h (c, cs) (by simp)), ih fun p hp => h p (List.mem_cons_of_mem _ hp)]
    by_cases hd : Due wr cs <;> simp [hd]

/-- What a notification changes in a state. -/
theorem notifyOne_keeps {rd : Reading} {wr : Int → Bool} {cs a : CS} {b : Bool} (h : notifyOne rd wr cs = .ok (a, b)) :
    a.readHead = cs.readHead := by
  simp only [notifyOne] at h
  repeat' split at h
  all_goals first | (simp only [Res.ok.injEq, Prod.mk.injEq] at h; rw [← h.1]) | cases h

theorem notifyAll_keeps {rd : Reading} {wr : Int → Bool} {l l' : List (Nat × CS)} {t : List Nat}
    (h : notifyAll rd wr l = .ok (l', t)) : ∀ p ∈ l', ∃ cs, (p.1, cs) ∈ l ∧ p.2.readHead = cs.readHead := by
  induction l generalizing l' t with
  | nil => simp only [notifyAll, Res.ok.injEq, Prod.mk.injEq] at h; rw [← h.1]; simp
  | cons x l ih =>
    obtain ⟨c, cs⟩ := x
    simp only [notifyAll] at h
    cases h1 : notifyOne rd wr cs with
    | ok a =>
      cases h2 : notifyAll rd wr l with
      | ok b =>
        simp only [h1, h2, Res.ok_bind, Res.pure_eq, Res.ok.injEq, Prod.mk.injEq] at h
        rw [← h.1]
        intro p hp
        rcases List.mem_cons.1 hp with e | hp
        · subst e; exact ⟨cs, by simp, notifyOne_keeps h1⟩
        · obtain ⟨y, hy, e⟩ := ih (l' := b.1) (t := b.2) (by rw [h2]) p hp
          exact ⟨y, List.mem_cons_of_mem _ hy, e⟩
      | _ => simp [h1, h2] at h
    | _ => simp [h1] at h

/-- A subscriber due is among those told, if the notification comes through. -/
theorem notifyAll_due {wr : Int → Bool} {l l' : List (Nat × CS)} {t : List Nat}
    (h : notifyAll .signed wr l = .ok (l', t)) {c : Nat} {cs : CS} (hm : (c, cs) ∈ l) (hd : Due wr cs) : c ∈ t := by
  induction l generalizing l' t with
  | nil => simp at hm
  | cons x l ih =>
    obtain ⟨k, x⟩ := x
    simp only [notifyAll] at h
    cases h1 : notifyOne .signed wr x with
    | ok a =>
      cases h2 : notifyAll .signed wr l with
      | ok b =>
        simp only [h1, h2, Res.ok_bind, Res.pure_eq, Res.ok.injEq, Prod.mk.injEq] at h
        rw [← h.2]
        rcases List.mem_cons.1 hm with e | hm
        · simp only [Prod.mk.injEq] at e
          obtain ⟨rfl, rfl⟩ := e
          have hs : Sound cs := by
            refine .inr ⟨hd.1, ?_⟩
            have := hd.2.2
            cases hk : cs.sink <;> simp_all [Reach]
          rw [notifyOne_sound wr hs] at h1
          simp only [Res.ok.injEq] at h1
          rw [← h1]
          simp [hd]
        · have := ih (l' := b.1) (t := b.2) (by rw [h2]) hm
          split <;> simp [this]
      | _ => simp [h1, h2] at h
    | _ => simp [h1] at h

/-- Those told are among the subscribers. -/
theorem notifyAll_from {rd : Reading} {wr : Int → Bool} {l l' : List (Nat × CS)} {t : List Nat}
    (h : notifyAll rd wr l = .ok (l', t)) {c : Nat} (hc : c ∈ t) :
    ∃ cs, (c, cs) ∈ l ∧ 2 ^ 63 ≤ cs.group := by
  induction l generalizing l' t with
  | nil => simp only [notifyAll, Res.ok.injEq, Prod.mk.injEq] at h; rw [← h.2] at hc; simp at hc
  | cons x l ih =>
    obtain ⟨k, x⟩ := x
    simp only [notifyAll] at h
    cases h1 : notifyOne rd wr x with
    | ok a =>
      cases h2 : notifyAll rd wr l with
      | ok b =>
        simp only [h1, h2, Res.ok_bind, Res.pure_eq, Res.ok.injEq, Prod.mk.injEq] at h
        rw [← h.2] at hc
        have tl : c ∈ b.2 → ∃ cs, (c, cs) ∈ (k, x) :: l ∧ 2 ^ 63 ≤ cs.group := fun hb => by
          obtain ⟨y, hy, e⟩ := ih (l' := b.1) (t := b.2) (by rw [h2]) hb
          exact ⟨y, List.mem_cons_of_mem _ hy, e⟩
        split at hc
        · rename_i ha
          rcases List.mem_cons.1 hc with e | hc
          · subst e
            refine ⟨x, by simp, ?_⟩
            by_contra hg
            have : isGroup rd x.group = true := by
              cases rd
              · exact isGroup_address _
              · exact decide_eq_true (by omega)
            simp only [notifyOne, this, if_true, Res.ok.injEq] at h1
            rw [← h1] at ha
            simp at ha
          · exact tl hc
        · exact tl hc
      | _ => simp [h1, h2] at h
    | _ => simp [h1] at h

/-! ## The invariant of C123 -/

/-- No read head is behind the last entry, and who is told has entries to read. -/
def Fresh (r : Row) : Prop :=
  0 ≤ r.noEntries ∧ ∀ p ∈ r.consumers, p.2.readHead ≤ r.noEntries - 1 ∧
    (p.2.notified = true → p.2.readHead < r.noEntries - 1)

def AllFresh (d : Db) : Prop := ∀ x ∈ d.queues, Fresh x.2

theorem allFresh_put {d : Db} (h : AllFresh d) {q : Nat} {r : Row} (hr : Fresh r) {gs : List (Nat × Grp)} :
    AllFresh ⟨put q r d.queues, gs⟩ := by
  intro x hx
  rcases mem_put hx with e | hx
  · subst e; exact hr
  · exact h x hx

theorem fresh_subscribeRow {r : Row} (h : Fresh r) (c group : Nat) (s : Sink) : Fresh (subscribeRow r c group s).1 := by
  simp only [subscribeRow]
  split
  · exact h
  · refine ⟨h.1, fun p hp => ?_⟩
    rcases mem_put hp with e | hp
    · subst e
      have := h.1
      exact ⟨show (-1 : Int) ≤ r.noEntries - 1 by omega, by simp [newConsumer]⟩
    · exact h.2 p hp

theorem fresh_headersOf (gid : Nat) {r : Row} (h : Fresh r) (l : List (Nat × CS)) : Fresh (headersOf gid r l) := by
  induction l generalizing r with
  | nil => exact h
  | cons p l ih => exact ih (fresh_subscribeRow h _ _ _)

theorem fresh_headers (groups : List (Nat × Grp)) {r : Row} (h : Fresh r) (l : List Nat) : Fresh (headers groups r l) := by
  induction l generalizing r with
  | nil => exact h
  | cons g l ih =>
    simp only [headers]
    split
    · exact ih h
    · exact ih (fresh_headersOf _ h _)

theorem fresh_of_look {d : Db} (h : AllFresh d) {q : Nat} {r : Row} (hr : look q d.queues = some r) : Fresh r :=
  h _ (mem_of_look hr)

theorem fresh_enqueue {rd : Reading} {wr : Int → Bool} {d : Db} (h : AllFresh d) {q : Nat} {x : Db × List Nat}
    (hx : enqueue rd wr d q = .ok x) : AllFresh x.1 := by
  simp only [enqueue, reserve, announce] at hx
  cases hr : look q d.queues with
  | none =>
    simp only [hr, Res.ok.injEq] at hx
    rw [← hx]; exact h
  | some r =>
    simp only [hr, look_put_self] at hx
    cases h1 : notifyAll rd wr r.consumers with
    | ok a =>
      cases h2 : notifyGroups rd wr d.groups r.subs with
      | ok b =>
        simp only [h1, h2, Res.ok_bind, Res.pure_eq, Res.ok.injEq] at hx
        rw [← hx]
        have hf := fresh_of_look h hr
        have h' : AllFresh ⟨put q ⟨r.noEntries + 1, a.1, r.subs⟩
            (put q ⟨r.noEntries + 1, r.consumers, r.subs⟩ d.queues), b.1⟩ := by
          intro y hy
          have key : Fresh ⟨r.noEntries + 1, a.1, r.subs⟩ := by
            refine ⟨by have := hf.1; simp only; omega, fun p hp => ?_⟩
            obtain ⟨cs, hm, e⟩ := notifyAll_keeps (l' := a.1) (t := a.2) (by rw [h1]) p hp
            have := (hf.2 _ hm).1
            simp only at this ⊢
            rw [e]
            exact ⟨by omega, fun _ => by omega⟩
          rcases mem_put hy with e | hy
          · subst e; exact key
          · rcases mem_put hy with e | hy
            · subst e
              refine ⟨by have := hf.1; simp only; omega, fun p hp => ?_⟩
              have := (hf.2 _ hp).1
              simp only
              exact ⟨by omega, fun _ => by omega⟩
            · exact h y hy
        exact h'
      | _ => simp [h1, h2] at hx
    | _ => simp [h1] at hx

theorem fresh_read {d : Db} (h : AllFresh d) {q c : Nat} {max : Int} (hm : 0 < max) {x : Db × Int}
    (hx : read d q c max = .ok x) : AllFresh x.1 := by
  simp only [read] at hx
  cases hr : look q d.queues with
  | none => simp only [hr, Res.ok.injEq] at hx; rw [← hx]; exact h
  | some r =>
    have hf := fresh_of_look h hr
    cases hc : look c r.consumers with
    | none => simp only [hr, hc, Res.ok.injEq] at hx; rw [← hx]; exact h
    | some cs =>
      simp only [hr, hc] at hx
      split at hx
      · cases hx
      · split at hx
        · simp only [Res.ok.injEq] at hx; rw [← hx]; exact h
        · have key : Fresh ⟨r.noEntries, put c (advance cs r.noEntries (cmin (cs.readHead + max) (r.noEntries - 1)))
              r.consumers, r.subs⟩ := by
            refine ⟨hf.1, fun p hp => ?_⟩
            rcases mem_put hp with e | hp
            · subst e
              by_cases h1 : cs.readHead + max < r.noEntries - 1
              · have e : cmin (cs.readHead + max) (r.noEntries - 1) = cs.readHead + max := if_pos h1
                rw [e]
                exact ⟨show cs.readHead + max ≤ r.noEntries - 1 by omega, fun _ => h1⟩
              · have e : cmin (cs.readHead + max) (r.noEntries - 1) = r.noEntries - 1 := if_neg h1
                rw [e]
                exact ⟨Int.le_refl _, fun e => by simp [advance] at e⟩
            · exact hf.2 p hp
          split at hx <;> simp only [Res.ok.injEq] at hx <;> rw [← hx] <;> exact allFresh_put h key

theorem fresh_step {rd : Reading} {wr : Int → Bool} {d : Db} (h : AllFresh d) {o : Op} (ho : Plain o)
    {x : Db × List Nat} (hx : step rd wr d o = .ok x) : AllFresh x.1 := by
  cases o with
  | create q subs =>
    simp only [step, Res.ok.injEq] at hx; rw [← hx]
    simp only [create]
    split
    · exact h
    · exact allFresh_put h (fresh_headers _ ⟨Int.le_refl _, by simp⟩ _)
  | refresh q subs =>
    simp only [step, Res.ok.injEq] at hx; rw [← hx]
    simp only [refresh]
    split
    · exact h
    · rename_i r hr
      have hf : Fresh ⟨r.noEntries, r.consumers, subs⟩ := ⟨(fresh_of_look h hr).1, (fresh_of_look h hr).2⟩
      exact allFresh_put h (fresh_headers _ hf _)
  | subscribe q c s =>
    simp only [step, Res.ok.injEq] at hx; rw [← hx]
    simp only [subscribe]
    split
    · exact h
    · rename_i r hr
      exact allFresh_put h (fresh_subscribeRow (fresh_of_look h hr) _ _ _)
  | handle q c fd =>
    simp only [step, Res.ok.injEq] at hx; rw [← hx]
    simp only [handleSubscribe, subscribe]
    split
    · exact h
    · rename_i r hr
      exact allFresh_put h (fresh_subscribeRow (fresh_of_look h hr) _ _ _)
  | subscribeGroup g c s =>
    simp only [step, Res.ok.injEq] at hx; rw [← hx]
    simp only [subscribeGroup]
    split <;> exact h
  | unsubscribe q c =>
    simp only [step, Res.ok.injEq] at hx; rw [← hx]
    simp only [unsubscribe]
    split
    · exact h
    · rename_i r hr
      have hf := fresh_of_look h hr
      exact allFresh_put (q := q) (r := ⟨r.noEntries, del c r.consumers, r.subs⟩) h ⟨hf.1, fun p hp => hf.2 p (mem_del hp)⟩
  | unsubscribeGroup g c =>
    simp only [step, Res.ok.injEq] at hx; rw [← hx]
    simp only [unsubscribeGroup]
    split <;> exact h
  | enqueue q => exact fresh_enqueue h hx
  | read q c max =>
    simp only [step] at hx
    cases hy : read d q c max with
    | ok y =>
      simp only [hy, Res.ok_bind, Res.pure_eq, Res.ok.injEq] at hx
      rw [← hx]; exact fresh_read h ho hy
    | _ => simp [hy] at hx
  | _ => exact absurd ho (by simp [Plain])

theorem fresh_run {rd : Reading} {wr : Int → Bool} {d : Db} (h : AllFresh d) {os : List Op} (ho : ∀ o ∈ os, Plain o)
    {d' : Db} (hx : run rd wr d os = .ok d') : AllFresh d' := by
  induction os generalizing d with
  | nil => simp only [run, Res.ok.injEq] at hx; rw [← hx]; exact h
  | cons o os ih =>
    simp only [run] at hx
    cases hy : step rd wr d o with
    | ok y =>
      simp only [hy, Res.ok_bind] at hx
      exact ih (fresh_step h (ho o (by simp)) hy) (fun p hp => ho p (List.mem_cons_of_mem _ hp)) hx
    | _ => simp [hy] at hx

/-! ## Headers -/

/-- The consumers of a row, with their states, are there in another. -/
def Kept (r r' : Row) : Prop :=
  r'.noEntries = r.noEntries ∧ ∀ c cs, look c r.consumers = some cs → look c r'.consumers = some cs

theorem Kept.trans {a b c : Row} (h : Kept a b) (k : Kept b c) : Kept a c :=
  ⟨k.1.trans h.1, fun x cs hx => k.2 x cs (h.2 x cs hx)⟩

theorem kept_subscribeRow (r : Row) (c g : Nat) (s : Sink) : Kept r (subscribeRow r c g s).1 := by
  simp only [subscribeRow]
  split
  · exact ⟨rfl, fun _ _ h => h⟩
  · rename_i hn
    refine ⟨rfl, fun x cs hx => ?_⟩
    have : x ≠ c := by rintro rfl; rw [hn] at hx; cases hx
    show look x (put c _ r.consumers) = some cs
    rw [look_put_ne this]; exact hx

theorem has_subscribeRow (r : Row) (c g : Nat) (s : Sink) : (look c (subscribeRow r c g s).1.consumers).isSome := by
  simp only [subscribeRow]
  split
  · rename_i h; simp [h]
  · simp [look_put_self]

theorem kept_headersOf (gid : Nat) (r : Row) (l : List (Nat × CS)) : Kept r (headersOf gid r l) := by
  induction l generalizing r with
  | nil => exact ⟨rfl, fun _ _ h => h⟩
  | cons p l ih => exact (kept_subscribeRow r _ _ _).trans (ih _)

theorem has_headersOf (gid : Nat) (r : Row) (l : List (Nat × CS)) {p : Nat × CS} (hp : p ∈ l) :
    (look p.1 (headersOf gid r l).consumers).isSome := by
  induction l generalizing r with
  | nil => simp at hp
  | cons x l ih =>
    rcases List.mem_cons.1 hp with e | hp
    · subst e
      have := has_subscribeRow r p.1 gid .null
      obtain ⟨cs, hcs⟩ := Option.isSome_iff_exists.1 this
      simp [headersOf, (kept_headersOf gid _ l).2 _ _ hcs]
    · exact ih _ hp

theorem kept_headers (groups : List (Nat × Grp)) (r : Row) (l : List Nat) : Kept r (headers groups r l) := by
  induction l generalizing r with
  | nil => exact ⟨rfl, fun _ _ h => h⟩
  | cons g l ih =>
    simp only [headers]
    split
    · exact ih r
    · exact (kept_headersOf _ r _).trans (ih _)

theorem has_headers (groups : List (Nat × Grp)) (r : Row) (l : List Nat) {gid : Nat} (hg : gid ∈ l) {g : Grp}
    (hl : look gid groups = some g) {p : Nat × CS} (hp : p ∈ g.consumers) :
    (look p.1 (headers groups r l).consumers).isSome := by
  induction l generalizing r with
  | nil => simp at hg
  | cons x l ih =>
    rcases List.mem_cons.1 hg with e | hg
    · subst e
      simp only [headers, hl]
      obtain ⟨cs, hcs⟩ := Option.isSome_iff_exists.1 (has_headersOf gid r g.consumers hp)
      simp [(kept_headers groups _ l).2 _ _ hcs]
    · simp only [headers]
      split
      · exact ih _ hg
      · exact ih _ hg

/-- New heads are before the first entry. -/
theorem low_headersOf (gid : Nat) {r : Row} (h : ∀ p ∈ r.consumers, -1 ≤ p.2.readHead) (l : List (Nat × CS)) :
    ∀ p ∈ (headersOf gid r l).consumers, -1 ≤ p.2.readHead := by
  induction l generalizing r with
  | nil => exact h
  | cons x l ih =>
    refine ih (r := (subscribeRow r x.1 gid .null).1) ?_
    simp only [subscribeRow]
    split
    · exact h
    · intro p hp
      rcases mem_put hp with e | hp
      · subst e; exact Int.le_refl _
      · exact h p hp

theorem low_headers (groups : List (Nat × Grp)) {r : Row} (h : ∀ p ∈ r.consumers, -1 ≤ p.2.readHead) (l : List Nat) :
    ∀ p ∈ (headers groups r l).consumers, -1 ≤ p.2.readHead := by
  induction l generalizing r with
  | nil => exact h
  | cons g l ih =>
    simp only [headers]
    split
    · exact ih h
    · exact ih (low_headersOf _ h _)

end Verif.Notify
