import Verif.Persist.Lemmas

/-!
# Persist: the invariant

`Inv prog x pb c`: the committed part of configuration `c` is the system `x`, and the memory is ahead of
it by what the workers have done since.  `pb` is the actor whose worker has committed but not yet
flushed its messages locally, if there is one.
-/
namespace Verif.Persist

variable {S K : Type}

/-- Messages committed but not yet in the inboxes. -/
def pendL (pb : Option Nat) (out : Nat → List Nat) : List Nat :=
  match pb with
  | none => []
  | some b => out b

theorem pendL_congr {pb : Option Nat} {f g : Nat → List Nat} (h : ∀ b, pb = some b → f b = g b) :
    pendL pb f = pendL pb g := by
  cases pb with
  | none => rfl
  | some b => exact h b rfl

def pend (pb : Option Nat) (c : Cfg S K) (a : Nat) : List Nat := sel c.mem.msgs (pendL pb c.mem.outgoing) a

/-- The inbox without the message dealt with. -/
def left (pb : Option Nat) (c : Cfg S K) (a : Nat) : List Nat :=
  if pb = some a then (c.mem.inbox a).tail else c.mem.inbox a

def NoJob (c : Cfg S K) (a : Nat) : Prop := ∀ w j, c.mem.jobs w = some j → j.a ≠ a

def Queue.rest (q : Queue) : List Nat := q.entries.drop q.co

structure Inv (prog : Prog S K) (x : Sys S K) (pb : Option Nat) (c : Cfg S K) : Prop where
  fresh : ∀ id, c.mem.next ≤ id → c.mem.msgs id = none
  lt : ∀ a, ∀ id ∈ (c.db.queue a).entries, id < c.mem.next
  nodupE : ∀ a, (c.db.queue a).entries.Nodup
  disjE : ∀ a b id, id ∈ (c.db.queue a).entries → id ∈ (c.db.queue b).entries → a = b
  outNodup : ∀ a, (c.mem.outgoing a).Nodup
  outDisj : ∀ a b id, id ∈ c.mem.outgoing a → id ∈ c.mem.outgoing b → a = b
  outNew : ∀ a b id, pb ≠ some a → id ∈ c.mem.outgoing a → id ∉ (c.db.queue b).entries
  coLe : ∀ a, (c.db.queue a).co ≤ (c.db.queue a).entries.length
  waits : ∀ a, c.mem.waits a = none
  timers : c.mem.timers = []
  mover : c.mem.mover = none
  tq : c.db.timer.entries.length ≤ c.db.timer.rd
  jobUniq : ∀ w j w' j', c.mem.jobs w = some j → c.mem.jobs w' = some j' → j.a = j'.a → w = w'
  jobOk : ∀ w j, c.mem.jobs w = some j → j.next = .done ∧ ∃ r, c.mem.inbox j.a = j.m :: r
  ready : ∀ a, c.mem.ready a = true ↔ c.mem.inbox a ≠ [] ∧ NoJob c a
  comm : ∀ w j, c.mem.jobs w = some j → (j.phase = .committed ↔ pb = some j.a)
  commJ : ∀ b, pb = some b → ∃ w j, c.mem.jobs w = some j ∧ j.a = b
  rdEq : ∀ a, (∀ w j h, c.mem.jobs w = some j → j.a = a → j.phase ≠ .read h) →
    (c.db.queue a).rd = (c.db.queue a).co
  rdJ : ∀ w j h, c.mem.jobs w = some j → j.phase = .read h →
    (c.db.queue j.a).rd = (c.db.queue j.a).co + 1 ∧ h = (c.db.queue j.a).rd
  box : ∀ a, left pb c a ++ pend pb c a = (c.db.queue a).rest
  inE : ∀ a id, id ∈ c.mem.inbox a → id ∈ (c.db.queue a).entries
  nodupI : ∀ a, (c.mem.inbox a ++ pend pb c a).Nodup
  xst : ∀ a, c.db.actors a = (x.st a).map fun s => ⟨s, none⟩
  xbox : ∀ a, (c.db.queue a).rest.map c.db.msgs = (x.box a).map fun k => some ⟨a, k, none, false⟩
  alive : ∀ a, (c.db.queue a).rest ≠ [] ∨ c.mem.inbox a ≠ [] → (x.st a).isSome
  msgI : ∀ a id, id ∈ c.mem.inbox a → ∃ k, c.mem.msgs id = some ⟨a, k, none, false⟩
  tailEq : ∀ a id, id ∈ (c.mem.inbox a).tail → c.mem.msgs id = c.db.msgs id
  outEq : ∀ b, pb = some b → ∀ id ∈ c.mem.outgoing b, c.mem.msgs id = c.db.msgs id
  outMsg : ∀ a id, id ∈ c.mem.outgoing a →
    ∃ d k, c.mem.msgs id = some ⟨d, k, none, false⟩ ∧ (c.db.actors d).isSome
  empty : ∀ a, c.mem.inbox a = [] → c.mem.st a = x.st a ∧ c.mem.outgoing a = []
  committed : ∀ a, pb = some a → c.mem.st a = x.st a
  part : ∀ a m r, c.mem.inbox a = m :: r → NoJob c a → ∃ s k₀ s₁ k₁ o,
    x.st a = some s ∧ c.db.msgs m = some ⟨a, k₀, none, false⟩ ∧ c.mem.st a = some s₁ ∧
    c.mem.msgs m = some ⟨a, k₁, none, false⟩ ∧ Part prog a s k₀ s₁ k₁ o ∧
    Outs c.mem.msgs (c.mem.outgoing a) o
  full : ∀ w j, c.mem.jobs w = some j → pb ≠ some j.a → ∃ s k₀ s₁ o,
    x.st j.a = some s ∧ c.db.msgs j.m = some ⟨j.a, k₀, none, false⟩ ∧ c.mem.st j.a = some s₁ ∧
    Exec prog j.a s k₀ s₁ o ∧ Outs c.mem.msgs (c.mem.outgoing j.a) o

namespace Inv

variable {prog : Prog S K} {x : Sys S K} {pb : Option Nat} {c : Cfg S K}

theorem ltI (I : Inv prog x pb c) {a id : Nat} (h : id ∈ c.mem.inbox a) : id < c.mem.next := by
  obtain ⟨k, hk⟩ := I.msgI a id h
  by_cases hl : id < c.mem.next
  · exact hl
  · rw [I.fresh id (by omega)] at hk; cases hk

theorem ltO (I : Inv prog x pb c) {a id : Nat} (h : id ∈ c.mem.outgoing a) : id < c.mem.next := by
  obtain ⟨d, k, hk, _⟩ := I.outMsg a id h
  by_cases hl : id < c.mem.next
  · exact hl
  · rw [I.fresh id (by omega)] at hk; cases hk

theorem now (I : Inv prog x pb c) (a : Nat) : Now c.mem.msgs (c.mem.outgoing a) := by
  intro id h
  obtain ⟨d, k, hk, _⟩ := I.outMsg a id h
  exact ⟨_, hk, rfl⟩

/-- Messages in different inboxes differ. -/
theorem inboxDisj (I : Inv prog x pb c) {a b id : Nat} (ha : id ∈ c.mem.inbox a)
    (hb : id ∈ c.mem.inbox b) : a = b := by
  obtain ⟨k, hk⟩ := I.msgI a id ha
  obtain ⟨k', hk'⟩ := I.msgI b id hb
  rw [hk] at hk'
  simp only [Option.some.injEq, Msg.mk.injEq] at hk'
  exact hk'.1

/-- The message dealt with is not among the outgoing ones. -/
theorem notOut (I : Inv prog x pb c) {a b id : Nat} (h : id ∈ c.mem.inbox a) :
    id ∉ c.mem.outgoing b := by
  intro ho
  by_cases hb : pb = some b
  · obtain ⟨k, hk⟩ := I.msgI a id h
    have hm : id ∈ pend pb c a := by
      rw [pend, sel_mem, hb]
      exact ⟨ho, by simp [destOf, hk]⟩
    exact (List.nodup_append.mp (I.nodupI a)).2.2 id h id hm rfl
  · exact I.outNew b a id hb ho (I.inE a id h)

theorem headTail (I : Inv prog x pb c) {a m : Nat} {r : List Nat} (h : c.mem.inbox a = m :: r) :
    m ∉ r := by
  have := (List.nodup_append.mp (I.nodupI a)).1
  rw [h] at this
  exact (List.nodup_cons.mp this).1

theorem pendLt (I : Inv prog x pb c) {id : Nat} (h : id ∈ pendL pb c.mem.outgoing) : id < c.mem.next := by
  cases hp : pb with
  | none => rw [hp] at h; simp [pendL] at h
  | some b => rw [hp] at h; exact I.ltO h

theorem pendMem (I : Inv prog x pb c) {id : Nat} (h : id ∈ pendL pb c.mem.outgoing) : ∃ b, pb = some b ∧
    id ∈ c.mem.outgoing b := by
  cases hp : pb with
  | none => rw [hp] at h; simp [pendL] at h
  | some b => rw [hp] at h; exact ⟨b, rfl, h⟩

end Inv

/-! ## Running a continuation -/

/-- The two ways in which a plain continuation ends. -/
def RunEnd (prog : Prog S K) (c : Cfg S K) (w a m : Nat) (s : S) (k : K) (s' : S) (outs : List (Out K))
    (ids : List Nat) (k' : K) (ready' : Nat → Bool) (jobs' : Nat → Option (Job K)) : Prop :=
  (prog a s k = (s', outs, .cont k') ∧ ready' = c.mem.ready ∧ jobs' = c.mem.jobs) ∨
  (prog a s k = (s', outs, .done) ∧ ready' = upd c.mem.ready a false ∧
    jobs' = upd c.mem.jobs w (some ⟨a, m, ids, .done, .returned⟩))

theorem run_inv {prog : Prog S K} {x : Sys S K} {pb : Option Nat} {c : Cfg S K} (I : Inv prog x pb c)
    {w a m : Nat} {r : List Nat} {s s' : S} {k k' : K} {outs : List (Out K)} {o : Sent K}
    {msgs' : Nat → Option (Msg K)} {ready' : Nat → Bool} {jobs' : Nat → Option (Job K)}
    (hw : c.mem.jobs w = none) (hr : c.mem.ready a = true) (hi : c.mem.inbox a = m :: r)
    (hs : c.mem.st a = some s) (hk : c.mem.msgs m = some ⟨a, k, none, false⟩)
    (ho : outs = o.map (fun p => .async p.1 p.2))
    (hod : ∀ p ∈ o, (c.db.actors p.1).isSome)
    (hend : RunEnd prog c w a m s k s' outs (newIds c.mem.next outs.length) k' ready' jobs')
    (hold : ∀ id, id < c.mem.next → id ≠ m → msgs' id = c.mem.msgs id)
    (hm : ∃ k'', msgs' m = some ⟨a, k'', none, false⟩ ∧ (jobs' = c.mem.jobs → k'' = k'))
    (hnew : Outs msgs' (newIds c.mem.next outs.length) o)
    (hfr : ∀ id, c.mem.next + outs.length ≤ id → msgs' id = none) :
    Inv prog x pb ⟨{ c.mem with
      st := upd c.mem.st a (some s')
      msgs := msgs'
      next := c.mem.next + outs.length
      outgoing := upd c.mem.outgoing a (c.mem.outgoing a ++ newIds c.mem.next outs.length)
      ready := ready'
      jobs := jobs' }, c.db⟩ := by
  obtain ⟨hin, hnj⟩ := (I.ready a).mp hr
  have hpa : pb ≠ some a := by
    intro h
    obtain ⟨w', j, hj, ha⟩ := I.commJ a h
    exact hnj w' j hj ha
  have hma : m ∈ c.mem.inbox a := by rw [hi]; exact List.mem_cons_self ..
  -- messages in inboxes and outgoing lists of others are as before
  have hInb : ∀ b id, b ≠ a → id ∈ c.mem.inbox b → msgs' id = c.mem.msgs id := fun b id hb h =>
    hold id (I.ltI h) (fun e => hb (I.inboxDisj h (e ▸ hma)))
  have hOut : ∀ b id, id ∈ c.mem.outgoing b → msgs' id = c.mem.msgs id := fun b id h =>
    hold id (I.ltO h) (fun e => I.notOut hma (e ▸ h))
  have hTail : ∀ b id, id ∈ (c.mem.inbox b).tail → msgs' id = c.mem.msgs id := by
    intro b id h
    by_cases e : b = a
    · subst e
      refine hold id (I.ltI (List.mem_of_mem_tail h)) fun e => ?_
      rw [hi] at h
      exact I.headTail hi (e ▸ h)
    · exact hInb b id e (List.mem_of_mem_tail h)
  have hpend : ∀ d, pend pb ⟨{ c.mem with
      st := upd c.mem.st a (some s')
      msgs := msgs'
      next := c.mem.next + outs.length
      outgoing := upd c.mem.outgoing a (c.mem.outgoing a ++ newIds c.mem.next outs.length)
      ready := ready'
      jobs := jobs' }, c.db⟩ d = pend pb c d := by
    intro d
    have h1 : pendL pb (upd c.mem.outgoing a
        (c.mem.outgoing a ++ newIds c.mem.next outs.length)) = pendL pb c.mem.outgoing :=
      pendL_congr fun b hb => upd_ne _ _ (fun e => hpa (by rw [hb, e]))
    show sel msgs' (pendL pb (upd c.mem.outgoing a _)) d = sel c.mem.msgs (pendL pb c.mem.outgoing) d
    rw [h1]
    refine sel_congr d fun id h => ?_
    obtain ⟨b, _, hb⟩ := I.pendMem h
    exact hOut b id hb
  have hOutgoing : ∀ b id, id ∈ upd c.mem.outgoing a
      (c.mem.outgoing a ++ newIds c.mem.next outs.length) b →
      id ∈ c.mem.outgoing b ∨ (b = a ∧ c.mem.next ≤ id ∧ id < c.mem.next + outs.length) := by
    intro b id h
    by_cases e : b = a
    · subst e
      rw [upd_same, List.mem_append, mem_newIds] at h
      rcases h with h | h
      · exact Or.inl h
      · exact Or.inr ⟨rfl, h⟩
    · rw [upd_ne _ _ e] at h; exact Or.inl h
  -- jobs
  have hjobs : ∀ w' j, jobs' w' = some j → c.mem.jobs w' = some j ∨
      (w' = w ∧ j = ⟨a, m, newIds c.mem.next outs.length, .done, .returned⟩ ∧
        jobs' = upd c.mem.jobs w (some ⟨a, m, newIds c.mem.next outs.length, .done, .returned⟩) ∧
        prog a s k = (s', outs, .done)) := by
    intro w' j h
    rcases hend with ⟨_, _, he⟩ | ⟨hp, _, he⟩
    · rw [he] at h; exact Or.inl h
    · rw [he] at h
      by_cases e : w' = w
      · subst e
        rw [upd_same] at h
        exact Or.inr ⟨rfl, (Option.some.inj h).symm, he, hp⟩
      · rw [upd_ne _ _ e] at h; exact Or.inl h
  have hjobsOld : ∀ w' j, c.mem.jobs w' = some j → jobs' w' = some j := by
    intro w' j h
    rcases hend with ⟨_, _, he⟩ | ⟨_, _, he⟩
    · rw [he]; exact h
    · rw [he, upd_ne]
      · exact h
      · intro e; rw [e, hw] at h; cases h
  obtain ⟨k'', hm', hk''⟩ := hm
  refine
    { fresh := hfr
      lt := fun b id h => by have := I.lt b id h; show id < c.mem.next + outs.length; omega
      nodupE := I.nodupE
      disjE := I.disjE
      outNodup := ?_
      outDisj := ?_
      outNew := ?_
      coLe := I.coLe
      waits := I.waits
      timers := I.timers
      mover := I.mover
      tq := I.tq
      jobUniq := ?_
      jobOk := ?_
      ready := ?_
      comm := ?_
      commJ := ?_
      rdEq := ?_
      rdJ := ?_
      box := fun d => by rw [hpend]; exact I.box d
      inE := I.inE
      nodupI := fun d => by rw [hpend]; exact I.nodupI d
      xst := I.xst
      xbox := I.xbox
      alive := I.alive
      msgI := ?_
      tailEq := fun b id h => (hTail b id h).trans (I.tailEq b id h)
      outEq := ?_
      outMsg := ?_
      empty := ?_
      committed := ?_
      part := ?_
      full := ?_ }
  · intro b
    show (upd c.mem.outgoing a _ b).Nodup
    by_cases e : b = a
    · subst e
      rw [upd_same, List.nodup_append]
      refine ⟨I.outNodup b, newIds_nodup _ _, fun i hi j hj e => ?_⟩
      have := I.ltO hi
      rw [mem_newIds] at hj
      omega
    · rw [upd_ne _ _ e]; exact I.outNodup b
  · intro b d id hb hd
    rcases hOutgoing b id hb with h1 | ⟨e1, h1, h1'⟩ <;> rcases hOutgoing d id hd with h2 | ⟨e2, h2, h2'⟩
    · exact I.outDisj b d id h1 h2
    · have := I.ltO h1; omega
    · have := I.ltO h2; omega
    · rw [e1, e2]
  · intro b d id hb h hE
    rcases hOutgoing b id h with h1 | ⟨e1, h1, h1'⟩
    · exact I.outNew b d id hb h1 hE
    · have := I.lt d id hE; omega
  · intro w₁ j₁ w₂ j₂ h1 h2 he
    rcases hjobs w₁ j₁ h1 with h1 | ⟨e1, e1', _⟩ <;> rcases hjobs w₂ j₂ h2 with h2 | ⟨e2, e2', _⟩
    · exact I.jobUniq _ _ _ _ h1 h2 he
    · exact absurd (by rw [he, e2']) (hnj _ _ h1)
    · exact absurd (by rw [← he, e1']) (hnj _ _ h2)
    · rw [e1, e2]
  · intro w' j h
    rcases hjobs w' j h with h | ⟨_, e', _⟩
    · exact I.jobOk w' j h
    · rw [e']; exact ⟨rfl, r, hi⟩
  · intro b
    show ready' b = true ↔ c.mem.inbox b ≠ [] ∧ ∀ w' j, jobs' w' = some j → j.a ≠ b
    rcases hend with ⟨_, he, he'⟩ | ⟨_, he, he'⟩
    · rw [he, he']; exact I.ready b
    · rw [he]
      by_cases e : b = a
      · subst e
        rw [upd_same]
        refine ⟨fun h => (by cases h), fun h => ?_⟩
        exact absurd rfl (h.2 w ⟨b, m, newIds c.mem.next outs.length, .done, .returned⟩
          (by rw [he', upd_same]))
      · rw [upd_ne _ _ e, I.ready b]
        refine ⟨fun h => ⟨h.1, fun w' j hj => ?_⟩, fun h => ⟨h.1, fun w' j hj => ?_⟩⟩
        · rcases hjobs w' j hj with hj | ⟨_, e', _⟩
          · exact h.2 w' j hj
          · rw [e']; exact fun h => e h.symm
        · exact h.2 w' j (hjobsOld w' j hj)
  · intro w' j h
    rcases hjobs w' j h with h | ⟨_, e', _⟩
    · exact I.comm w' j h
    · rw [e']
      exact ⟨fun h => (by cases h), fun h => absurd h hpa⟩
  · intro b hb
    obtain ⟨w', j, hj, ha⟩ := I.commJ b hb
    exact ⟨w', j, hjobsOld w' j hj, ha⟩
  · intro b hb
    exact I.rdEq b fun w' j h hj => hb w' j h (hjobsOld w' j hj)
  · intro w' j h hj hp
    rcases hjobs w' j hj with hj | ⟨_, e', _⟩
    · exact I.rdJ w' j h hj hp
    · rw [e'] at hp; cases hp
  · intro b id h
    show ∃ k, msgs' id = _
    by_cases e : id = m
    · rw [e]
      have : b = a := I.inboxDisj (e ▸ h : m ∈ c.mem.inbox b) hma
      rw [this]
      exact ⟨k'', hm'⟩
    · rw [hold id (I.ltI h) e]
      exact I.msgI b id h
  · intro b hb id h
    show msgs' id = _
    have e : b ≠ a := fun e => hpa (by rw [hb, e])
    have h : id ∈ c.mem.outgoing b := by
      rcases hOutgoing b id h with h | ⟨e', _⟩
      · exact h
      · exact absurd e' e
    rw [hOut b id h]
    exact I.outEq b hb id h
  · intro b id h
    show ∃ d k, msgs' id = _ ∧ _
    by_cases hl : id < c.mem.next
    · have h : id ∈ c.mem.outgoing b := by
        rcases hOutgoing b id h with h | ⟨_, h1, _⟩
        · exact h
        · omega
      rw [hOut b id h]
      exact I.outMsg b id h
    · have hn : id ∈ newIds c.mem.next outs.length := by
        rcases hOutgoing b id h with h | ⟨_, h1, h2⟩
        · exact absurd (I.ltO h) hl
        · rw [mem_newIds]; exact ⟨h1, h2⟩
      have : msgs' id ∈ (newIds c.mem.next outs.length).map msgs' := List.mem_map_of_mem hn
      rw [hnew] at this
      obtain ⟨p, hp, he⟩ := List.mem_map.mp this
      exact ⟨p.1, p.2, he.symm, hod p hp⟩
  · intro b hb
    have e : b ≠ a := by
      intro e
      have hb' : c.mem.inbox b = [] := hb
      rw [e, hi] at hb'; cases hb'
    refine ⟨?_, ?_⟩
    · show upd c.mem.st a _ b = _
      rw [upd_ne _ _ e]; exact (I.empty b hb).1
    · show upd c.mem.outgoing a _ b = _
      rw [upd_ne _ _ e]; exact (I.empty b hb).2
  · intro b hb
    have e : b ≠ a := fun e => hpa (by rw [hb, e])
    show upd c.mem.st a _ b = _
    rw [upd_ne _ _ e]; exact I.committed b hb
  · intro b m' r' hb hnj'
    have hnjb : NoJob c b := fun w' j h => hnj' w' j (hjobsOld w' j h)
    obtain ⟨s₀, k₀, s₁, k₁, o₁, h1, h2, h3, h4, h5, h6⟩ := I.part b m' r' hb hnjb
    by_cases e : b = a
    · subst e
      have hmm : m' = m := by
        have hb' : c.mem.inbox b = m' :: r' := hb
        rw [hi] at hb'; exact (List.cons.inj hb').1.symm
      subst hmm
      rcases hend with ⟨hp, _, he⟩ | ⟨_, _, he⟩
      · rw [hs] at h3; rw [hk] at h4
        have e3 := Option.some.inj h3
        have e4 : k = k₁ := by
          simp only [Option.some.injEq, Msg.mk.injEq] at h4; exact h4.2.1
        subst e3; subst e4
        refine ⟨s₀, k₀, s', k', o₁ ++ o, h1, h2, upd_same .., ?_, .tail h5 hp ho, ?_⟩
        · show msgs' m' = _
          rw [hm', hk'' he]
        · show Outs msgs' (upd c.mem.outgoing b _ b) _
          rw [upd_same]
          exact (h6.congr (hOut b)).append hnew
      · refine absurd rfl (hnj' w ⟨b, m', newIds c.mem.next outs.length, .done, .returned⟩ ?_)
        show jobs' w = _
        rw [he, upd_same]
    · refine ⟨s₀, k₀, s₁, k₁, o₁, h1, h2, ?_, ?_, h5, ?_⟩
      · show upd c.mem.st a _ b = _
        rw [upd_ne _ _ e]; exact h3
      · show msgs' m' = _
        have hb' : c.mem.inbox b = m' :: r' := hb
        rw [hInb b m' e (by rw [hb']; exact List.mem_cons_self ..)]; exact h4
      · show Outs msgs' (upd c.mem.outgoing a _ b) _
        rw [upd_ne _ _ e]
        exact h6.congr (hOut b)
  · intro w' j hj hp
    rcases hjobs w' j hj with hj | ⟨_, e', _, hpr⟩
    · obtain ⟨s₀, k₀, s₁, o₁, h1, h2, h3, h4, h5⟩ := I.full w' j hj hp
      have e : j.a ≠ a := hnj w' j hj
      refine ⟨s₀, k₀, s₁, o₁, h1, h2, ?_, h4, ?_⟩
      · show upd c.mem.st a _ j.a = _
        rw [upd_ne _ _ e]; exact h3
      · show Outs msgs' (upd c.mem.outgoing a _ j.a) _
        rw [upd_ne _ _ e]
        exact h5.congr (hOut j.a)
    · subst e'
      obtain ⟨s₀, k₀, s₁, k₁, o₁, h1, h2, h3, h4, h5, h6⟩ := I.part a m r hi hnj
      rw [hs] at h3; rw [hk] at h4
      have e3 := Option.some.inj h3
      have e4 : k = k₁ := by
        simp only [Option.some.injEq, Msg.mk.injEq] at h4; exact h4.2.1
      subst e3; subst e4
      refine ⟨s₀, k₀, s', o₁ ++ o, h1, h2, upd_same .., h5.exec (.done hpr ho), ?_⟩
      show Outs msgs' (upd c.mem.outgoing a _ a) _
      rw [upd_same]
      exact (h6.congr (hOut a)).append hnew

end Verif.Persist
