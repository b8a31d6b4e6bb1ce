import Verif.Persist.Inv

/-!
# Persist: the events preserve the invariant
-/
namespace Verif.Persist

variable {S K : Type} {prog : Prog S K} {x : Sys S K} {pb : Option Nat} {c : Cfg S K}

/-- A worker takes an actor and runs a plain continuation. -/
theorem Inv.run (I : Inv prog x pb c) {w a : Nat} {e : Cfg S K} (hp : Plain prog c a)
    (h : step prog c (.run w a) = some e) : Inv prog x pb e := by
  simp only [step, tryRun] at h
  split at h
  case h_2 => cases h
  rename_i m r s hw hr hi hs
  obtain ⟨k, hk⟩ := I.msgI a m (by rw [hi]; exact List.mem_cons_self ..)
  obtain ⟨hnw, o, ho, hod⟩ := hp m r s _ hi hs hk
  rw [hk] at h
  simp only [Option.some.injEq] at h
  subst h
  rcases hpr : prog a s k with ⟨s', outs, nx⟩
  simp only [hpr] at hnw ho
  have hnew : (newIds c.mem.next outs.length).map (addMsgs a c.mem.msgs c.mem.next outs) =
      o.map fun p => some ⟨p.1, p.2, none, false⟩ := by
    rw [addMsgs_new, ho, List.map_map]
    rfl
  have hml : m < c.mem.next := I.ltI (by rw [hi]; exact List.mem_cons_self ..)
  have hmA : addMsgs a c.mem.msgs c.mem.next outs m = some ⟨a, k, none, false⟩ := by
    rw [addMsgs_old _ _ _ _ _ (Or.inl hml), hk]
  cases nx with
  | wait k' i => exact absurd rfl (hnw k' i)
  | cont k' =>
    simp only [runStep, hpr]
    refine run_inv I hw hr hi hs hk ho hod (Or.inl ⟨hpr, rfl, rfl⟩) ?_ ?_ ?_ ?_
    · intro id hl hne
      rw [setK_ne _ _ hne, addMsgs_old _ _ _ _ _ (Or.inl hl)]
    · refine ⟨k', ?_, fun _ => rfl⟩
      rw [setK_same _ _ hmA]
    · refine Outs.congr (f := addMsgs a c.mem.msgs c.mem.next outs) hnew fun id hid => ?_
      rw [mem_newIds] at hid
      exact setK_ne _ _ (by omega)
    · intro id hl
      rw [setK_ne _ _ (by omega), addMsgs_old _ _ _ _ _ (Or.inr hl)]
      exact I.fresh id (by omega)
  | done =>
    simp only [runStep, hpr]
    refine run_inv I (k' := k) hw hr hi hs hk ho hod (Or.inr ⟨hpr, rfl, rfl⟩) ?_ ?_ ?_ ?_
    · intro id hl hne
      rw [addMsgs_old _ _ _ _ _ (Or.inl hl)]
    · exact ⟨k, hmA, fun _ => rfl⟩
    · exact hnew
    · intro id hl
      rw [addMsgs_old _ _ _ _ _ (Or.inr hl)]
      exact I.fresh id (by omega)

/-- A job and its phase. -/
theorem jobs_upd {f : Nat → Option (Job K)} {w : Nat} {j j' : Job K} {w' : Nat}
    (h : upd f w (some j) w' = some j') : (w' = w ∧ j' = j) ∨ (w' ≠ w ∧ f w' = some j') := by
  by_cases e : w' = w
  · subst e; rw [upd_same] at h; exact Or.inl ⟨rfl, (Option.some.inj h).symm⟩
  · rw [upd_ne _ _ e] at h; exact Or.inr ⟨e, h⟩

theorem rest_cons {q : Queue} {m : Nat} {r : List Nat} (h : q.rest = m :: r) :
    q.co < q.entries.length ∧ q.entries.drop (q.co + 1) = r := by
  unfold Queue.rest at h
  refine ⟨?_, ?_⟩
  · by_cases hl : q.co < q.entries.length
    · exact hl
    · rw [List.drop_eq_nil_of_le (by omega)] at h; cases h
  · have : (q.entries.drop q.co).tail = r := by rw [h]; rfl
    rw [List.tail_drop] at this
    exact this

/-- The dummy read. -/
theorem Inv.read (I : Inv prog x pb c) {w : Nat} {e : Cfg S K}
    (h : step prog c (.read w) = some e) : Inv prog x pb e := by
  simp only [step, tryRead] at h
  split at h
  · cases h
  rename_i j hj
  split at h
  case h_2 => cases h
  rename_i hph hnx
  simp only [Option.some.injEq] at h
  subst h
  have hpa : pb ≠ some j.a := by
    intro hp
    have := (I.comm w j hj).mpr hp
    rw [hph] at this; cases this
  obtain ⟨_, r, hi⟩ := I.jobOk w j hj
  have hco : (c.db.queue j.a).co < (c.db.queue j.a).entries.length := by
    have hb := I.box j.a
    rw [left, if_neg hpa, hi] at hb
    exact (rest_cons hb.symm).1
  have hrd : (c.db.queue j.a).rd = (c.db.queue j.a).co := by
    refine I.rdEq j.a fun w' j' h' hj' ha => ?_
    have e : w' = w := I.jobUniq _ _ _ _ hj' hj ha
    subst e
    rw [hj] at hj'
    rw [← Option.some.inj hj', hph]
    exact fun h => by cases h
  have hq1 : ((c.db.queue j.a).read1).rd = (c.db.queue j.a).co + 1 := by
    simp only [Queue.read1]; omega
  have hE : ∀ d, (upd c.db.queue j.a (c.db.queue j.a).read1 d).entries = (c.db.queue d).entries := by
    intro d
    by_cases e : d = j.a
    · rw [e, upd_same]; rfl
    · rw [upd_ne _ _ e]
  have hC : ∀ d, (upd c.db.queue j.a (c.db.queue j.a).read1 d).co = (c.db.queue d).co := by
    intro d
    by_cases e : d = j.a
    · rw [e, upd_same]; rfl
    · rw [upd_ne _ _ e]
  have hR : ∀ d, (upd c.db.queue j.a (c.db.queue j.a).read1 d).rest = (c.db.queue d).rest := by
    intro d; unfold Queue.rest; rw [hE, hC]
  have hNJ : ∀ b, (∀ w' j', upd c.mem.jobs w
      (some { j with phase := .read (c.db.queue j.a).read1.rd }) w' = some j' → j'.a ≠ b) → NoJob c b := by
    intro b hb w' j' hj'
    by_cases e : w' = w
    · subst e
      rw [hj] at hj'
      have := hb w' _ (upd_same ..)
      rw [← Option.some.inj hj']
      exact this
    · exact hb w' j' (by rw [upd_ne _ _ e]; exact hj')
  exact
    { fresh := I.fresh
      lt := fun b id h => I.lt b id (by rw [← hE]; exact h)
      nodupE := fun b => by show (upd c.db.queue j.a _ b).entries.Nodup; rw [hE]; exact I.nodupE b
      disjE := fun a b id h1 h2 => I.disjE a b id (by rw [← hE]; exact h1) (by rw [← hE]; exact h2)
      outNodup := I.outNodup
      outDisj := I.outDisj
      outNew := fun a b id hp h hh => I.outNew a b id hp h (by rw [← hE]; exact hh)
      coLe := fun a => by show (upd c.db.queue j.a _ a).co ≤ (upd c.db.queue j.a _ a).entries.length; rw [hE, hC]; exact I.coLe a
      waits := I.waits
      timers := I.timers
      mover := I.mover
      tq := I.tq
      jobUniq := by
        intro w₁ j₁ w₂ j₂ h1 h2 ha
        rcases jobs_upd h1 with ⟨e1, e1'⟩ | ⟨e1, h1⟩ <;> rcases jobs_upd h2 with ⟨e2, e2'⟩ | ⟨e2, h2⟩
        · rw [e1, e2]
        · rw [e1' ] at ha
          rw [e1]; exact I.jobUniq _ _ _ _ hj h2 ha
        · rw [e2'] at ha
          rw [e2]; exact I.jobUniq _ _ _ _ h1 hj ha
        · exact I.jobUniq _ _ _ _ h1 h2 ha
      jobOk := by
        intro w' j' h'
        rcases jobs_upd h' with ⟨e1, e1'⟩ | ⟨e1, h'⟩
        · rw [e1']; exact I.jobOk w j hj
        · exact I.jobOk w' j' h'
      ready := by
        intro b
        show c.mem.ready b = true ↔ c.mem.inbox b ≠ [] ∧ _
        rw [I.ready b]
        refine ⟨fun h => ⟨h.1, fun w' j' h' => ?_⟩, fun h => ⟨h.1, hNJ b h.2⟩⟩
        rcases jobs_upd h' with ⟨_, e1'⟩ | ⟨_, h'⟩
        · rw [e1']; exact h.2 w j hj
        · exact h.2 w' j' h'
      comm := by
        intro w' j' h'
        rcases jobs_upd h' with ⟨e1, e1'⟩ | ⟨e1, h'⟩
        · rw [e1']; exact ⟨fun h => (by cases h), fun h => absurd h hpa⟩
        · exact I.comm w' j' h'
      commJ := by
        intro b hb
        obtain ⟨w', j', h', ha⟩ := I.commJ b hb
        refine ⟨w', j', ?_, ha⟩
        show upd _ _ _ w' = _
        rw [upd_ne _ _ (fun e => ?_)]
        · exact h'
        · subst e
          rw [hj] at h'
          rw [← Option.some.inj h'] at ha
          exact hpa (by rw [hb, ha])
      rdEq := by
        intro b hb
        show (upd c.db.queue j.a _ b).rd = (upd c.db.queue j.a _ b).co
        have e : b ≠ j.a := fun e => hb w _ (c.db.queue j.a).read1.rd (upd_same ..) (by rw [e]) rfl
        rw [upd_ne _ _ e]
        refine I.rdEq b fun w' j' h' hj' ha => ?_
        refine hb w' j' h' ?_ ha
        show upd _ _ _ w' = _
        rw [upd_ne _ _ (fun e' => ?_)]
        · exact hj'
        · subst e'
          rw [hj] at hj'
          rw [← Option.some.inj hj'] at ha
          exact e ha.symm
      rdJ := by
        intro w' j' h' hj' hp
        show (upd c.db.queue j.a _ j'.a).rd = (upd c.db.queue j.a _ j'.a).co + 1 ∧
          h' = (upd c.db.queue j.a _ j'.a).rd
        rcases jobs_upd hj' with ⟨e1, e1'⟩ | ⟨e1, h1⟩
        · rw [e1'] at hp
          have : j'.a = j.a := by rw [e1']
          rw [this, upd_same]
          refine ⟨?_, ?_⟩
          · rw [hq1]; rfl
          · exact (Phase.read.inj hp).symm
        · have e : j'.a ≠ j.a := fun e => e1 (I.jobUniq _ _ _ _ h1 hj e)
          rw [upd_ne _ _ e]
          exact I.rdJ w' j' h' h1 hp
      box := fun a => by show _ = (upd c.db.queue j.a _ a).rest; rw [hR]; exact I.box a
      inE := fun a id h => by
        show id ∈ (upd c.db.queue j.a _ a).entries
        rw [hE]; exact I.inE a id h
      nodupI := I.nodupI
      xst := I.xst
      xbox := fun a => by show List.map _ (upd c.db.queue j.a _ a).rest = _; rw [hR]; exact I.xbox a
      alive := fun a h => I.alive a (by rw [← hR]; exact h)
      msgI := I.msgI
      tailEq := I.tailEq
      outEq := I.outEq
      outMsg := I.outMsg
      empty := I.empty
      committed := I.committed
      part := fun a m r hi hn => I.part a m r hi (hNJ a hn)
      full := by
        intro w' j' h' hp
        rcases jobs_upd h' with ⟨e1, e1'⟩ | ⟨e1, h'⟩
        · rw [e1']; exact I.full w j hj hpa
        · exact I.full w' j' h' hp }

end Verif.Persist
