import Verif.Persist.Steps

/-!
# Persist: the commit is a step of the system; the local flush is not visible
-/
namespace Verif.Persist

variable {S K : Type} {prog : Prog S K} {x : Sys S K} {pb : Option Nat} {c : Cfg S K}

theorem map_msgs_congr {f g : Nat → Option (Msg K)} {l : List Nat} (h : ∀ id ∈ l, f id = g id) :
    l.map f = l.map g := List.map_congr_left h

/-- What is known when a worker commits. -/
theorem Inv.commit_facts (I : Inv prog x pb c) {w : Nat} {e : Cfg S K} (hal : Alone c w)
    (h : step prog c (.commit w) = some e) :
    ∃ j hd r, c.mem.jobs w = some j ∧ j.phase = .read hd ∧ j.next = .done ∧ pb = none ∧
      c.mem.inbox j.a = j.m :: r ∧ (c.db.queue j.a).rest = j.m :: r ∧
      hd = (c.db.queue j.a).co + 1 ∧ (c.db.queue j.a).rd = hd ∧ e = commitStep c w j := by
  simp only [step, tryCommit] at h
  split at h
  · cases h
  rename_i j hj
  obtain ⟨hnd, r, hi⟩ := I.jobOk w j hj
  rw [hnd] at h
  split at h
  · rename_i hd hph _
    simp only [Option.some.injEq] at h
    have hpb : pb = none := by
      cases hp : pb with
      | none => rfl
      | some b =>
        obtain ⟨w', j', hj', ha⟩ := I.commJ b hp
        have hc := (I.comm w' j' hj').mpr (by rw [hp, ha])
        have e := hal w' j' hj' hc
        subst e
        rw [hj] at hj'
        rw [← Option.some.inj hj', hph] at hc
        cases hc
    have hb := I.box j.a
    have hr := I.rdJ w j hd hj hph
    subst hpb
    rw [left, if_neg (fun h => by cases h), hi] at hb
    simp only [pend, pendL, sel, List.filter_nil, List.append_nil] at hb
    exact ⟨j, hd, r, hj, hph, hnd, rfl, hi, hb.symm, by rw [hr.2, hr.1], hr.2.symm, h.symm⟩
  · rename_i h'; cases h'
  · cases h

/-- The commit: one step of the system. -/
theorem Inv.commit (I : Inv prog x pb c) {w : Nat} {e : Cfg S K} (hal : Alone c w)
    (h : step prog c (.commit w) = some e) :
    ∃ x' pb', Sys.Step prog x x' ∧ Inv prog x' pb' e := by
  obtain ⟨j, hd, r, hj, hph, hnd, hpb, hi, hrest, hhd, hrd, he⟩ := I.commit_facts hal h
  subst hpb
  obtain ⟨s, k₀, s₁, o, hxs, hdm, hst, hex, hou⟩ := I.full w j hj (fun h => by cases h)
  have hma : j.m ∈ c.mem.inbox j.a := by rw [hi]; exact List.mem_cons_self ..
  obtain ⟨hcl, hdr⟩ := rest_cons hrest
  -- the message and the rest of the sequence of the system
  have hxb := I.xbox j.a
  rw [hrest, List.map_cons, hdm] at hxb
  obtain ⟨rest, hxr, hrm⟩ : ∃ rest, x.box j.a = k₀ :: rest ∧
      r.map c.db.msgs = rest.map fun k => some ⟨j.a, k, none, false⟩ := by
    cases hx : x.box j.a with
    | nil => rw [hx] at hxb; cases hxb
    | cons k rest =>
      rw [hx, List.map_cons] at hxb
      obtain ⟨h1, h2⟩ := List.cons.inj hxb
      simp only [Option.some.injEq, Msg.mk.injEq] at h1
      exact ⟨rest, by rw [h1.2.1], h2⟩
  refine ⟨_, some j.a, .mk hxs hxr hex, ?_⟩
  -- the queues after the commit
  have hfl := flushDb_spec c.mem.msgs (c.mem.outgoing j.a) (I.now j.a) c.db.queue c.db.timer
  have hqd : e.db.queue = upd (flushDb c.mem.msgs (c.mem.outgoing j.a) (c.db.queue, c.db.timer)).1 j.a
      (((flushDb c.mem.msgs (c.mem.outgoing j.a) (c.db.queue, c.db.timer)).1 j.a).consume hd) := by
    rw [he]; simp only [commitStep, hph, saveDb]
  have hE : ∀ d, (e.db.queue d).entries =
      (c.db.queue d).entries ++ sel c.mem.msgs (c.mem.outgoing j.a) d := by
    intro d
    rw [hqd]
    by_cases ed : d = j.a
    · subst ed; rw [upd_same]; simp only [Queue.consume]; rw [hfl.2]
    · rw [upd_ne _ _ ed, hfl.2]
  have hC : ∀ d, (e.db.queue d).co = if d = j.a then hd else (c.db.queue d).co := by
    intro d
    rw [hqd]
    by_cases ed : d = j.a
    · subst ed; rw [upd_same, if_pos rfl]; rfl
    · rw [upd_ne _ _ ed, hfl.2, if_neg ed]
  have hRd : ∀ d, (e.db.queue d).rd = (c.db.queue d).rd := by
    intro d
    rw [hqd]
    by_cases ed : d = j.a
    · subst ed; rw [upd_same]; simp only [Queue.consume]; rw [hfl.2]
    · rw [upd_ne _ _ ed, hfl.2]
  have hlow : ∀ d, (c.db.queue d).rest = c.mem.inbox d := by
    intro d
    have := I.box d
    rw [left, if_neg (fun h => by cases h)] at this
    simpa only [pend, pendL, sel, List.filter_nil, List.append_nil] using this.symm
  have hR : ∀ d, (e.db.queue d).rest = (if d = j.a then (c.mem.inbox d).tail else c.mem.inbox d) ++
      sel c.mem.msgs (c.mem.outgoing j.a) d := by
    intro d
    unfold Queue.rest
    rw [hE, hC]
    by_cases ed : d = j.a
    · subst ed
      rw [if_pos rfl, if_pos rfl, hhd, List.drop_append_of_le_length (by omega), hdr, hi]
      rfl
    · rw [if_neg ed, if_neg ed, List.drop_append_of_le_length (I.coLe d), ← hlow d]
      rfl
  have htm : e.db.timer = c.db.timer := by
    rw [he]; simp only [commitStep, hph, saveDb]; exact hfl.1
  have hM : ∀ id, e.db.msgs id = if id ∈ c.mem.outgoing j.a ++ [j.m] then c.mem.msgs id else
      c.db.msgs id := by
    intro id
    rw [he]; simp only [commitStep, hph, saveDb]
    exact saveMsgs_spec ..
  have hA : ∀ d, e.db.actors d = if d = j.a then some ⟨s₁, none⟩ else c.db.actors d := by
    intro d
    rw [he]; simp only [commitStep, hph, saveDb, hst, I.waits]
    rfl
  have hmem : e.mem = { c.mem with jobs := upd c.mem.jobs w (some { j with phase := .committed }) } := by
    rw [he]; rfl
  -- messages that stay as they were in the table
  have hMold : ∀ d id, id ∈ c.mem.inbox d → id ≠ j.m → e.db.msgs id = c.db.msgs id := by
    intro d id hid hne
    rw [hM, if_neg]
    intro hh
    rcases List.mem_append.mp hh with hh | hh
    · exact I.notOut hid hh
    · exact hne (List.mem_singleton.mp hh)
  have hMout : ∀ id, id ∈ c.mem.outgoing j.a → e.db.msgs id = c.mem.msgs id := by
    intro id hid
    rw [hM, if_pos (List.mem_append_left _ hid)]
  have hne : ∀ d id, d ≠ j.a → id ∈ c.mem.inbox d → id ≠ j.m := fun d id hd hid e' =>
    hd (I.inboxDisj (e' ▸ hid) hma)
  have hneT : ∀ id, id ∈ r → id ≠ j.m := fun id hid e' => I.headTail hi (e' ▸ hid)
  have hnsel : ∀ d, sel c.mem.msgs (c.mem.outgoing j.a) d ≠ [] → (c.db.actors d).isSome := by
    intro d hs
    obtain ⟨id, hid⟩ := List.exists_mem_of_ne_nil _ hs
    rw [sel_mem] at hid
    obtain ⟨d', k', h1, h2⟩ := I.outMsg _ _ hid.1
    have : d' = d := by
      have := hid.2
      rw [destOf, h1] at this
      simpa using this
    rw [← this]; exact h2
  have hxs' : ∀ d, (c.db.actors d).isSome → (x.st d).isSome := by
    intro d h
    rw [I.xst d] at h
    simpa using h
  refine
    { fresh := fun id => by rw [hmem]; exact I.fresh id
      lt := ?_
      nodupE := ?_
      disjE := ?_
      outNodup := fun a => by rw [hmem]; exact I.outNodup a
      outDisj := fun a b id => by rw [hmem]; exact I.outDisj a b id
      outNew := ?_
      coLe := ?_
      waits := fun a => by rw [hmem]; exact I.waits a
      timers := by rw [hmem]; exact I.timers
      mover := by rw [hmem]; exact I.mover
      tq := by rw [htm]; exact I.tq
      jobUniq := ?_
      jobOk := ?_
      ready := ?_
      comm := ?_
      commJ := ?_
      rdEq := ?_
      rdJ := ?_
      box := ?_
      inE := fun a id h => by
        rw [hmem] at h
        rw [hE]
        exact List.mem_append_left _ (I.inE a id h)
      nodupI := ?_
      xst := ?_
      xbox := ?_
      alive := ?_
      msgI := fun a id => by rw [hmem]; exact I.msgI a id
      tailEq := ?_
      outEq := ?_
      outMsg := ?_
      empty := ?_
      committed := ?_
      part := ?_
      full := ?_ }
  · -- lt
    intro a id hid
    rw [hE] at hid
    rw [hmem]
    rcases List.mem_append.mp hid with hid | hid
    · exact I.lt a id hid
    · exact I.ltO (sel_mem.mp hid).1
  · -- nodupE
    intro a
    rw [hE, List.nodup_append]
    refine ⟨I.nodupE a, (I.outNodup j.a).filter _, fun i hi' i' hi'' e' => ?_⟩
    subst e'
    exact I.outNew j.a a i (fun h => by cases h) (sel_mem.mp hi'').1 hi'
  · -- disjE
    intro a b id ha hb
    rw [hE] at ha hb
    rcases List.mem_append.mp ha with ha | ha <;> rcases List.mem_append.mp hb with hb | hb
    · exact I.disjE a b id ha hb
    · exact absurd ha (I.outNew j.a a id (fun h => by cases h) (sel_mem.mp hb).1)
    · exact absurd hb (I.outNew j.a b id (fun h => by cases h) (sel_mem.mp ha).1)
    · have h1 := (sel_mem.mp ha).2
      rw [(sel_mem.mp hb).2] at h1
      exact (Option.some.inj h1).symm
  · -- outNew
    intro a b id hp hid hE'
    rw [hmem] at hid
    rw [hE] at hE'
    rcases List.mem_append.mp hE' with h' | h'
    · exact I.outNew a b id (fun h => by cases h) hid h'
    · exact hp (by rw [I.outDisj a j.a id hid (sel_mem.mp h').1])
  · -- coLe
    intro a
    rw [hE, hC, List.length_append]
    by_cases ed : a = j.a
    · subst ed; rw [if_pos rfl, hhd]; omega
    · rw [if_neg ed]; have := I.coLe a; omega
  · -- jobUniq
    intro w₁ j₁ w₂ j₂ h1 h2 ha
    rw [hmem] at h1 h2
    rcases jobs_upd h1 with ⟨e1, e1'⟩ | ⟨e1, h1⟩ <;> rcases jobs_upd h2 with ⟨e2, e2'⟩ | ⟨e2, h2⟩
    · rw [e1, e2]
    · rw [e1' ] at ha
      rw [e1]; exact I.jobUniq _ _ _ _ hj h2 ha
    · rw [e2'] at ha
      rw [e2]; exact I.jobUniq _ _ _ _ h1 hj ha
    · exact I.jobUniq _ _ _ _ h1 h2 ha
  · -- jobOk
    intro w' j' h'
    rw [hmem] at h' ⊢
    rcases jobs_upd h' with ⟨e1, e1'⟩ | ⟨e1, h'⟩
    · rw [e1']; exact I.jobOk w j hj
    · exact I.jobOk w' j' h'
  · -- ready
    intro b
    unfold NoJob
    rw [hmem]
    show c.mem.ready b = true ↔ c.mem.inbox b ≠ [] ∧ _
    rw [I.ready b]
    refine ⟨fun h => ⟨h.1, fun w' j' h' => ?_⟩, fun h => ⟨h.1, fun w' j' h' => ?_⟩⟩
    · rcases jobs_upd h' with ⟨_, e1'⟩ | ⟨_, h'⟩
      · rw [e1']; exact h.2 w j hj
      · exact h.2 w' j' h'
    · by_cases ew : w' = w
      · subst ew
        rw [hj] at h'
        have := h.2 w' _ (upd_same ..)
        rw [← Option.some.inj h']
        exact this
      · exact h.2 w' j' ((upd_ne _ _ ew).trans h')
  · -- comm
    intro w' j' h'
    rw [hmem] at h'
    rcases jobs_upd h' with ⟨e1, e1'⟩ | ⟨e1, h'⟩
    · rw [e1']; exact ⟨fun _ => rfl, fun _ => rfl⟩
    · refine ⟨fun hp => ?_, fun hp => ?_⟩
      · have := (I.comm w' j' h').mp hp
        cases this
      · exact absurd (I.jobUniq _ _ _ _ h' hj (Option.some.inj hp).symm) e1
  · -- commJ
    intro b hb
    refine ⟨w, { j with phase := .committed }, ?_, Option.some.inj hb⟩
    rw [hmem]; exact upd_same ..
  · -- rdEq
    intro b hb
    rw [hRd, hC]
    by_cases ed : b = j.a
    · subst ed; rw [if_pos rfl]; exact hrd
    · rw [if_neg ed]
      refine I.rdEq b fun w' j' h' hj' ha => hb w' j' h' ?_ ha
      rw [hmem]
      show upd _ _ _ w' = _
      rw [upd_ne _ _ (fun e' => ?_)]
      · exact hj'
      · subst e'
        rw [hj] at hj'
        rw [← Option.some.inj hj'] at ha
        exact ed ha.symm
  · -- rdJ
    intro w' j' h' hj' hp
    rw [hmem] at hj'
    rcases jobs_upd hj' with ⟨e1, e1'⟩ | ⟨e1, h1⟩
    · rw [e1'] at hp; cases hp
    · have ed : j'.a ≠ j.a := fun e' => e1 (I.jobUniq _ _ _ _ h1 hj e')
      rw [hRd, hC, if_neg ed]
      exact I.rdJ w' j' h' h1 hp
  · -- box
    intro a
    rw [hR]
    unfold left pend pendL
    rw [hmem]
    by_cases ed : a = j.a
    · subst ed; rw [if_pos rfl, if_pos rfl]
    · rw [if_neg ed, if_neg (fun h => ed (Option.some.inj h).symm)]
  · -- nodupI
    intro a
    unfold pend pendL
    rw [hmem, List.nodup_append]
    refine ⟨(List.nodup_append.mp (I.nodupI a)).1, (I.outNodup j.a).filter _, fun i hi' i' hi'' e' => ?_⟩
    subst e'
    exact I.notOut hi' (sel_mem.mp hi'').1
  · -- xst
    intro a
    rw [hA]
    by_cases ed : a = j.a
    · simp [ed]
    · simp only [ed, if_false]
      exact I.xst a
  · -- xbox
    intro a
    rw [hR, List.map_append]
    show _ = List.map _ (_ ++ forActor o a)
    rw [List.map_append]
    have h2 : (sel c.mem.msgs (c.mem.outgoing j.a) a).map e.db.msgs =
        (forActor o a).map fun k => some ⟨a, k, none, false⟩ := by
      rw [← hou.sel a]
      exact map_msgs_congr fun id hid => hMout id (sel_mem.mp hid).1
    rw [h2]
    refine congrArg (· ++ _) ?_
    by_cases ed : a = j.a
    · subst ed
      rw [if_pos rfl, if_pos rfl, hi, List.tail_cons, ← hrm]
      refine map_msgs_congr fun id hid => hMold j.a id ?_ (hneT id hid)
      rw [hi]; exact List.mem_cons_of_mem _ hid
    · rw [if_neg ed, if_neg ed]
      have := I.xbox a
      rw [hlow] at this
      rw [← this]
      exact map_msgs_congr fun id hid => hMold a id hid (hne a id ed hid)
  · -- alive
    intro a ha
    show (if a = j.a then some s₁ else x.st a).isSome
    by_cases ed : a = j.a
    · rw [if_pos ed]; rfl
    · rw [if_neg ed]
      by_cases hin : c.mem.inbox a = []
      · rcases ha with ha | ha
        · rw [hR, if_neg ed, hin, List.nil_append] at ha
          exact hxs' a (hnsel a ha)
        · rw [hmem] at ha; exact absurd hin ha
      · exact I.alive a (Or.inr hin)
  · -- tailEq
    intro a id hid
    rw [hmem] at hid ⊢
    show c.mem.msgs id = _
    rw [hM]
    by_cases hh : id ∈ c.mem.outgoing j.a ++ [j.m]
    · rw [if_pos hh]
    · rw [if_neg hh]; exact I.tailEq a id hid
  · -- outEq
    intro b hb id hid
    rw [hmem] at hid ⊢
    have : j.a = b := Option.some.inj hb
    rw [← this] at hid
    exact (hMout id hid).symm
  · -- outMsg
    intro a id hid
    rw [hmem] at hid ⊢
    obtain ⟨d, k, h1, h2⟩ := I.outMsg a id hid
    refine ⟨d, k, h1, ?_⟩
    rw [hA]
    by_cases ed : d = j.a
    · rw [if_pos ed]; rfl
    · rw [if_neg ed]; exact h2
  · -- empty
    intro a ha
    rw [hmem] at ha ⊢
    have ed : a ≠ j.a := fun e' => by
      have ha' : c.mem.inbox a = [] := ha
      rw [e', hi] at ha'; cases ha'
    show c.mem.st a = (if a = j.a then some s₁ else x.st a) ∧ _
    rw [if_neg ed]
    exact I.empty a ha
  · -- committed
    intro a ha
    rw [hmem]
    have : j.a = a := Option.some.inj ha
    show c.mem.st a = (if a = j.a then some s₁ else x.st a)
    rw [if_pos this.symm, ← this]; exact hst
  · -- part
    intro a m' r' ha hnj
    rw [hmem] at ha
    have hnj0 : NoJob c a := by
      intro w' j' h'
      by_cases ew : w' = w
      · subst ew
        rw [hj] at h'
        have := hnj w' { j with phase := .committed } (by rw [hmem]; exact upd_same ..)
        rw [← Option.some.inj h']
        exact this
      · refine hnj w' j' ?_
        rw [hmem]
        show upd _ _ _ w' = _
        rw [upd_ne _ _ ew]; exact h'
    have ed : a ≠ j.a := fun e' => hnj0 w j hj e'.symm
    obtain ⟨s₀, k₁, s₂, k₂, o₁, h1, h2, h3, h4, h5, h6⟩ := I.part a m' r' ha hnj0
    have hm' : m' ∈ c.mem.inbox a := by
      have ha' : c.mem.inbox a = m' :: r' := ha
      rw [ha']; exact List.mem_cons_self ..
    rw [hmem]
    refine ⟨s₀, k₁, s₂, k₂, o₁, ?_, ?_, h3, h4, h5, h6⟩
    · show (if a = j.a then some s₁ else x.st a) = _
      rw [if_neg ed]; exact h1
    · rw [hMold a m' hm' (hne a m' ed hm')]; exact h2
  · -- full
    intro w' j' hj' hp
    rw [hmem] at hj'
    rcases jobs_upd hj' with ⟨_, e1'⟩ | ⟨ew, h1⟩
    · rw [e1'] at hp; exact absurd rfl hp
    · obtain ⟨s₀, k₁, s₂, o₁, h3, h4, h5, h6, h7⟩ := I.full w' j' h1 (fun h => by cases h)
      have ed : j'.a ≠ j.a := fun e' => ew (I.jobUniq _ _ _ _ h1 hj e')
      obtain ⟨_, r', hi'⟩ := I.jobOk w' j' h1
      have hm' : j'.m ∈ c.mem.inbox j'.a := by rw [hi']; exact List.mem_cons_self ..
      rw [hmem]
      refine ⟨s₀, k₁, s₂, o₁, ?_, ?_, h5, h6, h7⟩
      · show (if j'.a = j.a then some s₁ else x.st j'.a) = _
        rw [if_neg ed]; exact h3
      · rw [hMold j'.a j'.m hm' (hne j'.a j'.m ed hm')]; exact h4

end Verif.Persist
