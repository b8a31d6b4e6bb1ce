import Verif.Persist.Commit

/-!
# Persist: the local flush
-/
namespace Verif.Persist

variable {S K : Type} {prog : Prog S K} {x : Sys S K} {pb : Option Nat} {c : Cfg S K}

theorem Inv.finish (I : Inv prog x pb c) {w : Nat} {e : Cfg S K}
    (h : step prog c (.finish w) = some e) : Inv prog x none e := by
  simp only [step, tryFinish] at h
  split at h
  · cases h
  rename_i j hj
  obtain ⟨hnd, r, hi⟩ := I.jobOk w j hj
  rw [hnd] at h
  split at h
  case h_3 => cases h
  case h_2 => rename_i h'; cases h'
  rename_i hph _
  simp only [Option.some.injEq] at h
  subst h
  have hpb : pb = some j.a := (I.comm w j hj).mp hph
  subst hpb
  have hma : j.m ∈ c.mem.inbox j.a := by rw [hi]; exact List.mem_cons_self ..
  obtain ⟨km, hkm⟩ := I.msgI j.a j.m hma
  have hfl := flushLocal_spec c.mem.msgs (c.mem.outgoing j.a) (I.now j.a)
    ⟨c.mem.inbox, c.mem.ready, c.mem.timers⟩
  generalize hL : flushLocal c.mem.msgs (c.mem.outgoing j.a)
    ⟨c.mem.inbox, c.mem.ready, c.mem.timers⟩ = L at hfl
  obtain ⟨hlt, hl⟩ := hfl
  have hpend : ∀ d, pend (some j.a) c d = sel c.mem.msgs (c.mem.outgoing j.a) d := fun d => rfl
  -- inboxes after the flush
  have hB : ∀ d, upd L.inbox j.a (L.inbox j.a).tail d = (c.db.queue d).rest := by
    intro d
    rw [← I.box d, hpend]
    unfold left
    by_cases ed : d = j.a
    · subst ed
      rw [upd_same, if_pos rfl, (hl j.a).1]
      show (c.mem.inbox j.a ++ _).tail = _
      rw [hi]
      rfl
    · rw [upd_ne _ _ ed, if_neg (fun h => ed (Option.some.inj h).symm), (hl d).1]
  have hBsplit : ∀ d id, id ∈ (c.db.queue d).rest →
      (id ∈ (if d = j.a then r else c.mem.inbox d)) ∨ id ∈ sel c.mem.msgs (c.mem.outgoing j.a) d := by
    intro d id hid
    rw [← I.box d, hpend] at hid
    unfold left at hid
    rcases List.mem_append.mp hid with hid | hid
    · by_cases ed : d = j.a
      · subst ed
        rw [if_pos rfl, hi] at hid
        rw [if_pos rfl]; exact Or.inl hid
      · rw [if_neg (fun h => ed (Option.some.inj h).symm)] at hid
        rw [if_neg ed]; exact Or.inl hid
    · exact Or.inr hid
  -- the message that was dealt with is not among them
  have hnem : ∀ d id, id ∈ (c.db.queue d).rest → id ≠ j.m := by
    intro d id hid e'
    subst e'
    have hn := I.nodupI j.a
    rw [hi, List.cons_append, List.nodup_cons, List.mem_append, not_or] at hn
    rcases hBsplit d j.m hid with h1 | h1
    · by_cases ed : d = j.a
      · rw [if_pos ed] at h1; exact hn.1.1 h1
      · rw [if_neg ed] at h1; exact ed (I.inboxDisj h1 hma)
    · have hd := (sel_mem.mp h1).2
      rw [destOf, hkm] at hd
      have ed : j.a = d := by simpa using hd
      rw [← ed] at h1
      exact hn.1.2 h1
  have hneO : ∀ b id, id ∈ c.mem.outgoing b → id ≠ j.m := fun b id hid e' =>
    I.notOut hma (e' ▸ hid)
  have hneT : ∀ d id, d ≠ j.a → id ∈ c.mem.inbox d → id ≠ j.m := fun d id hd hid e' =>
    hd (I.inboxDisj (e' ▸ hid) hma)
  -- in memory what is in the queues is as in the tables, but for messages being dealt with
  have hsel : ∀ d id, id ∈ sel c.mem.msgs (c.mem.outgoing j.a) d → c.mem.msgs id = c.db.msgs id :=
    fun d id hid => I.outEq j.a rfl id (sel_mem.mp hid).1
  have hfz : ∀ id, id ≠ j.m → freeze c.mem.msgs j.m id = c.mem.msgs id := fun id h => freeze_ne _ h
  have hml : j.m < c.mem.next := I.ltI hma
  have hO : ∀ b, b ≠ j.a → upd c.mem.outgoing j.a [] b = c.mem.outgoing b := fun b hb => upd_ne _ _ hb
  have hOmem : ∀ b id, id ∈ upd c.mem.outgoing j.a [] b → b ≠ j.a ∧ id ∈ c.mem.outgoing b := by
    intro b id hid
    by_cases eb : b = j.a
    · subst eb; rw [upd_same] at hid; cases hid
    · rw [upd_ne _ _ eb] at hid; exact ⟨eb, hid⟩
  have hJ : ∀ w' j', upd c.mem.jobs w none w' = some j' → w' ≠ w ∧ c.mem.jobs w' = some j' := by
    intro w' j' h'
    by_cases ew : w' = w
    · subst ew; rw [upd_same] at h'; cases h'
    · rw [upd_ne _ _ ew] at h'; exact ⟨ew, h'⟩
  have hJa : ∀ w' j', upd c.mem.jobs w none w' = some j' → j'.a ≠ j.a := by
    intro w' j' h' ea
    obtain ⟨ew, h'⟩ := hJ w' j' h'
    exact ew (I.jobUniq _ _ _ _ h' hj ea)
  have hJold : ∀ w' j', c.mem.jobs w' = some j' → j'.a ≠ j.a → upd c.mem.jobs w none w' = some j' := by
    intro w' j' h' ea
    rw [upd_ne]
    · exact h'
    · intro ew; subst ew
      rw [hj] at h'
      exact ea (by rw [Option.some.inj h'])
  -- actors with an inbox before the flush keep its head
  have hhead : ∀ d, d ≠ j.a → ∀ m' r', c.mem.inbox d = m' :: r' →
      (c.db.queue d).rest = m' :: (r' ++ sel c.mem.msgs (c.mem.outgoing j.a) d) := by
    intro d ed m' r' hd
    rw [← hB, upd_ne _ _ ed, (hl d).1]
    show c.mem.inbox d ++ _ = _
    rw [hd]; rfl
  have hrestmsg : ∀ d id, id ∈ (c.db.queue d).rest → ∃ k, c.db.msgs id = some ⟨d, k, none, false⟩ := by
    intro d id hid
    have h1 : c.db.msgs id ∈ (c.db.queue d).rest.map c.db.msgs := List.mem_map_of_mem hid
    rw [I.xbox d] at h1
    obtain ⟨k, _, hk⟩ := List.mem_map.mp h1
    exact ⟨k, hk.symm⟩
  have hrdy : ∀ b, (if b = j.a then decide ((L.inbox j.a).tail ≠ []) else
        if c.mem.waits b = some j.m then true else L.ready b) = true ↔
      (c.db.queue b).rest ≠ [] ∧ ∀ w' j', upd c.mem.jobs w none w' = some j' → j'.a ≠ b := by
    intro b
    by_cases eb : b = j.a
    · subst eb
      have := hB j.a
      rw [upd_same] at this
      rw [if_pos rfl, ← this, decide_eq_true_iff]
      exact ⟨fun h => ⟨h, hJa⟩, fun h => h.1⟩
    · rw [if_neg eb, I.waits b, if_neg (fun h => by cases h), (hl b).2, ← hB, upd_ne _ _ eb, (hl b).1]
      show (c.mem.ready b || (decide (c.mem.inbox b = []) && _)) = true ↔ c.mem.inbox b ++ _ ≠ [] ∧ _
      by_cases hin : c.mem.inbox b = []
      · have hr0 : c.mem.ready b = false := by
          cases hr : c.mem.ready b with
          | false => rfl
          | true => exact absurd hin ((I.ready b).mp hr).1
        rw [hr0, hin]
        simp only [Bool.false_or, decide_true, Bool.true_and, List.nil_append, decide_eq_true_iff]
        refine ⟨fun h => ⟨h, fun w' j' h' ea => ?_⟩, fun h => h.1⟩
        obtain ⟨_, h'⟩ := hJ w' j' h'
        obtain ⟨_, r', hi'⟩ := I.jobOk w' j' h'
        rw [ea, hin] at hi'; cases hi'
      · simp only [hin, decide_false, Bool.false_and, Bool.or_false]
        rw [I.ready b]
        refine ⟨fun h => ⟨fun h' => hin (List.append_eq_nil_iff.mp h').1, fun w' j' h' =>
          h.2 w' j' (hJ w' j' h').2⟩, fun h => ⟨hin, fun w' j' h' ea => ?_⟩⟩
        exact h.2 w' j' (hJold w' j' h' (fun e' => eb (by rw [← ea, e']))) ea
  have hcfg : (finishDone c w j) = ⟨{ c.mem with
      msgs := freeze c.mem.msgs j.m
      inbox := upd L.inbox j.a (L.inbox j.a).tail
      outgoing := upd c.mem.outgoing j.a []
      waits := fun b => if c.mem.waits b = some j.m then none else c.mem.waits b
      ready := fun b => if b = j.a then decide ((L.inbox j.a).tail ≠ []) else
        if c.mem.waits b = some j.m then true else L.ready b
      timers := L.timers
      jobs := upd c.mem.jobs w none }, c.db⟩ := by
    simp only [finishDone, hL]
  rw [hcfg]
  refine
    { fresh := fun id h => (hfz id (fun e' => by rw [e'] at h; exact absurd h (by show ¬ c.mem.next ≤ j.m; omega))).trans (I.fresh id h)
      lt := I.lt
      nodupE := I.nodupE
      disjE := I.disjE
      outNodup := ?_
      outDisj := fun a b id ha hb => I.outDisj a b id (hOmem a id ha).2 (hOmem b id hb).2
      outNew := fun a b id _ ha => I.outNew a b id
        (fun h => (hOmem a id ha).1 (Option.some.inj h).symm) (hOmem a id ha).2
      coLe := I.coLe
      waits := ?_
      timers := by show L.timers = []; rw [hlt]; exact I.timers
      mover := I.mover
      tq := I.tq
      jobUniq := fun w₁ j₁ w₂ j₂ h1 h2 ha => I.jobUniq _ _ _ _ (hJ w₁ j₁ h1).2 (hJ w₂ j₂ h2).2 ha
      jobOk := ?_
      ready := ?_
      comm := ?_
      commJ := fun b hb => by cases hb
      rdEq := ?_
      rdJ := fun w' j' h' hj' hp => I.rdJ w' j' h' (hJ w' j' hj').2 hp
      box := ?_
      inE := ?_
      nodupI := ?_
      xst := I.xst
      xbox := I.xbox
      alive := ?_
      msgI := ?_
      tailEq := ?_
      outEq := fun b hb => by cases hb
      outMsg := ?_
      empty := ?_
      committed := fun a ha => by cases ha
      part := ?_
      full := ?_ }
  · -- outNodup
    intro a
    show (upd c.mem.outgoing j.a [] a).Nodup
    by_cases ea : a = j.a
    · subst ea; rw [upd_same]; exact List.nodup_nil
    · rw [upd_ne _ _ ea]; exact I.outNodup a
  · -- waits
    intro a
    show (if c.mem.waits a = some j.m then none else c.mem.waits a) = none
    rw [I.waits a]; rfl
  · -- jobOk
    intro w' j' h'
    have ea := hJa w' j' h'
    obtain ⟨h1, r', h2⟩ := I.jobOk w' j' (hJ w' j' h').2
    refine ⟨h1, ?_⟩
    show ∃ r, upd L.inbox j.a (L.inbox j.a).tail j'.a = j'.m :: r
    rw [hB, hhead j'.a ea _ _ h2]
    exact ⟨_, rfl⟩
  · -- ready
    intro b
    show _ ↔ upd L.inbox j.a (L.inbox j.a).tail b ≠ [] ∧ _
    rw [hB]
    exact hrdy b
  · -- comm
    intro w' j' h'
    refine ⟨fun hp => ?_, fun hp => by cases hp⟩
    have := (I.comm w' j' (hJ w' j' h').2).mp hp
    exact absurd (Option.some.inj this).symm (hJa w' j' h')
  · -- rdEq
    intro a ha
    refine I.rdEq a fun w' j' h' hj' ea hp => ?_
    by_cases eja : j'.a = j.a
    · have ew : w' = w := I.jobUniq _ _ _ _ hj' hj eja
      subst ew
      rw [hj] at hj'
      rw [← Option.some.inj hj', hph] at hp
      cases hp
    · exact ha w' j' h' (hJold w' j' hj' eja) ea hp
  · -- box
    intro a
    show upd L.inbox j.a (L.inbox j.a).tail a ++ sel _ [] a = _
    rw [hB]
    simp [sel]
  · -- inE
    intro a id hid
    have hid' : id ∈ upd L.inbox j.a (L.inbox j.a).tail a := hid
    rw [hB] at hid'
    exact List.mem_of_mem_drop hid'
  · -- nodupI
    intro a
    show (upd L.inbox j.a (L.inbox j.a).tail a ++ sel _ [] a).Nodup
    rw [hB]
    simp only [sel, List.filter_nil, List.append_nil]
    exact (I.nodupE a).sublist (List.drop_sublist _ _)
  · -- alive
    intro a ha
    refine I.alive a (Or.inl ?_)
    rcases ha with ha | ha
    · exact ha
    · have ha' : upd L.inbox j.a (L.inbox j.a).tail a ≠ [] := ha
      rw [hB] at ha'; exact ha'
  · -- msgI
    intro a id hid
    have hid' : id ∈ upd L.inbox j.a (L.inbox j.a).tail a := hid
    rw [hB] at hid'
    show ∃ k, freeze c.mem.msgs j.m id = _
    rw [hfz id (hnem a id hid')]
    rcases hBsplit a id hid' with h1 | h1
    · by_cases ea : a = j.a
      · rw [if_pos ea] at h1
        subst ea
        exact I.msgI _ id (by rw [hi]; exact List.mem_cons_of_mem _ h1)
      · rw [if_neg ea] at h1
        exact I.msgI a id h1
    · rw [hsel a id h1]
      exact hrestmsg a id hid'
  · -- tailEq
    intro a id hid
    have hid' : id ∈ (upd L.inbox j.a (L.inbox j.a).tail a).tail := hid
    rw [hB] at hid'
    have hidr : id ∈ (c.db.queue a).rest := List.mem_of_mem_tail hid'
    show freeze c.mem.msgs j.m id = _
    rw [hfz id (hnem a id hidr)]
    by_cases ea : a = j.a
    · subst ea
      rcases hBsplit j.a id hidr with h1 | h1
      · rw [if_pos rfl] at h1
        exact I.tailEq j.a id (by rw [hi]; exact h1)
      · exact hsel _ id h1
    · cases hin : c.mem.inbox a with
      | nil =>
        rcases hBsplit a id hidr with h1 | h1
        · rw [if_neg ea, hin] at h1; cases h1
        · exact hsel _ id h1
      | cons m' r' =>
        rw [hhead a ea m' r' hin, List.tail_cons] at hid'
        rcases List.mem_append.mp hid' with h1 | h1
        · exact I.tailEq a id (by rw [hin]; exact h1)
        · exact hsel _ id h1
  · -- outMsg
    intro a id hid
    obtain ⟨_, hid⟩ := hOmem a id hid
    show ∃ d k, freeze c.mem.msgs j.m id = _ ∧ _
    rw [hfz id (hneO a id hid)]
    exact I.outMsg a id hid
  · -- empty
    intro a ha
    have ha' : upd L.inbox j.a (L.inbox j.a).tail a = [] := ha
    show c.mem.st a = x.st a ∧ upd c.mem.outgoing j.a [] a = []
    by_cases ea : a = j.a
    · subst ea
      exact ⟨I.committed j.a rfl, upd_same ..⟩
    · rw [upd_ne _ _ ea, (hl a).1] at ha'
      rw [upd_ne _ _ ea]
      exact I.empty a (List.append_eq_nil_iff.mp ha').1
  · -- part
    intro a m' r' ha hnj
    have ha' : upd L.inbox j.a (L.inbox j.a).tail a = m' :: r' := ha
    rw [hB] at ha'
    have hm' : m' ∈ (c.db.queue a).rest := by rw [ha']; exact List.mem_cons_self ..
    obtain ⟨k₀, hk₀⟩ := hrestmsg a m' hm'
    have hal : ∃ s, x.st a = some s :=
      Option.isSome_iff_exists.mp (I.alive a (Or.inl (by rw [ha']; exact List.cons_ne_nil _ _)))
    obtain ⟨s, hs⟩ := hal
    show ∃ s k₀ s₁ k₁ o, x.st a = some s ∧ c.db.msgs m' = some ⟨a, k₀, none, false⟩ ∧
      c.mem.st a = some s₁ ∧ freeze c.mem.msgs j.m m' = some ⟨a, k₁, none, false⟩ ∧
      Part prog a s k₀ s₁ k₁ o ∧ Outs (freeze c.mem.msgs j.m) (upd c.mem.outgoing j.a [] a) o
    rw [hfz m' (hnem a m' hm')]
    by_cases ea : a = j.a
    · subst ea
      have hmm : c.mem.msgs m' = c.db.msgs m' := by
        rcases hBsplit j.a m' hm' with h1 | h1
        · rw [if_pos rfl] at h1
          exact I.tailEq j.a m' (by rw [hi]; exact h1)
        · exact hsel _ m' h1
      refine ⟨s, k₀, s, k₀, [], hs, hk₀, ?_, by rw [hmm, hk₀], .refl _ _, ?_⟩
      · rw [I.committed j.a rfl]; exact hs
      · rw [upd_same]; exact Outs.nil _
    · rw [upd_ne _ _ ea]
      cases hin : c.mem.inbox a with
      | nil =>
        have hmm : c.mem.msgs m' = c.db.msgs m' := by
          rcases hBsplit a m' hm' with h1 | h1
          · rw [if_neg ea, hin] at h1; cases h1
          · exact hsel _ m' h1
        obtain ⟨h1, h2⟩ := I.empty a hin
        refine ⟨s, k₀, s, k₀, [], hs, hk₀, by rw [h1]; exact hs, by rw [hmm, hk₀], .refl _ _, ?_⟩
        rw [h2]; exact Outs.nil _
      | cons m'' r'' =>
        rw [hhead a ea m'' r'' hin] at ha'
        have em : m'' = m' := (List.cons.inj ha').1
        subst em
        have hnj0 : NoJob c a := by
          intro w' j' h' e'
          exact hnj w' j' (hJold w' j' h' (fun e'' => ea (by rw [← e', e'']))) e'
        obtain ⟨s₀, k₁, s₂, k₂, o₁, h1, h2, h3, h4, h5, h6⟩ := I.part a m'' r'' hin hnj0
        exact ⟨s₀, k₁, s₂, k₂, o₁, h1, h2, h3, h4, h5,
          h6.congr fun id hid => hfz id (hneO a id hid)⟩
  · -- full
    intro w' j' hj' _
    have ea := hJa w' j' hj'
    obtain ⟨s₀, k₁, s₂, o₁, h1, h2, h3, h4, h5⟩ := I.full w' j' (hJ w' j' hj').2
      (fun h => ea (Option.some.inj h).symm)
    refine ⟨s₀, k₁, s₂, o₁, h1, h2, h3, h4, ?_⟩
    show Outs (freeze c.mem.msgs j.m) (upd c.mem.outgoing j.a [] j'.a) _
    rw [upd_ne _ _ ea]
    exact h5.congr fun id hid => hfz id (hneO j'.a id hid)

end Verif.Persist
