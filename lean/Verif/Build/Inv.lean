import Verif.Build.Stages

/-!
# The invariant of the loop
-/

namespace Verif.Build

variable {κ : Type} [DecidableEq κ] {π η ι : Type}

/-- Whether an event says that the stage has finished. -/
def isDone (x : Stage κ) : Event κ π η ι → Bool
  | .done y _ => decide (y = x)
  | _ => false

/-- `Finished`, computed. -/
def finB (tr : List (Event κ π η ι)) (x : Stage κ) : Bool := tr.any (isDone x)

theorem finB_iff {tr : List (Event κ π η ι)} {x : Stage κ} : finB tr x = true ↔ Finished tr x := by
  simp only [finB, List.any_eq_true, Finished]
  constructor
  · rintro ⟨e, he, hd⟩
    cases e with
    | done y o => simp only [isDone, decide_eq_true_eq] at hd; subst hd; exact ⟨o, he⟩
    | _ => simp [isDone] at hd
  · rintro ⟨o, ho⟩; exact ⟨_, ho, by simp [isDone]⟩

/-- The stage depends on a task that has failed. -/
def Blocked (g : Graph κ) (tr : List (Event κ π η ι)) (x : Stage κ) : Prop :=
  ∃ y, Event.fail y ∈ tr ∧ Depends g x.key y.key

/-- The stages that are ready, about to be started (`l`) or running. -/
def acts (l : List (Stage κ)) (s : St κ π η ι) : List (Stage κ) :=
  l ++ s.ready ++ s.running.map Prod.snd

/-- The part of the invariant about stages. -/
structure Ctl (g : Graph κ) (l : List (Stage κ)) (s : St κ π η ι) : Prop where
  pendSub : ∀ x ∈ s.pend, x ∈ g.stages
  pendNodup : s.pend.Nodup
  part : ∀ x ∈ g.stages, x ∈ s.pend ∨ Finished s.trace x ∨ Event.fail x ∈ s.trace ∨
    Blocked g s.trace x
  pendNot : ∀ x ∈ s.pend, ¬ Finished s.trace x ∧ Event.fail x ∉ s.trace ∧ ¬ Blocked g s.trace x
  excl : ∀ x, Finished s.trace x → Event.fail x ∉ s.trace
  finStage : ∀ x, Finished s.trace x ∨ Event.fail x ∈ s.trace → x ∈ g.stages
  ind : ∀ x ∈ s.pend, s.ind x = (g.waits x).countP (fun y => !finB s.trace y)
  actNodup : (acts l s).Nodup
  actPend : ∀ x ∈ acts l s, x ∈ s.pend
  actWaits : ∀ x ∈ acts l s, ∀ y ∈ g.waits x, Finished s.trace y
  idle : ∀ x ∈ s.pend, (∀ y ∈ g.waits x, Finished s.trace y) → x ∈ acts l s
  finWaits : ∀ x, Finished s.trace x ∨ Event.fail x ∈ s.trace →
    ∀ y ∈ g.waits x, Finished s.trace y
  handles : (s.running.map Prod.fst).Nodup
  handlesLt : ∀ h ∈ s.running.map Prod.fst, h < s.next
  startNodup : (starts s.trace).Nodup
  startGone : ∀ x ∈ starts s.trace, x ∉ l ++ s.ready ∧ (x ∈ s.running.map Prod.snd ∨ x ∉ s.pend)
  errors : s.errors = true ↔ ∃ x, Event.fail x ∈ s.trace

/-- The front passes of the task asked for a deferred back job. -/
def Asked (tr : List (Event κ π η ι)) (k : κ) : Prop :=
  ∃ r, Event.done (.front k) (.fronted r) ∈ tr ∧ r.deferred = true

/-- The part of the invariant about what the workers returned. -/
structure Dat (g : Graph κ) (s : St κ π η ι) : Prop where
  res : ∀ k o, Event.done (.front k) o ∈ s.trace → ∃ r, o = .fronted r ∧ s.res.lookup k = some r
  parsed : ∀ k o, Event.done (.parse k) o ∈ s.trace →
    ∃ p, o = .parsed p ∧ (Stage.front k ∈ s.pend → s.parsed.lookup k = some p)
  fdone : ∀ k, k ∈ s.frontDone ↔ Finished s.trace (.front k)
  interest : ∀ k r, Event.done (.front k) (.fronted r) ∈ s.trace → r.interest ⊆ s.interest
  defer : ∀ k r, Event.done (.front k) (.fronted r) ∈ s.trace → r.deferred = true →
    (k, g.closure k) ∈ s.deferred ∨ k ∈ backs s.trace
  defOk : ∀ e ∈ s.deferred, e.2 = g.closure e.1 ∧ Finished s.trace (.front e.1) ∧
    e.1 ∉ backs s.trace
  defNodup : (s.deferred.map Prod.fst).Nodup
  backNodup : (backs s.trace).Nodup
  backFin : ∀ k ∈ backs s.trace, Finished s.trace (.front k)
  asked : ∀ k, k ∈ s.deferred.map Prod.fst ∨ k ∈ backs s.trace → Asked s.trace k

/-- What an event says about what happened before. -/
def Good (g : Graph κ) (tr : List (Event κ π η ι)) : Event κ π η ι → Prop
  | .start sk res parsed =>
      ¬ Blocked g tr sk ∧ (∀ d, sk = .front d →
        (∀ t ∈ g.order, t.key = d → t.parse = true → ∃ p, Event.done (.parse d) (.parsed p) ∈ tr ∧
          parsed.lookup d = some p)) ∧
      (∀ k, sk = .front k → ∀ d, Uses g k d → ∃ r, Event.done (.front d) (.fronted r) ∈ tr ∧
        res.lookup d = some r)
  | .back k i => ∀ j, Depends g j k → ∃ r, Event.done (.front j) (.fronted r) ∈ tr ∧
      r.interest ⊆ i
  | _ => True

/-- All events are good at their time. -/
def Sound (g : Graph κ) : List (Event κ π η ι) → Prop
  | [] => True
  | e :: tr => Good g tr e ∧ Sound g tr

structure Inv (g : Graph κ) (l : List (Stage κ)) (s : St κ π η ι) : Prop where
  ctl : Ctl g l s
  dat : Dat g s
  sound : Sound g s.trace

/-! ## The beginning -/

theorem inv_initial {g : Graph κ} (ho : Ordered g) : Inv g [] (initial g : St κ π η ι) where
  ctl := by
    have hw : ∀ x, (∀ y ∈ g.waits x, Finished ([] : List (Event κ π η ι)) y) ↔ g.indeg x = 0 := by
      intro x
      rw [indeg_eq]
      cases hx : g.waits x with
      | nil => simp
      | cons a l =>
          constructor
          · intro h; obtain ⟨o, ho⟩ := h a List.mem_cons_self; simp at ho
          · intro h; simp at h; omega
    constructor
    · exact fun x hx => hx
    · exact stages_nodup ho
    · exact fun x hx => .inl hx
    · intro x hx; simp [initial, Finished, Blocked]
    · intro x hx; simp [initial]
    · intro x hx; simp [initial, Finished] at hx
    · intro x hx
      simp only [initial, finB, List.any_nil, Bool.not_false, List.countP_true, indeg_eq]
    · simpa [acts, initial] using (stages_nodup ho).filter _
    · intro x hx
      simp only [acts, initial, List.nil_append, List.map_nil, List.append_nil, List.mem_filter]
        at hx
      exact hx.1
    · intro x hx
      simp only [acts, initial, List.nil_append, List.map_nil, List.append_nil, List.mem_filter,
        beq_iff_eq] at hx
      exact (hw x).2 hx.2
    · intro x hx h
      simp only [acts, initial, List.nil_append, List.map_nil, List.append_nil, List.mem_filter,
        beq_iff_eq]
      exact ⟨hx, (hw x).1 h⟩
    · intro x hx; simp [initial, Finished] at hx
    · simp [initial]
    · simp [initial]
    · simp [initial, starts]
    · simp [initial, starts]
    · simp [initial]
  dat := by
    constructor <;> simp [initial, Finished, backs, Asked]
  sound := trivial

/-! ## Starting workers -/

theorem Ctl.perm {g : Graph κ} {l l' : List (Stage κ)} {s : St κ π η ι} {rd : List (Stage κ)}
    (h : Ctl g l s) (hp : (l ++ s.ready).Perm (l' ++ rd)) : Ctl g l' { s with ready := rd } := by
  have hq : (acts l s).Perm (acts l' { s with ready := rd }) := hp.append_right _
  exact ⟨h.pendSub, h.pendNodup, h.part, h.pendNot, h.excl, h.finStage, h.ind,
    hq.nodup_iff.1 h.actNodup, fun x hx => h.actPend x (hq.mem_iff.2 hx),
    fun x hx => h.actWaits x (hq.mem_iff.2 hx), fun x hx hy => hq.mem_iff.1 (h.idle x hx hy),
    h.finWaits, h.handles, h.handlesLt, h.startNodup,
    fun x hx => ⟨fun hm => (h.startGone x hx).1 (hp.mem_iff.2 hm), (h.startGone x hx).2⟩, h.errors⟩

theorem inv_start {g : Graph κ} (ho : Ordered g) {sk : Stage κ} {l : List (Stage κ)}
    {s : St κ π η ι} (h : Inv g (sk :: l) s) : Inv g l { s with
      running := (s.next, sk) :: s.running
      next := s.next + 1
      trace := .start sk s.res s.parsed :: s.trace } := by
  obtain ⟨hc, hd, hs⟩ := h
  have hfin : ∀ x, Finished (Event.start sk s.res s.parsed :: s.trace) x ↔ Finished s.trace x := by
    intro x; simp [Finished]
  have hfail : ∀ x, Event.fail x ∈ Event.start sk s.res s.parsed :: s.trace ↔
      Event.fail x ∈ s.trace := by
    intro x; simp
  have hblk : ∀ x, Blocked g (Event.start sk s.res s.parsed :: s.trace) x ↔
      Blocked g s.trace x := by
    intro x; simp [Blocked]
  have hperm : (acts (sk :: l) s).Perm (acts l { s with
      running := (s.next, sk) :: s.running
      next := s.next + 1
      trace := .start sk s.res s.parsed :: s.trace }) := by
    simp only [acts, List.map_cons, List.cons_append]
    exact List.perm_middle.symm
  have hska : sk ∈ acts (sk :: l) s := by simp [acts]
  refine ⟨⟨hc.pendSub, hc.pendNodup, ?_, ?_, ?_, ?_, ?_, hperm.nodup_iff.1 hc.actNodup,
    fun x hx => hc.actPend x (hperm.mem_iff.2 hx), ?_, ?_, ?_, ?_, ?_, ?_, ?_, ?_⟩, ?_, ?_, hs⟩
  · intro x hx; simpa only [hfin, hfail, hblk] using hc.part x hx
  · intro x hx; simpa only [hfin, hfail, hblk] using hc.pendNot x hx
  · intro x hx; simp only [hfin, hfail] at hx ⊢; exact hc.excl x hx
  · intro x hx; simp only [hfin, hfail] at hx; exact hc.finStage x hx
  · intro x hx
    rw [show s.ind x = _ from hc.ind x hx]
    simp [finB, isDone]
  · intro x hx y hy; rw [hfin]; exact hc.actWaits x (hperm.mem_iff.2 hx) y hy
  · intro x hx hy; simp only [hfin] at hy; exact hperm.mem_iff.1 (hc.idle x hx hy)
  · intro x hx y hy; simp only [hfin, hfail] at hx ⊢; exact hc.finWaits x hx y hy
  · simp only [List.map_cons, List.nodup_cons]
    refine ⟨fun hm => ?_, hc.handles⟩
    exact Nat.lt_irrefl _ (hc.handlesLt _ hm)
  · intro a ha
    simp only [List.map_cons, List.mem_cons] at ha
    rcases ha with rfl | ha
    · exact Nat.lt_succ_self _
    · exact Nat.lt_succ_of_lt (hc.handlesLt a ha)
  · simp only [starts, List.nodup_cons]
    exact ⟨fun hm => (hc.startGone sk hm).1 (by simp), hc.startNodup⟩
  · intro x hx
    simp only [starts, List.mem_cons] at hx
    rcases hx with rfl | hx
    · refine ⟨fun hm => ?_, .inl (by simp)⟩
      have := hc.actNodup
      simp only [acts, List.cons_append, List.nodup_cons] at this
      exact this.1 (List.mem_append_left _ hm)
    · obtain ⟨h1, h2⟩ := hc.startGone x hx
      refine ⟨fun hm => h1 (List.mem_cons_of_mem _ hm), ?_⟩
      rcases h2 with h2 | h2
      · exact .inl (by simp only [List.map_cons, List.mem_cons]; exact .inr h2)
      · exact .inr h2
  · simp only [hfail]; exact hc.errors
  · constructor
    · intro k o hm; simp only [List.mem_cons, reduceCtorEq, false_or] at hm; exact hd.res k o hm
    · intro k o hm; simp only [List.mem_cons, reduceCtorEq, false_or] at hm; exact hd.parsed k o hm
    · intro k; rw [hfin]; exact hd.fdone k
    · intro k r hm; simp only [List.mem_cons, reduceCtorEq, false_or] at hm
      exact hd.interest k r hm
    · intro k r hm; simp only [List.mem_cons, reduceCtorEq, false_or] at hm; exact hd.defer k r hm
    · intro e he; rw [hfin]; exact hd.defOk e he
    · exact hd.defNodup
    · exact hd.backNodup
    · intro k hk; rw [hfin]; exact hd.backFin k hk
    · intro k hk
      obtain ⟨r, h1, h2⟩ := hd.asked k hk
      exact ⟨r, List.mem_cons_of_mem _ h1, h2⟩
  · have hpend := hc.actPend sk hska
    refine ⟨(hc.pendNot sk hpend).2.2, ?_, ?_⟩
    · rintro d rfl t ht rfl hp
      have hw := hc.actWaits _ hska (.parse t.key) (by rw [waits_front ho ht]; simp [hp])
      obtain ⟨o, hm⟩ := hw
      obtain ⟨p, rfl, hl⟩ := hd.parsed _ _ hm
      exact ⟨p, hm, hl hpend⟩
    · rintro k rfl d hu
      obtain ⟨t, ht, rfl, -⟩ := id hu
      have hw := hc.actWaits _ hska (.front d) (by
        rw [waits_front ho ht]
        exact List.mem_append_right _ (List.mem_map.2 ⟨d, deps_of_uses ho ht hu, rfl⟩))
      obtain ⟨o, hm⟩ := hw
      obtain ⟨r, rfl, hl⟩ := hd.res _ _ hm
      exact ⟨r, hm, hl⟩

theorem inv_startAll {g : Graph κ} (ho : Ordered g) : ∀ (l : List (Stage κ)) (s : St κ π η ι),
    Inv g l s → Inv g [] (startAll l s)
  | [], _, h => h
  | _ :: l, _, h => inv_startAll ho l _ (inv_start ho h)

theorem inv_schedule {g : Graph κ} (ho : Ordered g) (cw : κ → Nat) (m : Nat) {s : St κ π η ι}
    (h : Inv g [] s) : Inv g [] (schedule cw m s) := by
  simp only [schedule]
  refine inv_startAll ho _ _ ⟨h.ctl.perm ?_, ?_, h.sound⟩
  · rw [List.take_append_drop]
    exact (List.perm_insertionSort _ _).symm
  · exact ⟨h.dat.res, h.dat.parsed, h.dat.fdone, h.dat.interest, h.dat.defer, h.dat.defOk,
      h.dat.defNodup, h.dat.backNodup, h.dat.backFin, h.dat.asked⟩

end Verif.Build
