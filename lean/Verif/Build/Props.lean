import Verif.Build.React

/-!
# C116, C117 and C118: the scheduler of the build graph
-/

namespace Verif.Build

variable {κ : Type} [DecidableEq κ] {π η ι : Type}

theorem sound_split {g : Graph κ} {e : Event κ π η ι} {earlier : List (Event κ π η ι)} :
    ∀ later : List (Event κ π η ι), Sound g (later ++ e :: earlier) → Good g earlier e
  | [], h => h.1
  | _ :: l, h => sound_split l h.2

/-- Everything that has happened when workers have been started in a state of the loop. -/
abbrev log (cw : κ → Nat) (m : Nat) (s : St κ π η ι) : List (Event κ π η ι) :=
  (schedule cw m s).trace

/-- **C116, order.**  When the front passes of a task start, those of every task it uses have
returned a result before, and exactly these results are among those it is given; if its source had
to be parsed, the parse stage has returned before and the front passes are given what it
returned. -/
theorem C116_order {g : Graph κ} (ho : Ordered g) (cw : κ → Nat) (m : Nat) {s : St κ π η ι}
    (hr : Reach g cw m s) {later earlier : List (Event κ π η ι)} {k : κ}
    {res : List (κ × Result η ι)} {parsed : List (κ × π)}
    (h : log cw m s = later ++ .start (.front k) res parsed :: earlier) :
    (∀ d, Uses g k d → ∃ r, Event.done (.front d) (.fronted r) ∈ earlier ∧
      res.lookup d = some r) ∧
    (∀ t ∈ g.order, t.key = k → t.parse = true →
      ∃ p, Event.done (.parse k) (.parsed p) ∈ earlier ∧ parsed.lookup k = some p) := by
  have hi := inv_schedule ho cw m (inv_reach ho hr)
  have := hi.sound
  rw [show (schedule cw m s).trace = _ from h] at this
  obtain ⟨-, h1, h2⟩ := sound_split _ this
  exact ⟨h2 k rfl, h1 k rfl⟩

/-- **C116, once.**  No stage is started twice. -/
theorem C116_once {g : Graph κ} (ho : Ordered g) (cw : κ → Nat) (m : Nat) {s : St κ π η ι}
    (hr : Reach g cw m s) : (starts (log cw m s)).Nodup :=
  (inv_schedule ho cw m (inv_reach ho hr)).ctl.startNodup

theorem length_startAll : ∀ (l : List (Stage κ)) (s : St κ π η ι),
    (startAll l s).running.length = s.running.length + l.length
  | [], _ => rfl
  | _ :: l, s => by
      rw [startAll, length_startAll l]; simp; omega

theorem length_schedule (cw : κ → Nat) (m : Nat) (s : St κ π η ι) (h : s.running.length ≤ m) :
    (schedule cw m s).running.length ≤ m := by
  simp only [schedule, length_startAll, List.length_take, List.length_insertionSort]
  omega

theorem length_react (g : Graph κ) (s : St κ π η ι) (n : Nat) (sk : Stage κ) (o : Outcome π η ι) :
    (react g s n sk o).running.length ≤ s.running.length := by
  cases o with
  | failed =>
      simp only [react, onFail]
      exact Nat.le_trans (List.length_filter_le _ _) (List.length_filter_le _ _)
  | parsed p => simp only [react, onParsed, onDone]; exact List.length_filter_le _ _
  | fronted r => simp only [react, onFronted, onDone, flush]; exact List.length_filter_le _ _

/-- **C116, limit.**  There are never more workers than allowed. -/
theorem C116_limit {g : Graph κ} (cw : κ → Nat) (m : Nat) {s : St κ π η ι} (hr : Reach g cw m s) :
    (schedule cw m s).running.length ≤ m := by
  refine length_schedule cw m s ?_
  induction hr with
  | init => exact Nat.zero_le _
  | turn _ ht ih =>
      obtain ⟨n, sk, o, _, _⟩ := ht
      exact Nat.le_trans (length_react g _ n sk o) (length_schedule cw m _ ih)

/-! ## The end -/

theorem lookup_fin {g : Graph κ} {s : St κ π η ι} (h : Inv g [] s) {x : Stage κ} {d : κ}
    (hx : Finished s.trace x) (hf : x = .front d) : ∃ r, Event.done (.front d) (.fronted r) ∈ s.trace := by
  subst hf
  obtain ⟨o, hm⟩ := hx
  obtain ⟨r, rfl, -⟩ := h.dat.res _ _ hm
  exact ⟨r, hm⟩

theorem failed_fin {g : Graph κ} (ho : Ordered g) {s : St κ π η ι} (h : Inv g [] s) {k : κ}
    (hk : Finished s.trace (.front k)) : ¬ Failed s.trace k := by
  rintro (hf | hf)
  · have := h.ctl.finStage _ (.inr hf)
    obtain ⟨t, ht, hp, rfl⟩ := mem_stages_parse.1 this
    have hw := h.ctl.finWaits _ (.inl hk) (.parse t.key) (by rw [waits_front ho ht]; simp [hp])
    exact h.ctl.excl _ hw hf
  · exact h.ctl.excl _ hk hf

theorem fin_uses {g : Graph κ} (ho : Ordered g) {s : St κ π η ι} (h : Inv g [] s) {k d : κ}
    (hk : Finished s.trace (.front k)) (hu : Uses g k d) : Finished s.trace (.front d) := by
  obtain ⟨t, ht, rfl, -⟩ := id hu
  exact h.ctl.finWaits _ (.inl hk) _ (by
    rw [waits_front ho ht]
    exact List.mem_append_right _ (List.mem_map.2 ⟨d, deps_of_uses ho ht hu, rfl⟩))

theorem fin_depends {g : Graph κ} (ho : Ordered g) {s : St κ π η ι} (h : Inv g [] s) {k d : κ}
    (hk : Finished s.trace (.front k)) (hu : Depends g k d) : Finished s.trace (.front d) := by
  induction hu with
  | single hu => exact fin_uses ho h hk hu
  | tail _ hu ih => exact fin_uses ho h ih hu

/-- A task or something it depends on has failed. -/
def Doomed (g : Graph κ) (tr : List (Event κ π η ι)) (k : κ) : Prop :=
  ∃ d, (d = k ∨ Depends g k d) ∧ Failed tr d

theorem failed_key {tr : List (Event κ π η ι)} {x : Stage κ} (h : Event.fail x ∈ tr) :
    Failed tr x.key := by
  cases x with
  | parse k => exact .inl h
  | front k => exact .inr h

/-- A stage that is not started and waits for nothing that could still finish. -/
theorem end_stage {g : Graph κ} (ho : Ordered g) {s : St κ π η ι} (h : Inv g [] s)
    (he : acts [] s = []) : ∀ n (x : Stage κ), x ∈ g.stages →
    (∀ rk : κ → Nat, (∀ k d, Uses g k d → rk d < rk k) →
      2 * rk x.key + (match x with | .front _ => 1 | .parse _ => 0) ≤ n →
      Finished s.trace x ∨ Doomed g s.trace x.key) := by
  intro n
  induction n with
  | zero =>
      intro x hx rk hrk hn
      cases x with
      | front k => simp at hn
      | parse k =>
          rcases h.ctl.part _ hx with hp | hp | hp | ⟨y, hy, hd⟩
          · obtain ⟨t, ht, hpa, rfl⟩ := mem_stages_parse.1 hx
            have := h.ctl.idle _ hp (by rw [waits_parse ho ht hpa]; simp)
            rw [he] at this; simp at this
          · exact .inl hp
          · exact .inr ⟨_, .inl rfl, failed_key hp⟩
          · exact .inr ⟨_, .inr hd, failed_key hy⟩
  | succ n ih =>
      intro x hx rk hrk hn
      rcases h.ctl.part _ hx with hp | hp | hp | ⟨y, hy, hd⟩
      · by_cases hall : ∀ y ∈ g.waits x, Finished s.trace y
        · have := h.ctl.idle _ hp hall
          rw [he] at this; simp at this
        · push Not at hall
          obtain ⟨y, hy, hnf⟩ := hall
          have hys := waits_stage ho hx hy
          cases x with
          | parse k =>
              obtain ⟨t, ht, hpa, rfl⟩ := mem_stages_parse.1 hx
              rw [waits_parse ho ht hpa] at hy; simp at hy
          | front k =>
              obtain ⟨t, ht, rfl⟩ := mem_stages_front.1 hx
              rw [waits_front ho ht] at hy
              rcases List.mem_append.1 hy with hy | hy
              · cases hpa : t.parse with
                | false => simp [hpa] at hy
                | true =>
                    simp [hpa] at hy; subst hy
                    rcases ih _ hys rk hrk (by simp only [Stage.key] at hn ⊢; omega) with h1 | h1
                    · exact absurd h1 hnf
                    · exact .inr h1
              · obtain ⟨d, hd, rfl⟩ := List.mem_map.1 hy
                have hu := mem_deps ht d hd
                have hlt := hrk _ _ hu
                rcases ih _ hys rk hrk (by simp only [Stage.key] at hn hlt ⊢; omega) with h1 | h1
                · exact absurd h1 hnf
                · obtain ⟨a, ha, hf⟩ := h1
                  refine .inr ⟨a, .inr ?_, hf⟩
                  rcases ha with rfl | ha
                  · exact .single hu
                  · exact .head hu ha
      · exact .inl hp
      · exact .inr ⟨_, .inl rfl, failed_key hp⟩
      · exact .inr ⟨_, .inr hd, failed_key hy⟩

theorem end_task {g : Graph κ} (ho : Ordered g) {s : St κ π η ι} (h : Inv g [] s)
    (he : acts [] s = []) {x : Stage κ} (hx : x ∈ g.stages) :
    Finished s.trace x ∨ Doomed g s.trace x.key := by
  obtain ⟨rk, hrk⟩ := uses_lt ho
  exact end_stage ho h he _ x hx rk hrk (Nat.le_refl _)

/-- **C117, progress.**  As long as the loop has not ended and at least one worker is allowed, some
worker runs, so the loop goes on with whatever it returns. -/
theorem C117_progress {g : Graph κ} (cw : κ → Nat) (m : Nat) (hm : 1 ≤ m) {s : St κ π η ι}
    (hn : result cw m s = none) :
    ∃ h sk, (h, sk) ∈ (schedule cw m s).running ∧
      ∀ o, Fits sk o → Turn g cw m s (react g (schedule cw m s) h sk o) := by
  have hrun : (schedule cw m s).running ≠ [] := by
    intro hrun
    simp only [result, hrun, true_and] at hn
    split at hn
    · split at hn <;> simp at hn
    · rename_i hr
      apply hr
      have h0 : (schedule cw m s).running.length = 0 := by rw [hrun]; rfl
      simp only [schedule, length_startAll, List.length_take, List.length_insertionSort] at h0
      have hrd : ∀ (l : List (Stage κ)) (s : St κ π η ι), (startAll l s).ready = s.ready := by
        intro l
        induction l with
        | nil => intro s; rfl
        | cons a l ih => intro s; rw [startAll, ih]
      simp only [schedule, hrd]
      rw [List.drop_eq_nil_iff, List.length_insertionSort]
      omega
  obtain ⟨⟨h, sk⟩, hmem⟩ := List.exists_mem_of_ne_nil _ hrun
  exact ⟨h, sk, hmem, fun o ho => .mk s h sk o hmem ho⟩

omit [DecidableEq κ] in
theorem pend_schedule (cw : κ → Nat) (m : Nat) (s : St κ π η ι) :
    (schedule cw m s).pend = s.pend := by
  have : ∀ (l : List (Stage κ)) (s : St κ π η ι), (startAll l s).pend = s.pend := by
    intro l
    induction l with
    | nil => intro s; rfl
    | cons a l ih => intro s; rw [startAll, ih]
  simp only [schedule, this]

theorem length_filter_ne_lt {L : List (Stage κ)} {x : Stage κ} (h : x ∈ L) :
    (L.filter (fun y => !decide (y = x))).length < L.length := by
  rw [List.length_filter_lt_length_iff_exists]
  exact ⟨x, h, by simp⟩

theorem pend_turn {g : Graph κ} (ho : Ordered g) {cw : κ → Nat} {m : Nat} {s s' : St κ π η ι}
    (h : Inv g [] s) (ht : Turn g cw m s s') : s'.pend.length < s.pend.length := by
  obtain ⟨n, sk, o, hr, hf⟩ := ht
  have hi := inv_schedule ho cw m h
  have hp : sk ∈ (schedule cw m s).pend := hi.ctl.actPend sk (by
    simp only [acts, List.nil_append]
    exact List.mem_append_right _ (List.mem_map.2 ⟨_, hr, rfl⟩))
  rw [pend_schedule] at hp
  cases o with
  | failed =>
      simp only [react, onFail, pend_schedule]
      rw [List.filter_filter]
      refine Nat.lt_of_le_of_lt ?_ (length_filter_ne_lt hp)
      rw [← List.filter_filter, List.filter_comm]
      exact List.length_filter_le _ _
  | parsed p =>
      simp only [react, onParsed, onDone, pend_schedule]; exact length_filter_ne_lt hp
  | fronted r =>
      simp only [react, onFronted, onDone, flush, pend_schedule]; exact length_filter_ne_lt hp

/-- **C117, end.**  Every build ends: the loop turns at most twice for each task. -/
theorem C117_ends {g : Graph κ} (ho : Ordered g) (cw : κ → Nat) (m : Nat)
    (f : Nat → St κ π η ι) (n : Nat) (h0 : f 0 = initial g)
    (hf : ∀ i < n, Turn g cw m (f i) (f (i + 1))) : n ≤ 2 * g.order.length := by
  have key : ∀ i ≤ n, Inv g [] (f i) ∧ (f i).pend.length + i ≤ g.stages.length := by
    intro i
    induction i with
    | zero => intro _; rw [h0]; exact ⟨inv_initial ho, by simp [initial]⟩
    | succ i ih =>
        intro hi
        obtain ⟨h1, h2⟩ := ih (by omega)
        have ht := hf i (by omega)
        exact ⟨inv_turn ho h1 ht, by have := pend_turn ho h1 ht; omega⟩
  have h1 := (key n (Nat.le_refl _)).2
  have h2 : g.stages.length ≤ 2 * g.order.length := by
    rw [stages_eq]
    simp only [List.length_append, List.length_map]
    have := List.length_filter_le Task.parse g.order
    omega
  omega

/-- What the loop ends with. -/
theorem result_cases {cw : κ → Nat} {m : Nat} {s s' : St κ π η ι} {b : Bool}
    (hres : result cw m s = some (s', b)) : acts [] (schedule cw m s) = [] ∧
    (((schedule cw m s).pend = [] ∧ s' = flush (schedule cw m s) ∧
      b = (s'.errors || !s'.deferred.isEmpty)) ∨
     ((schedule cw m s).pend ≠ [] ∧ s' = schedule cw m s ∧ b = true)) := by
  simp only [result] at hres
  split at hres
  · rename_i h
    refine ⟨by simp [acts, h.1, h.2], ?_⟩
    split at hres
    · rename_i hp
      simp only [Option.some.injEq, Prod.mk.injEq] at hres
      obtain ⟨h1, h2⟩ := hres
      exact .inl ⟨hp, h1.symm, by rw [← h1, ← h2]⟩
    · rename_i hp
      simp only [Option.some.injEq, Prod.mk.injEq] at hres
      exact .inr ⟨hp, hres.1.symm, hres.2.symm⟩
  · simp at hres

/-- **C117, result.**  When the loop ends, the front passes of a task have returned a result if and
only if neither the task nor anything it depends on has failed; and the build reports errors if and
only if some task has failed. -/
theorem C117_result {g : Graph κ} (ho : Ordered g) (cw : κ → Nat) (m : Nat) {s s' : St κ π η ι}
    {b : Bool} (hr : Reach g cw m s) (hres : result cw m s = some (s', b)) :
    (∀ t ∈ g.order, (∃ r, Event.done (.front t.key) (.fronted r) ∈ s'.trace) ↔
      ¬ ∃ d, (d = t.key ∨ Depends g t.key d) ∧ Failed s'.trace d) ∧
    (b = true ↔ ∃ k, Failed s'.trace k) := by
  have hi := inv_schedule ho cw m (inv_reach ho hr)
  obtain ⟨hact, hcase⟩ := result_cases hres
  have hi' : Inv g [] s' := by
    rcases hcase with ⟨-, rfl, -⟩ | ⟨-, rfl, -⟩
    · exact inv_flush ho hi
    · exact hi
  have hact' : acts [] s' = [] := by
    rcases hcase with ⟨-, rfl, -⟩ | ⟨-, rfl, -⟩
    · exact hact
    · exact hact
  refine ⟨fun t ht => ⟨?_, fun hn => ?_⟩, ?_, ?_⟩
  · rintro ⟨r, hd⟩ ⟨d, hd', hf⟩
    rcases hd' with rfl | hd'
    · exact failed_fin ho hi' ⟨_, hd⟩ hf
    · exact failed_fin ho hi' (fin_depends ho hi' ⟨_, hd⟩ hd') hf
  · rcases end_task ho hi' hact' (mem_stages_front.2 ⟨t, ht, rfl⟩) with h | h
    · exact lookup_fin hi' h rfl
    · exact absurd h hn
  · intro hb
    rcases hcase with ⟨hp, rfl, hb'⟩ | ⟨hp, rfl, -⟩
    · rw [hb] at hb'
      cases he : (flush (schedule cw m s)).errors with
      | true =>
          obtain ⟨x, hx⟩ := hi'.ctl.errors.1 he
          exact ⟨_, failed_key hx⟩
      | false =>
          rw [he] at hb'
          simp only [Bool.false_or] at hb'
          cases hde : (flush (schedule cw m s)).deferred with
          | nil => rw [hde] at hb'; simp at hb'
          | cons e L =>
              have hmem : e ∈ (flush (schedule cw m s)).deferred := by rw [hde]; simp
              have hcl := (hi'.dat.defOk e hmem).1
              have hnr : isReady (schedule cw m s).frontDone e = false := by
                simp only [flush, List.mem_filter, Bool.not_eq_true'] at hmem
                exact hmem.2
              simp only [isReady, List.all_eq_false, decide_eq_true_eq] at hnr
              obtain ⟨j, hj, hjn⟩ := hnr
              rw [hcl, mem_closure ho] at hj
              have hjo : ∃ t ∈ g.order, t.key = j := by
                cases hj using Relation.TransGen.head_induction_on with
                | single h => obtain ⟨t, ht, hk, -⟩ := h; exact ⟨t, ht, hk⟩
                | head h _ => obtain ⟨t, ht, hk, -⟩ := h; exact ⟨t, ht, hk⟩
              rcases end_task ho hi hact (mem_stages_front.2 hjo) with h | ⟨d, -, hf⟩
              · exact absurd ((hi.dat.fdone j).2 h) hjn
              · refine ⟨d, ?_⟩
                rcases hf with hf | hf
                · exact .inl (List.mem_append_right _ hf)
                · exact .inr (List.mem_append_right _ hf)
    · obtain ⟨x, hx⟩ := List.exists_mem_of_ne_nil _ hp
      rcases end_task ho hi' hact' (hi'.ctl.pendSub x hx) with h | ⟨d, -, hf⟩
      · exact absurd h (hi'.ctl.pendNot x hx).1
      · exact ⟨d, hf⟩
  · rintro ⟨k, hf⟩
    have he : s'.errors = true := by
      refine hi'.ctl.errors.2 ?_
      rcases hf with hf | hf
      · exact ⟨_, hf⟩
      · exact ⟨_, hf⟩
    rcases hcase with ⟨-, -, hb'⟩ | ⟨-, -, hb'⟩
    · rw [hb', he]; rfl
    · exact hb'

/-- **C117, blocked tasks.**  After a task has failed, no worker is started for any stage of a task
that depends on it; and no front passes of such a task are ever started. -/
theorem C117_blocked {g : Graph κ} (ho : Ordered g) (cw : κ → Nat) (m : Nat) {s : St κ π η ι}
    (hr : Reach g cw m s) {later earlier : List (Event κ π η ι)} {x : Stage κ} {j : κ}
    (h : log cw m s = later ++ .fail x :: earlier) (hj : Depends g j x.key)
    {sk : Stage κ} {res : List (κ × Result η ι)} {parsed : List (κ × π)} :
    (Event.start sk res parsed ∈ later → sk.key ≠ j) ∧
    Event.start (.front j) res parsed ∉ log cw m s := by
  have hi := inv_schedule ho cw m (inv_reach ho hr)
  have hso := hi.sound
  constructor
  · intro hst hk
    obtain ⟨l1, l2, rfl⟩ := List.append_of_mem hst
    rw [show (schedule cw m s).trace = _ from h] at hso
    have h2 : l1 ++ Event.start sk res parsed :: l2 ++ Event.fail x :: earlier =
        l1 ++ Event.start sk res parsed :: (l2 ++ Event.fail x :: earlier) := by simp
    rw [h2] at hso
    obtain ⟨h3, -, -⟩ := sound_split _ hso
    exact h3 ⟨x, by simp, by rw [hk]; exact hj⟩
  · intro hst
    obtain ⟨l1, l2, h1⟩ := List.append_of_mem hst
    obtain ⟨h2, -⟩ := C116_order ho cw m hr h1
    have hfx : Event.fail x ∈ (schedule cw m s).trace := by
      rw [show (schedule cw m s).trace = _ from h]; simp
    -- the first step from `j` towards `x` has finished
    have hfin : ∀ a, Uses g j a → Finished (schedule cw m s).trace (.front a) := by
      intro a ha
      obtain ⟨r, hr, -⟩ := h2 a ha
      refine ⟨.fronted r, ?_⟩
      rw [show (schedule cw m s).trace = _ from h1]
      exact List.mem_append_right _ (List.mem_cons_of_mem _ hr)
    have hx : Finished (schedule cw m s).trace (.front x.key) := by
      cases hj using Relation.TransGen.head_induction_on with
      | single hu => exact hfin _ hu
      | head hu hd => exact fin_depends ho hi (hfin _ hu) hd
    exact failed_fin ho hi hx (failed_key hfx)

/-! ## Deferred back jobs -/

/-- **C118, interest.**  When a deferred back job is prepared, the front passes of every task that
depends on it have returned, and the names they are interested in are all known. -/
theorem C118_interest {g : Graph κ} (ho : Ordered g) (cw : κ → Nat) (m : Nat) {s : St κ π η ι}
    (hr : Reach g cw m s) {later earlier : List (Event κ π η ι)} {k : κ} {i : List ι}
    (h : s.trace = later ++ .back k i :: earlier) :
    ∀ j, Depends g j k → ∃ r, Event.done (.front j) (.fronted r) ∈ earlier ∧ r.interest ⊆ i := by
  have hi := (inv_reach ho hr).sound
  rw [h] at hi
  exact sound_split _ hi

/-- **C118, once.**  No deferred back job is prepared twice, and none is prepared that the front
passes did not ask for. -/
theorem C118_once {g : Graph κ} (ho : Ordered g) (cw : κ → Nat) (m : Nat) {s : St κ π η ι}
    (hr : Reach g cw m s) : (backs s.trace).Nodup ∧ ∀ k ∈ backs s.trace,
      ∃ r, Event.done (.front k) (.fronted r) ∈ s.trace ∧ r.deferred = true :=
  ⟨(inv_reach ho hr).dat.backNodup, fun k hk => (inv_reach ho hr).dat.asked k (.inr hk)⟩

/-- **C118, all.**  When the build ends without errors, every deferred back job that some front
passes asked for has been prepared. -/
theorem C118_all {g : Graph κ} (ho : Ordered g) (cw : κ → Nat) (m : Nat) {s s' : St κ π η ι}
    {b : Bool} (hr : Reach g cw m s) (hres : result cw m s = some (s', b)) {k : κ} {r : Result η ι}
    (hd : Event.done (.front k) (.fronted r) ∈ s'.trace) (ha : r.deferred = true)
    (hb : b = false) : k ∈ backs s'.trace := by
  have hi := inv_schedule ho cw m (inv_reach ho hr)
  obtain ⟨hact, hcase⟩ := result_cases hres
  rcases hcase with ⟨-, rfl, hb'⟩ | ⟨-, -, hb'⟩
  · have hi' := inv_flush ho hi
    rw [hb] at hb'
    have hde : (flush (schedule cw m s)).deferred = [] := by
      cases h : (flush (schedule cw m s)).deferred with
      | nil => rfl
      | cons e L => rw [h] at hb'; simp at hb'
    rcases hi'.dat.defer k r hd ha with h | h
    · rw [hde] at h; simp at h
    · exact h
  · rw [hb] at hb'; simp at hb'

/-! ## A build

`__builtin__` is task 9; task 3 imports 1 and 2, which import 0; all import `__builtin__`; the source
of 0 is known to be unchanged, so it is not parsed. -/

def diamond : Graph Nat where
  tasks := [⟨9, [], true, true⟩, ⟨3, [9, 1, 2], false, true⟩, ⟨0, [9], false, false⟩,
    ⟨1, [9, 0], false, true⟩, ⟨2, [9, 0], false, true⟩]
  order := [⟨0, [9], false, false⟩, ⟨1, [9, 0], false, true⟩, ⟨2, [9, 0], false, true⟩,
    ⟨3, [9, 1, 2], false, true⟩]

theorem uses_diamond {k d : Nat} (h : Uses diamond k d) :
    (k = 1 ∧ d = 0) ∨ (k = 2 ∧ d = 0) ∨ (k = 3 ∧ (d = 1 ∨ d = 2)) := by
  obtain ⟨t, ht, rfl, hd, u, hu, hb, rfl⟩ := h
  simp [diamond] at ht hu
  rcases ht with rfl | rfl | rfl | rfl <;> rcases hu with rfl | rfl | rfl | rfl | rfl <;>
    simp_all

/-- The graph meets the contract. -/
theorem diamond_ordered : Ordered diamond where
  keys := by decide
  perm := by decide
  after := by
    intro pre t post h d hu
    have h' := uses_diamond hu
    have hlen : pre.length < 4 := by
      have := congrArg List.length h; simp [diamond] at this; omega
    rcases pre with _ | ⟨a, _ | ⟨b, _ | ⟨c, _ | ⟨e, pre⟩⟩⟩⟩
    · simp [diamond] at h; obtain ⟨rfl, -⟩ := h; simp at h'
    · simp [diamond] at h; obtain ⟨rfl, rfl, -⟩ := h; simp at h'; simp [h']
    · simp [diamond] at h; obtain ⟨rfl, rfl, rfl, -⟩ := h; simp at h'; simp [h']
    · simp [diamond] at h; obtain ⟨rfl, rfl, rfl, rfl, -⟩ := h; simp at h'; simp; omega
    · simp at hlen; omega

/-- One worker at a time returns, always the one started first; `o` says with what. -/
def drive (g : Graph Nat) (m : Nat) (o : Stage Nat → Outcome Nat Nat Nat) :
    Nat → St Nat Nat Nat Nat → St Nat Nat Nat Nat
  | 0, s => s
  | n + 1, s =>
      match (schedule id m s).running.getLast? with
      | none => s
      | some (h, sk) => drive g m o n (react g (schedule id m s) h sk (o sk))

theorem drive_reach {g : Graph Nat} {m : Nat} {o : Stage Nat → Outcome Nat Nat Nat}
    (ho : ∀ sk, Fits sk (o sk)) : ∀ n s, Reach g id m s → Reach g id m (drive g m o n s)
  | 0, _, h => h
  | n + 1, s, h => by
      rw [drive]
      split
      · exact h
      · rename_i h' sk he
        exact drive_reach ho n _ (.turn h (.mk s h' sk _ (List.mem_of_getLast? he) (ho sk)))

/-- All goes well, and all back jobs are deferred. -/
def good : Stage Nat → Outcome Nat Nat Nat
  | .parse k => .parsed (100 + k)
  | .front k => .fronted ⟨k, [k], true⟩

/-- Task 1 fails. -/
def bad : Stage Nat → Outcome Nat Nat Nat
  | .front 1 => .failed
  | sk => good sk

theorem fits_good : ∀ sk, Fits sk (good sk)
  | .parse _ => trivial
  | .front _ => trivial

theorem fits_bad : ∀ sk, Fits sk (bad sk)
  | .parse _ => trivial
  | .front 1 => trivial
  | .front 0 => trivial
  | .front (_ + 2) => trivial

/-- In the states below the theorems apply. -/
example : Ordered diamond ∧ Reach diamond id 2 (drive diamond 2 good 9 (initial diamond)) ∧
    Reach diamond id 2 (drive diamond 2 bad 9 (initial diamond)) :=
  ⟨diamond_ordered, drive_reach fits_good _ _ .init, drive_reach fits_bad _ _ .init⟩

/-- C116, C118: what the front passes of 3 are given, the order in which stages start and the order
in which back jobs are prepared, newest first. -/
example : let tr := (drive diamond 2 good 9 (initial diamond)).trace
    starts tr = [.front 3, .front 1, .front 2, .parse 1, .parse 2, .parse 3, .front 0] ∧
    (tr.any fun
      | .start (.front 3) res parsed => (res.map Prod.fst == [1, 2, 0]) && (parsed == [(3, 103)])
      | _ => false) ∧
    backs tr = [0, 2, 1, 3] := by decide +kernel

/-- C117: the first build ends well, after seven of the eight turns that were possible. -/
example : (result id 2 (drive diamond 2 good 6 (initial diamond))).isNone ∧
    (result id 2 (drive diamond 2 good 7 (initial diamond))).map Prod.snd = some false := by
  decide +kernel

/-- C117: when 1 fails, 3 is never started past its parse stage, but 2 is done and the build reports
errors. -/
example : let s := drive diamond 2 bad 9 (initial diamond)
    starts s.trace = [.front 1, .front 2, .parse 1, .parse 2, .parse 3, .front 0] ∧
    (s.trace.any fun | .fail (.front 1) => true | _ => false) ∧
    (s.trace.any fun | .done (.front 2) _ => true | _ => false) ∧
    (result id 2 s).map Prod.snd = some true := by decide +kernel

end Verif.Build
