import Verif.Log.Model
import Mathlib.Data.List.Basic
/-!
# C162: the path in the lines of the sinks
-/
namespace Verif.Log

/-- The path of a message that came through these handlers (latest first): the names of the
handlers that have one, and what the logger put there. -/
def trail (names : Nat → Option Nat) (base : List Nat) (route : List Nat) : List Nat :=
  route.filterMap names ++ base

theorem trail_cons (names : Nat → Option Nat) (base : List Nat) (h : Nat) (r : List Nat) :
    trail names base (h :: r) = insertName (names h) (trail names base r) := by
  unfold trail insertName
  cases hn : names h with
  | none => rw [List.filterMap_cons_none hn]
  | some n => rw [List.filterMap_cons_some hn]; rfl

theorem trail_suffix (names : Nat → Option Nat) (base : List Nat) {r r' : List Nat} (h : r <:+ r') :
    trail names base r <:+ trail names base r' := by
  obtain ⟨p, rfl⟩ := h
  refine ⟨p.filterMap names, ?_⟩
  unfold trail
  rw [List.filterMap_append, List.append_assoc]

/-- The call still decides whether and where the message goes on. -/
def lead (t : Task) : Bool := decide (t.buf ≠ .sent)

/-- A call against the latest route `R` through which the message came. -/
structure Ok (R : List Nat) (t : Task) : Prop where
  queued : t.pc = .queued → t.prev = R ∧ t.buf = .none
  inserted : t.pc = .inserted → t.buf = .none
  now : t.pc ≠ .queued → t.buf ≠ .sent → t.route = R
  past : t.pc ≠ .queued → t.route <:+ R

/-- The invariant. -/
structure Inv (names : Nat → Option Nat) (base : List Nat) (s : S) : Prop where
  path : s.path = trail names base s.last
  ok : ∀ t ∈ s.tasks, Ok s.last t
  one : s.tasks.countP lead ≤ 1

theorem mem_flush {t t' : Task} (h : t' ∈ flush t) :
    ∃ p, t.buf = .pending p ∧ t' = ⟨p, t.route, .queued, .none⟩ := by
  unfold flush at h
  cases hb : t.buf with
  | none => rw [hb] at h; cases h
  | sent => rw [hb] at h; cases h
  | pending p => rw [hb] at h; exact ⟨p, rfl, List.mem_singleton.1 h⟩

theorem flush_lead (t : Task) : (flush t).countP lead ≤ (if lead t then 1 else 0) := by
  unfold flush lead
  cases hb : t.buf <;> simp

theorem flush_left (t : Task) (k : Nat) :
    (flush t).countP lead + (if lead { t with pc := .sink k, buf := left t.buf } then 1 else 0) ≤ (if lead t then 1 else 0) := by
  unfold flush left lead
  cases hb : t.buf <;> simp

/-- Where the message is. -/
theorem mem_split {l pre post : List Task} {t : Task} (h : l = pre ++ t :: post) : t ∈ l ∧
    (∀ x ∈ pre, x ∈ l) ∧ (∀ x ∈ post, x ∈ l) := by
  subst h
  exact ⟨by simp, fun x hx => by simp [hx], fun x hx => by simp [hx]⟩

theorem ok_route {R : List Nat} {t : Task} (h : Ok R t) (hq : t.pc ≠ .queued) (p : Nat) (hb : t.buf = .pending p) :
    Ok R ⟨p, t.route, .queued, .none⟩ :=
  ⟨fun _ => ⟨h.now hq (by rw [hb]; simp), rfl⟩, fun _ => rfl, fun h _ => absurd rfl h, fun h => absurd rfl h⟩

/-- A call ends. -/
theorem inv_flush {names : Nat → Option Nat} {base : List Nat} {s : S} (H : Inv names base s) {pre post : List Task}
    {t : Task} (ht : s.tasks = pre ++ t :: post) (hq : t.pc ≠ .queued) :
    Inv names base { s with tasks := pre ++ (flush t ++ post) } := by
  obtain ⟨m1, m2, m3⟩ := mem_split ht
  refine ⟨H.path, ?_, ?_⟩
  · intro x hx
    rcases List.mem_append.1 hx with h | h
    · exact H.ok x (m2 x h)
    · rcases List.mem_append.1 h with h | h
      · obtain ⟨p, hb, rfl⟩ := mem_flush h
        exact ok_route (H.ok t m1) hq p hb
      · exact H.ok x (m3 x h)
  · have := H.one
    rw [ht, List.countP_append, List.countP_cons] at this
    have h2 := flush_lead t
    show (pre ++ (flush t ++ post)).countP lead ≤ 1
    rw [List.countP_append, List.countP_append]
    omega

theorem inv_step {names : Nat → Option Nat} {base : List Nat} {m : Msg} {s s' : S} (H : Inv names base s)
    (h : Step names m s s') : s.last <:+ s'.last ∧ Inv names base s' ∧
      ∃ l, s'.out = s.out ++ l ∧ ∀ e ∈ l, e.route <:+ s'.last ∧ e.path = trail names base s'.last ∧
        ∃ t ∈ s.tasks, t.route = e.route ∧ t.pc = .sink e.sink ∧ e.sink < (s.hs t.at_).sinks.length ∧
          (t.buf ≠ .sent → e.route = s'.last) := by
  have hone := H.one
  cases h with
  | @block pre post t ht hp hl =>
    obtain ⟨m1, m2, m3⟩ := mem_split ht
    refine ⟨List.suffix_refl _, ⟨H.path, ?_, ?_⟩, [], by simp, by simp⟩
    · intro x hx
      rcases List.mem_append.1 hx with h | h
      · exact H.ok x (m2 x h)
      · exact H.ok x (m3 x h)
    · rw [ht, List.countP_append, List.countP_cons] at hone
      show (pre ++ post).countP lead ≤ 1
      rw [List.countP_append]; omega
  | @enter pre post t ht hp hl hi =>
    obtain ⟨m1, m2, m3⟩ := mem_split ht
    obtain ⟨q1, q2⟩ := (H.ok t m1).queued hp
    have hlt : lead t = true := by unfold lead; rw [q2]; rfl
    rw [ht, List.countP_append, List.countP_cons, if_pos hlt] at hone
    have hz : ∀ x, x ∈ pre ∨ x ∈ post → x.buf = .sent := by
      intro x hx
      have : lead x = false := by
        rcases hx with hx | hx
        · have h0 : pre.countP lead = 0 := by omega
          simpa using List.countP_eq_zero.1 h0 x hx
        · have h0 : post.countP lead = 0 := by omega
          simpa using List.countP_eq_zero.1 h0 x hx
      unfold lead at this
      simpa using this
    have hold : ∀ x, x ∈ pre ∨ x ∈ post → Ok t.route x := by
      intro x hx
      have hs := hz x hx
      have hx' := H.ok x (hx.elim (m2 x) (m3 x))
      refine ⟨fun h => ?_, fun h => ?_, fun _ h => absurd hs h, fun h => ?_⟩
      · rw [(hx'.queued h).2] at hs; cases hs
      · rw [hx'.inserted h] at hs; cases hs
      · exact (hx'.past h).trans ⟨[t.at_], by rw [← q1]; rfl⟩
    refine ⟨⟨[t.at_], by rw [← q1]; rfl⟩, ⟨?_, ?_, ?_⟩, [], by simp, by simp⟩
    · show insertName (names t.at_) s.path = _
      rw [H.path, ← q1]; exact (trail_cons names base t.at_ t.prev).symm
    · intro x hx
      rcases List.mem_append.1 hx with h | h
      · exact hold x (.inl h)
      · rcases List.mem_cons.1 h with rfl | h
        · exact ⟨fun h => (by cases h), fun _ => q2, fun _ _ => rfl, fun _ => List.suffix_refl _⟩
        · exact hold x (.inr h)
    · show (pre ++ { t with pc := .inserted } :: post).countP lead ≤ 1
      rw [List.countP_append, List.countP_cons]
      have : lead { t with pc := .inserted } = true := hlt
      rw [if_pos this]; omega
  | @parent pre post t ht hp =>
    obtain ⟨m1, m2, m3⟩ := mem_split ht
    have hnq : t.pc ≠ .queued := by rw [hp]; simp
    have hb := (H.ok t m1).inserted hp
    have hR := (H.ok t m1).now hnq (by rw [hb]; simp)
    have hlt : lead t = true := by unfold lead; rw [hb]; rfl
    rw [ht, List.countP_append, List.countP_cons, if_pos hlt] at hone
    refine ⟨List.suffix_refl _, ⟨H.path, ?_, ?_⟩, [], by simp, by simp⟩
    · intro x hx
      rcases List.mem_append.1 hx with h | h
      · exact H.ok x (m2 x h)
      · rcases List.mem_cons.1 h with rfl | h
        · have hR' : t.route <:+ s.last := by rw [hR]; exact List.suffix_refl _
          exact ⟨fun h => (by cases h), fun h => (by cases h), fun _ _ => hR, fun _ => hR'⟩
        · exact H.ok x (m3 x h)
    · show (pre ++ { t with pc := .sink 0, buf := forward (s.hs t.at_).parent } :: post).countP lead ≤ 1
      rw [List.countP_append, List.countP_cons]
      split <;> omega
  | @print pre post t k ht hp hk hm =>
    obtain ⟨m1, m2, m3⟩ := mem_split ht
    have hnq : t.pc ≠ .queued := by rw [hp]; simp
    have H' := H.ok t m1
    rw [ht, List.countP_append, List.countP_cons] at hone
    refine ⟨List.suffix_refl _, ⟨H.path, ?_, ?_⟩, lines m t k s.path, rfl, ?_⟩
    · intro x hx
      rcases List.mem_append.1 hx with h | h
      · exact H.ok x (m2 x h)
      · rcases List.mem_cons.1 h with rfl | h
        · exact ⟨fun h => (by cases h), fun h => (by cases h), fun _ h => H'.now hnq h, fun _ => H'.past hnq⟩
        · exact H.ok x (m3 x h)
    · show (pre ++ { t with pc := .sink (k + 1) } :: post).countP lead ≤ 1
      rw [List.countP_append, List.countP_cons]
      exact hone
    · intro e he
      unfold lines at he
      split at he
      · cases he
      · rw [List.mem_singleton.1 he]
        exact ⟨H'.past hnq, H.path, t, m1, rfl, hp, (List.getElem?_eq_some_iff.1 hk).1, fun h => H'.now hnq h⟩
  | @wait pre post t k ht hp hk hm =>
    obtain ⟨m1, m2, m3⟩ := mem_split ht
    have hnq : t.pc ≠ .queued := by rw [hp]; simp
    have H' := H.ok t m1
    rw [ht, List.countP_append, List.countP_cons] at hone
    refine ⟨List.suffix_refl _, ⟨H.path, ?_, ?_⟩, lines m t k s.path, rfl, ?_⟩
    · intro x hx
      rcases List.mem_append.1 hx with h | h
      · exact H.ok x (m2 x h)
      · rcases List.mem_cons.1 h with rfl | h
        · refine ⟨fun h => (by cases h), fun h => (by cases h), fun _ h => H'.now hnq ?_, fun _ => H'.past hnq⟩
          intro hb
          apply h
          show left t.buf = .sent
          rw [hb]; rfl
        · rcases List.mem_append.1 h with h | h
          · obtain ⟨p, hb, rfl⟩ := mem_flush h
            exact ok_route H' hnq p hb
          · exact H.ok x (m3 x h)
    · show (pre ++ { t with pc := .sink (k + 1), buf := left t.buf } :: (flush t ++ post)).countP lead ≤ 1
      rw [List.countP_append, List.countP_cons, List.countP_append]
      have := flush_left t (k + 1)
      omega
    · intro e he
      unfold lines at he
      split at he
      · cases he
      · rw [List.mem_singleton.1 he]
        exact ⟨H'.past hnq, H.path, t, m1, rfl, hp, (List.getElem?_eq_some_iff.1 hk).1, fun h => H'.now hnq h⟩
  | @fail pre post t k b ht hp hk hm =>
    exact ⟨List.suffix_refl _, inv_flush H ht (by rw [hp]; simp), [], by simp, by simp⟩
  | @finish pre post t k ht hp hk =>
    exact ⟨List.suffix_refl _, inv_flush H ht (by rw [hp]; simp), [], by simp, by simp⟩

theorem inv_start (names : Nat → Option Nat) (hs : Nat → Handler) (base : List Nat) (h0 : Nat) :
    Inv names base (start hs base h0) :=
  ⟨rfl, fun t ht => by
    rw [List.mem_singleton.1 ht]
    exact ⟨fun _ => ⟨rfl, rfl⟩, fun _ => rfl, fun h _ => absurd rfl h, fun h => absurd rfl h⟩, Nat.le_refl 1⟩

theorem inv_run {names : Nat → Option Nat} {base : List Nat} {m : Msg} {P : (Nat → Handler) → Prop} {s0 s : S}
    (h0 : Inv names base s0) (h : Run names m P s0 s) : Inv names base s := by
  induction h with
  | refl => exact h0
  | step _ hs ih => exact (inv_step ih hs).2.1
  | config _ _ H => exact ⟨H.path, H.ok, H.one⟩

/-- In all runs, whatever is set during the run: the path in a line ends with the true path of the message. -/
theorem C162_suffix {names : Nat → Option Nat} {m : Msg} {hs : Nat → Handler} {base : List Nat} {h0 : Nat} {s : S}
    (h : Run names m (fun _ => True) (start hs base h0) s) {e : Line} (he : e ∈ s.out) :
    trail names base e.route <:+ e.path := by
  have : ∀ s0 s, Inv names base s0 → (∀ e ∈ s0.out, trail names base e.route <:+ e.path) →
      Run names m (fun _ => True) s0 s → ∀ e ∈ s.out, trail names base e.route <:+ e.path := by
    intro s0 s hi ho h
    induction h with
    | refl => exact ho
    | step hr hs ih =>
      obtain ⟨_, _, l, hl, hl'⟩ := inv_step (inv_run hi hr) hs
      intro e he
      rw [hl] at he
      rcases List.mem_append.1 he with he | he
      · exact ih e he
      · obtain ⟨a, b, _⟩ := hl' e he
        rw [b]; exact trail_suffix names base a
    | config _ _ ih => exact ih
  exact this _ _ (inv_start names hs base h0) (fun e he => by cases he) h e he

/-- No sink waits. -/
def NoWait (hs : Nat → Handler) : Prop := ∀ h, ∀ b ∈ (hs h).sinks, b = false

theorem no_sent {names : Nat → Option Nat} {m : Msg} {s0 s : S} (h0 : ∀ t ∈ s0.tasks, t.buf ≠ .sent)
    (h : Run names m NoWait s0 s) : NoWait s.hs ∧ ∀ t ∈ s.tasks, t.buf ≠ .sent := by
  have hf : ∀ {t x : Task}, x ∈ flush t → x.buf ≠ .sent := by
    intro t x hx
    obtain ⟨p, _, rfl⟩ := mem_flush hx
    simp
  induction h with
  | refl hp => exact ⟨hp, h0⟩
  | config hp _ ih => exact ⟨hp, ih.2⟩
  | step _ hs ih =>
    obtain ⟨hn, ih⟩ := ih
    cases hs with
    | block ht =>
      obtain ⟨m1, m2, m3⟩ := mem_split ht
      exact ⟨hn, fun x hx => (List.mem_append.1 hx).elim (fun h => ih x (m2 x h)) (fun h => ih x (m3 x h))⟩
    | enter ht =>
      obtain ⟨m1, m2, m3⟩ := mem_split ht
      refine ⟨hn, fun x hx => (List.mem_append.1 hx).elim (fun h => ih x (m2 x h)) (fun h => ?_)⟩
      rcases List.mem_cons.1 h with rfl | h
      · exact (ih _ m1 : Task.buf _ ≠ .sent)
      · exact ih x (m3 x h)
    | parent ht =>
      obtain ⟨m1, m2, m3⟩ := mem_split ht
      refine ⟨hn, fun x hx => (List.mem_append.1 hx).elim (fun h => ih x (m2 x h)) (fun h => ?_)⟩
      rcases List.mem_cons.1 h with rfl | h
      · show forward _ ≠ _
        unfold forward; split <;> simp
      · exact ih x (m3 x h)
    | print ht =>
      obtain ⟨m1, m2, m3⟩ := mem_split ht
      refine ⟨hn, fun x hx => (List.mem_append.1 hx).elim (fun h => ih x (m2 x h)) (fun h => ?_)⟩
      rcases List.mem_cons.1 h with rfl | h
      · exact (ih _ m1 : Task.buf _ ≠ .sent)
      · exact ih x (m3 x h)
    | wait ht hp hk =>
      have := hn _ true (List.mem_of_getElem? hk)
      cases this
    | fail ht =>
      obtain ⟨m1, m2, m3⟩ := mem_split ht
      refine ⟨hn, fun x hx => (List.mem_append.1 hx).elim (fun h => ih x (m2 x h)) (fun h => ?_)⟩
      exact (List.mem_append.1 h).elim hf (fun h => ih x (m3 x h))
    | finish ht =>
      obtain ⟨m1, m2, m3⟩ := mem_split ht
      refine ⟨hn, fun x hx => (List.mem_append.1 hx).elim (fun h => ih x (m2 x h)) (fun h => ?_)⟩
      exact (List.mem_append.1 h).elim hf (fun h => ih x (m3 x h))

/-- C162, where it holds: if no sink waits for an answer (those of logging.act do not), every line has the
path of the message from the logger to the handler of the sink.
Missing: sinks that wait, see the refutation. -/
theorem C162_partial {names : Nat → Option Nat} {m : Msg} {hs : Nat → Handler} {base : List Nat} {h0 : Nat} {s : S}
    (h : Run names m NoWait (start hs base h0) s) {e : Line} (he : e ∈ s.out) :
    e.path = trail names base e.route := by
  have hstart : ∀ t ∈ (start hs base h0).tasks, t.buf ≠ .sent := fun t ht => by
    rw [List.mem_singleton.1 ht]; simp
  have hi : Inv names base (start hs base h0) := inv_start names hs base h0
  have ho : ∀ e ∈ (start hs base h0).out, e.path = trail names base e.route := fun e he => by cases he
  generalize start hs base h0 = s0 at h hstart hi ho
  induction h with
  | refl => exact ho e he
  | step hr hs ih =>
    obtain ⟨_, _, l, hl, hl'⟩ := inv_step (inv_run hi hr) hs
    rw [hl] at he
    rcases List.mem_append.1 he with he | he
    · exact ih he
    · obtain ⟨_, b, t, ht, _, _, _, c⟩ := hl' e he
      rw [b, c ((no_sent hstart hr).2 t ht)]
  | config _ _ ih => exact ih he

end Verif.Log
