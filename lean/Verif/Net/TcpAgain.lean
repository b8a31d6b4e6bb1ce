import Verif.Net.TcpProps
/-!
# C158: connecting again; C159: the handles of a connection
-/
namespace Verif.Net.Tcp

/-- With an address of the family `f`, the other family is never used. -/
structure OneFam (f : Fam) (s : S) : Prop where
  oth : s.sub f.other = .none
  dns : ∀ g, s.dns g = 0 ∧ s.retry g = 0
  reqo : s.req f.other = []

theorem one_begin {f : Fam} {s : S} (H : OneFam f s) : OneFam f (begin s f) := by
  have hn := other_ne f
  refine ⟨?_, H.dns, ?_⟩
  · exact (upd_ne _ _ hn).trans H.oth
  · exact (upd_ne _ _ hn).trans H.reqo

theorem one_close {f : Fam} {s : S} (H : OneFam f s) (cb : Cb) (ok : Bool) : OneFam f (close s cb ok) := by
  unfold close
  split
  · exact ⟨H.oth, H.dns, H.reqo⟩
  · split
    · exact ⟨H.oth, H.dns, H.reqo⟩
    · exact ⟨H.oth, H.dns, H.reqo⟩

theorem one_init (f : Fam) : OneFam f (init (.ip f)) :=
  one_begin (s := { s0 with timers := 1 }) ⟨rfl, fun _ => ⟨rfl, rfl⟩, rfl⟩

theorem one_step {f : Fam} {s s' : S} {e : Ev} (H : OneFam f s) (h : step (.ip f) s e = some s') : OneFam f s' := by
  have hn := other_ne f
  have hreq : ∀ g x, x ∈ s.req g → g = f := by
    intro g x h0
    by_cases e : g = f
    · exact e
    · rw [eq_other e, H.reqo] at h0; cases h0
  cases e with
  | resolved g => simp only [step, (H.dns g).1, if_true] at h; cases h
  | dnsError g => simp only [step, (H.dns g).1, if_true] at h; cases h
  | again g => simp only [step, (H.dns g).2, if_true] at h; cases h
  | connOk g x =>
    simp only [step] at h
    split at h
    · rename_i h0
      have hg := hreq g x h0
      subst hg
      rw [← Option.some.inj h]
      have h1 : upd s.sub g Sub.connected g.other = .none := (upd_ne _ _ hn).trans H.oth
      have h2 : upd s.req g ((s.req g).erase x) g.other = [] := (upd_ne _ _ hn).trans H.reqo
      unfold onConnectF
      split
      · exact ⟨h1, H.dns, h2⟩
      · unfold onConnect
        split
        · exact ⟨h1, H.dns, h2⟩
        · exact ⟨h1, H.dns, h2⟩
    · cases h
  | connErr g x =>
    simp only [step] at h
    split at h
    · rename_i h0
      have hg := hreq g x h0
      subst hg
      rw [← Option.some.inj h]
      exact ⟨H.oth, H.dns, (upd_ne _ _ hn).trans H.reqo⟩
    · cases h
  | timer ok =>
    simp only [step] at h
    split at h
    · cases h
    · rw [← Option.some.inj h]
      unfold onTimeout
      split
      · exact one_close (s := { s with timers := s.timers - 1, st := .closed }) ⟨H.oth, H.dns, H.reqo⟩ _ _
      · exact ⟨H.oth, H.dns, H.reqo⟩
  | shutdown x cb =>
    simp only [step] at h
    split at h
    · rw [← Option.some.inj h]; exact ⟨H.oth, H.dns, H.reqo⟩
    · cases h
  | callback cb =>
    simp only [step] at h
    split at h
    · rw [← Option.some.inj h]
      cases cb with
      | timeout => exact ⟨H.oth, H.dns, H.reqo⟩
      | user => exact ⟨H.oth, H.dns, H.reqo⟩
      | reconnect =>
        exact one_begin (s := { s with cbs := s.cbs.erase .reconnect, timers := s.timers + 1 }) ⟨H.oth, H.dns, H.reqo⟩
    · cases h
  | eof x =>
    simp only [step] at h
    split at h
    · rw [← Option.some.inj h]; exact ⟨H.oth, H.dns, H.reqo⟩
    · cases h
  | userClose ok => rw [← Option.some.inj h]; exact one_close H _ _
  | userReconnect ok => rw [← Option.some.inj h]; exact one_close H _ _

theorem one_run {f : Fam} (es : List Ev) : ∀ {s s' : S}, OneFam f s →
    run (.ip f) s es = some s' → OneFam f s' := by
  induction es with
  | nil => intro s s' H h; rw [← Option.some.inj h]; exact H
  | cons e es ih =>
    intro s s' H h
    simp only [run] at h
    cases hs : step (.ip f) s e with
    | none => rw [hs] at h; cases h
    | some t =>
      rw [hs] at h
      exact ih (one_step H hs) h

/-- C158, where it holds: with an address instead of a name, however often the program closes and
connects again, a connect request that succeeds while the actor is connecting is reported.
Missing: names, see the refutation. -/
theorem C158_partial {f g : Fam} {es : List Ev} {s s' : S} {h : Nat}
    (hr : run (.ip f) (init (.ip f)) es = some s) (hc : s.st = .connecting)
    (hs : step (.ip f) s (.connOk g h) = some s') : s'.out = s.out ++ [.connect] ∧ s'.st = .connected := by
  have H := one_run es (one_init f) hr
  simp only [step] at hs
  split at hs
  · rename_i h0
    have hg : g = f := by
      by_cases e : g = f
      · exact e
      · rw [eq_other e, H.reqo] at h0; cases h0
    subst hg
    rw [← Option.some.inj hs]
    unfold onConnectF
    rw [if_neg (by show ¬ s.sub g.other = .connected; rw [H.oth]; simp)]
    unfold onConnect
    rw [if_pos hc]
    exact ⟨rfl, rfl⟩
  · cases hs

theorem run_cons {a : Addr} {s s' : S} {e : Ev} {es : List Ev} (h : run a s (e :: es) = some s') :
    ∃ t, step a s e = some t ∧ run a t es = some s' := by
  simp only [run] at h
  cases hs : step a s e with
  | none => rw [hs] at h; cases h
  | some t => rw [hs] at h; exact ⟨t, rfl, h⟩

theorem step_reconnect {f : Fam} {s t : S} (h : step (.ip f) s (.callback .reconnect) = some t) :
    t = begin { s with cbs := s.cbs.erase .reconnect, timers := s.timers + 1 } f := by
  simp only [step] at h
  split at h
  · exact (Option.some.inj h).symm
  · cases h

/-- Connecting again from rest, with an address: the socket in use is the one whose request
succeeded, and it is a new one. -/
theorem C158_rest_partial {f : Fam} {es : List Ev} {s s' : S} {h : Nat} {ok : Bool}
    (hr : run (.ip f) (init (.ip f)) es = some s) (hq : Quiet s) (pre : List Ev)
    (hp : pre = [.userReconnect ok, .callback .reconnect] ∨
      ∃ x, pre = [.userReconnect ok, .shutdown x .reconnect, .callback .reconnect])
    (hs : run (.ip f) s (pre ++ [.connOk f h]) = some s') :
    s'.sock = some h ∧ s'.req f = [] ∧ h = s.next ∧ s'.out = s.out ++ [.connect] := by
  have H := one_run es (one_init f) hr
  have hn := other_ne f
  obtain ⟨q1, q2, q3, q4⟩ := hq
  have fin : ∀ t : S, OneFam f t → t.req f = [] → t.next = s.next → t.out = s.out →
      step (.ip f) (begin t f) (.connOk f h) = some s' →
      s'.sock = some h ∧ s'.req f = [] ∧ h = s.next ∧ s'.out = s.out ++ [.connect] := by
    intro t Ht ht hnx hot hst
    simp only [step] at hst
    split at hst
    · rename_i h0
      have hreq : (begin t f).req f = [t.next] := by
        show upd t.req f (t.req f ++ [t.next]) f = _
        rw [upd_same, ht]; rfl
      rw [hreq, List.mem_singleton] at h0
      rw [← Option.some.inj hst]
      unfold onConnectF
      have ho : ¬ (begin t f).sub f.other = .connected := by rw [(one_begin Ht).oth]; simp
      rw [if_neg ho]
      unfold onConnect
      rw [if_pos (show (begin t f).st = .connecting from rfl)]
      refine ⟨?_, ?_, h0.trans hnx, ?_⟩
      · show (begin t f).sockf f = some h
        show upd t.sockf f (some t.next) f = some h
        rw [upd_same, h0]
      · show upd (begin t f).req f (((begin t f).req f).erase h) f = []
        rw [upd_same, hreq, h0]; simp
      · show t.out ++ [Note.connect] = _
        rw [hot]
    · cases hst
  have hclose : (close s .reconnect ok).req f = [] ∧ (close s .reconnect ok).next = s.next ∧
      (close s .reconnect ok).out = s.out := by
    unfold close
    split
    · exact ⟨(q1 f).2.2, rfl, rfl⟩
    · split
      · exact ⟨(q1 f).2.2, rfl, rfl⟩
      · exact ⟨(q1 f).2.2, rfl, rfl⟩
  have Hc := one_close H .reconnect ok
  obtain ⟨c1, c2, c3⟩ := hclose
  rcases hp with e | ⟨x, e⟩
  · subst e
    obtain ⟨t, h1, hs⟩ := run_cons hs
    obtain ⟨u, h2, hs⟩ := run_cons hs
    obtain ⟨v, h3, hs⟩ := run_cons hs
    rw [← Option.some.inj hs]
    rw [← Option.some.inj hs] at fin
    have e1 : t = close s .reconnect ok := (Option.some.inj h1).symm
    rw [← e1] at Hc c1 c2 c3
    rw [step_reconnect h2] at h3
    exact fin { t with cbs := t.cbs.erase .reconnect, timers := t.timers + 1 } ⟨Hc.oth, Hc.dns, Hc.reqo⟩ c1 c2 c3 h3
  · subst e
    obtain ⟨t, h1, hs⟩ := run_cons hs
    obtain ⟨w, h4, hs⟩ := run_cons hs
    obtain ⟨u, h2, hs⟩ := run_cons hs
    obtain ⟨v, h3, hs⟩ := run_cons hs
    rw [← Option.some.inj hs]
    rw [← Option.some.inj hs] at fin
    have e1 : t = close s .reconnect ok := (Option.some.inj h1).symm
    rw [← e1] at Hc c1 c2 c3
    have hw : OneFam f w ∧ w.req f = [] ∧ w.next = s.next ∧ w.out = s.out := by
      refine ⟨one_step Hc h4, ?_⟩
      simp only [step] at h4
      split at h4
      · rw [← Option.some.inj h4]; exact ⟨c1, c2, c3⟩
      · cases h4
    obtain ⟨Hw, w1, w2, w3⟩ := hw
    rw [step_reconnect h2] at h3
    exact fin { w with cbs := w.cbs.erase .reconnect, timers := w.timers + 1 } ⟨Hw.oth, Hw.dns, Hw.reqo⟩ w1 w2 w3 h3

/-- C158 is false for names: the state of the IPv4 socket is left from the first attempt. IPv6
connects first and is dropped for it, then IPv4 connects and is dropped for IPv6. All connect
requests succeed, the program is told a failure by the timer. -/
theorem C158_refuted_lost : ∃ es s, run .name (init .name)
      ([.resolved .v4, .connOk .v4 0, .dnsError .v6, .timer true, .userReconnect true, .shutdown 0 .reconnect,
        .callback .reconnect] ++ es) = some s ∧
    (∀ e ∈ es, ∀ g h, e ≠ .connErr g h) ∧ (∀ e ∈ es, ∀ g, e ≠ .dnsError g) ∧
    Quiet s ∧ s.out = [.connect, .error] ∧ s.sock = none :=
  ⟨[.resolved .v6, .connOk .v6 1, .resolved .v4, .connOk .v4 2, .timer true, .callback .timeout], _, rfl,
    by intro e he g h; simp at he; rcases he with rfl | rfl | rfl | rfl | rfl | rfl <;> simp,
    by intro e he g; simp at he; rcases he with rfl | rfl | rfl | rfl | rfl | rfl <;> simp,
    ⟨fun f => by cases f <;> exact ⟨rfl, rfl, rfl⟩, rfl, rfl, rfl⟩, rfl, rfl⟩

/-- C158 is false: the timer of the first attempt ends the second one at once. -/
theorem C158_refuted_timer : ∃ s, run (.ip .v4) (init (.ip .v4))
      [.connOk .v4 0, .userReconnect true, .shutdown 0 .reconnect, .callback .reconnect, .timer true,
        .callback .timeout] = some s ∧ s.st = .closed ∧ s.out = [.connect, .error] ∧ s.timers = 1 ∧ s.req .v4 = [1] :=
  ⟨_, rfl, rfl, rfl, rfl, rfl⟩

/-- C158 is false: a request of the first attempt that ends late is taken for the second one; there
is no socket of its family, and the pointer -1 is used. -/
theorem C158_refuted_crash : ∃ s, run .name (init .name)
      [.resolved .v4, .resolved .v6, .connOk .v6 1, .userReconnect true, .shutdown 1 .reconnect,
        .callback .reconnect, .resolved .v6, .connOk .v4 0] = some s ∧ s.crash = true :=
  ⟨_, rfl, rfl⟩

/-- C158 is false: a request of the first attempt that ends late makes the actor use the socket of
the second one, which is not connected yet; also for an address. -/
theorem C158_refuted_stale : ∃ s h, run (.ip .v4) (init (.ip .v4))
      [.userReconnect true, .callback .reconnect, .connOk .v4 0] = some s ∧
    s.st = .connected ∧ s.sock = some h ∧ h ∈ s.req .v4 ∧ s.out = [.connect] :=
  ⟨_, 1, rfl, rfl, rfl, by decide, rfl⟩

/-- The hypotheses of the positive theorems: a connection is closed by the peer, and connected
again. -/
example : ∃ s s', run (.ip .v6) (init (.ip .v6)) [.connOk .v6 0, .timer true, .eof 0] = some s ∧ Quiet s ∧
    run (.ip .v6) s ([.userReconnect true, .callback .reconnect] ++ [.connOk .v6 1]) = some s' ∧
    s'.out = [.connect, .remoteClose, .connect] :=
  ⟨_, _, rfl, ⟨fun f => by cases f <;> exact ⟨rfl, rfl, rfl⟩, rfl, rfl, rfl⟩, rfl, rfl⟩

/-- Events without `reconnect`, in which `uv_shutdown` accepts all requests of the program. -/
def Ev.tame : Ev → Bool
  | .userClose ok => ok
  | .userReconnect _ => false
  | _ => true

/-- Before the connection. -/
def Before (f : Fam) (s : S) : Prop :=
  .connect ∉ s.out ∧ s.st ≠ .connected ∧ s.sock = none ∧ s.shut = [] ∧ s.reading = [] ∧
    s.sockf f = some 0 ∧ s.handles = [0] ∧ (s.req f).length ≤ 1

/-- After the connection. -/
def After (f : Fam) (s : S) : Prop :=
  s.st = .connected ∧ s.req f = [] ∧
    ((s.sock = some 0 ∧ s.handles = [0] ∧ s.shut = []) ∨ (s.sock = none ∧ s.handles = []) ∨
      (s.sock = none ∧ s.handles = [0] ∧ ∃ cb, s.shut = [(0, cb)]))

/-- The handles of one attempt to an address. -/
structure Own (f : Fam) (s : S) : Prop where
  one : OneFam f s
  cbs : .reconnect ∉ s.cbs
  shutc : ∀ x ∈ s.shut, x.2 ≠ .reconnect
  here : Before f s ∨ After f s

theorem own_init (f : Fam) : Own f (init (.ip f)) := by
  refine ⟨one_init f, fun h => (by cases h), fun x h => (by cases h), .inl ⟨fun h => (by cases h), fun h => (by cases h), rfl,
    rfl, rfl, ?_, rfl, ?_⟩⟩
  · simp [init, connect, begin, connectF, s0, upd]
  · simp [init, connect, begin, connectF, s0, upd]

theorem not_mem_snoc {l : List Cb} {c : Cb} (h : .reconnect ∉ l) (hc : c ≠ .reconnect) : .reconnect ∉ l ++ [c] := by
  intro h'
  rcases List.mem_append.1 h' with h1 | h1
  · exact h h1
  · exact hc (List.mem_singleton.1 h1).symm

theorem own_step {f : Fam} {s s' : S} {e : Ev} (he : e.tame = true) (H : Own f s)
    (h : step (.ip f) s e = some s') : Own f s' := by
  have Hone := one_step H.one h
  have hreq : ∀ g x, x ∈ s.req g → g = f := by
    intro g x h0
    by_cases e : g = f
    · exact e
    · rw [eq_other e, H.one.reqo] at h0; cases h0
  cases e with
  | resolved g => simp only [step, (H.one.dns g).1, if_true] at h; cases h
  | dnsError g => simp only [step, (H.one.dns g).1, if_true] at h; cases h
  | again g => simp only [step, (H.one.dns g).2, if_true] at h; cases h
  | connOk g x =>
    simp only [step] at h
    split at h
    · rename_i h0
      have hg := hreq g x h0
      subst hg
      have hs := Option.some.inj h
      subst hs
      rcases H.here with ⟨b1, b2, b3, b4, b5, b6, b7, b8⟩ | ⟨_, a2, _⟩
      · have hr : upd s.req g ((s.req g).erase x) g = [] := by
          rw [upd_same]
          apply List.length_eq_zero_iff.1
          rw [List.length_erase_of_mem h0]; omega
        have ho : ¬ s.sub g.other = .connected := by rw [H.one.oth]; simp
        unfold onConnectF at Hone ⊢
        rw [if_neg ho] at Hone ⊢
        unfold onConnect at Hone ⊢
        by_cases h2 : s.st = .connecting
        · rw [if_pos h2] at Hone ⊢
          exact ⟨Hone, H.cbs, H.shutc, .inr ⟨rfl, hr, .inl ⟨b6, b7, b4⟩⟩⟩
        · rw [if_neg h2] at Hone ⊢
          refine ⟨Hone, H.cbs, H.shutc, .inl ⟨b1, b2, b3, b4, b5, b6, b7, ?_⟩⟩
          show (upd s.req g ((s.req g).erase x) g).length ≤ 1
          rw [hr]; exact Nat.zero_le _
      · rw [a2] at h0; cases h0
    · cases h
  | connErr g x =>
    simp only [step] at h
    split at h
    · rename_i h0
      have hg := hreq g x h0
      subst hg
      have hs := Option.some.inj h
      subst hs
      rcases H.here with ⟨b1, b2, b3, b4, b5, b6, b7, b8⟩ | ⟨_, a2, _⟩
      · refine ⟨Hone, H.cbs, H.shutc, .inl ⟨?_, b2, b3, b4, b5, b6, b7, ?_⟩⟩
        · unfold onTcpError
          rw [if_pos (.inl H.one.oth)]
          intro hc
          rcases List.mem_append.1 hc with h | h
          · exact b1 h
          · simp at h
        · show (upd s.req g ((s.req g).erase x) g).length ≤ 1
          rw [upd_same, List.length_erase_of_mem h0]; omega
      · rw [a2] at h0; cases h0
    · cases h
  | timer ok =>
    simp only [step] at h
    split at h
    · cases h
    · have hs := Option.some.inj h
      subst hs
      unfold onTimeout at Hone ⊢
      rcases H.here with ⟨b1, b2, b3, b4, b5, b6, b7, b8⟩ | ⟨a1, a2, a3⟩
      · by_cases h2 : s.st = .connecting
        · rw [if_pos h2] at Hone ⊢
          unfold close at Hone ⊢
          simp only [b3] at Hone ⊢
          exact ⟨Hone, not_mem_snoc H.cbs (by simp), H.shutc, .inl ⟨b1, by simp, rfl, b4, b5, b6, b7, b8⟩⟩
        · rw [if_neg h2] at Hone ⊢
          exact ⟨Hone, H.cbs, H.shutc, .inl ⟨b1, b2, b3, b4, b5, b6, b7, b8⟩⟩
      · have h2 : ¬ s.st = .connecting := by rw [a1]; simp
        rw [if_neg h2] at Hone ⊢
        exact ⟨Hone, H.cbs, H.shutc, .inr ⟨a1, a2, a3⟩⟩
  | shutdown x cb =>
    simp only [step] at h
    split at h
    · rename_i h0
      have hs := Option.some.inj h
      subst hs
      have hcb := H.shutc _ h0
      rcases H.here with ⟨_, _, _, b4, _⟩ | ⟨a1, a2, ⟨_, _, a3⟩ | ⟨a3, a4⟩ | ⟨a3, a4, c, a5⟩⟩
      · rw [b4] at h0; cases h0
      · rw [a3] at h0; cases h0
      · refine ⟨Hone, not_mem_snoc H.cbs hcb, fun y hy => H.shutc y (List.mem_of_mem_erase hy),
          .inr ⟨a1, a2, .inr (.inl ⟨a3, ?_⟩)⟩⟩
        show s.handles.erase x = []
        rw [a4]; rfl
      · refine ⟨Hone, not_mem_snoc H.cbs hcb, fun y hy => H.shutc y (List.mem_of_mem_erase hy),
          .inr ⟨a1, a2, .inr (.inl ⟨a3, ?_⟩)⟩⟩
        rw [a5, List.mem_singleton] at h0
        show s.handles.erase x = []
        rw [a4, (Prod.mk.inj h0).1]; rfl
    · cases h
  | callback cb =>
    simp only [step] at h
    split at h
    · rename_i h0
      have hs := Option.some.inj h
      subst hs
      have hcbs : Cb.reconnect ∉ s.cbs.erase cb := fun h => H.cbs (List.mem_of_mem_erase h)
      cases cb with
      | reconnect => exact absurd h0 H.cbs
      | timeout =>
        refine ⟨Hone, hcbs, H.shutc, ?_⟩
        rcases H.here with ⟨b1, b2⟩ | a
        · refine .inl ⟨?_, b2⟩
          intro hc
          rcases List.mem_append.1 hc with h | h
          · exact b1 h
          · simp at h
        · exact .inr a
      | user =>
        refine ⟨Hone, hcbs, H.shutc, ?_⟩
        rcases H.here with ⟨b1, b2⟩ | a
        · refine .inl ⟨?_, b2⟩
          intro hc
          rcases List.mem_append.1 hc with h | h
          · exact b1 h
          · simp at h
        · exact .inr a
    · cases h
  | eof x =>
    simp only [step] at h
    split at h
    · rename_i h0
      have hs := Option.some.inj h
      subst hs
      rcases H.here with ⟨_, _, _, _, b5, _⟩ | ⟨a1, a2, a3⟩
      · rw [b5] at h0; cases h0.1
      · refine ⟨Hone, H.cbs, H.shutc, .inr ⟨a1, a2, .inr (.inl ⟨rfl, ?_⟩)⟩⟩
        show s.handles.erase x = []
        rcases a3 with ⟨_, a3, _⟩ | ⟨_, a3⟩ | ⟨_, a3, _⟩
        · rw [a3, List.mem_singleton] at h0; rw [a3, h0.2]; rfl
        · rw [a3]; rfl
        · rw [a3, List.mem_singleton] at h0; rw [a3, h0.2]; rfl
    · cases h
  | userClose ok =>
    have hok : ok = true := he
    subst hok
    have hs := Option.some.inj h
    subst hs
    unfold close at Hone ⊢
    rcases H.here with ⟨b1, b2, b3, b4, b5, b6, b7, b8⟩ | ⟨a1, a2, ⟨a3, a4, a5⟩ | ⟨a3, a4⟩ | ⟨a3, a4, a5⟩⟩
    · simp only [b3] at Hone ⊢
      exact ⟨Hone, not_mem_snoc H.cbs (by simp), H.shutc, .inl ⟨b1, b2, rfl, b4, b5, b6, b7, b8⟩⟩
    · simp only [a3] at Hone ⊢
      refine ⟨Hone, H.cbs, ?_, .inr ⟨a1, a2, .inr (.inr ⟨rfl, a4, .user, ?_⟩)⟩⟩
      · intro y hy
        have hy' : y ∈ s.shut ++ [(0, Cb.user)] := hy
        rw [a5, List.nil_append, List.mem_singleton] at hy'
        rw [hy']; simp
      · show s.shut ++ [(0, Cb.user)] = _
        rw [a5]; rfl
    · simp only [a3] at Hone ⊢
      exact ⟨Hone, not_mem_snoc H.cbs (by simp), H.shutc, .inr ⟨a1, a2, .inr (.inl ⟨rfl, a4⟩)⟩⟩
    · simp only [a3] at Hone ⊢
      exact ⟨Hone, not_mem_snoc H.cbs (by simp), H.shutc, .inr ⟨a1, a2, .inr (.inr ⟨rfl, a4, a5⟩)⟩⟩
  | userReconnect ok => cases he

theorem own_run {f : Fam} (es : List Ev) : ∀ {s s' : S}, (∀ e ∈ es, e.tame = true) → Own f s →
    run (.ip f) s es = some s' → Own f s' := by
  induction es with
  | nil => intro s s' _ H h; rw [← Option.some.inj h]; exact H
  | cons e es ih =>
    intro s s' he H h
    obtain ⟨t, h1, h2⟩ := run_cons h
    exact ih (fun x hx => he x (List.mem_cons_of_mem _ hx)) (own_step (he e (by simp)) H h1) h2

/-- C159, where it holds: one attempt to an address, all shutdowns accepted. Once connected, when
the actor has given up the socket and no shutdown is outstanding, no handle is open.
Missing: attempts that end without a connection, names, reconnecting, see the refutations. -/
theorem C159_partial {f : Fam} {es : List Ev} {s : S} (he : ∀ e ∈ es, e.tame = true)
    (h : run (.ip f) (init (.ip f)) es = some s) (hc : .connect ∈ s.out) (hs : s.sock = none)
    (hq : s.shut = []) : s.handles = [] := by
  rcases (own_run es he (own_init f) h).here with ⟨b1, _⟩ | ⟨_, _, ⟨a, _⟩ | ⟨_, a⟩ | ⟨_, _, c, a⟩⟩
  · exact absurd hc b1
  · rw [hs] at a; cases a
  · exact a
  · rw [hq] at a; cases a

/-- The hypotheses: a connection that the program closes. -/
example : ∃ s, run (.ip .v4) (init (.ip .v4)) [.connOk .v4 0, .userClose true, .shutdown 0 .user, .callback .user] = some s ∧
    s.out = [.connect, .closed] ∧ s.sock = none ∧ s.shut = [] ∧ s.handles = [] ∧ s.crash = false :=
  ⟨_, rfl, rfl, rfl, rfl, rfl, rfl⟩

/-- C159 is false for names: the socket that lost the race stays open when the connection is closed. -/
theorem C159_refuted_race : ∃ es s, (∀ e ∈ es, Ev.tame e = true) ∧ run .name (init .name) es = some s ∧
    s.out = [.connect, .closed] ∧ Quiet s ∧ s.sock = none ∧ s.handles = [0] :=
  ⟨[.resolved .v4, .resolved .v6, .connOk .v6 1, .connOk .v4 0, .timer true, .userClose true, .shutdown 1 .user,
    .callback .user], _, by decide, rfl, rfl, ⟨fun f => by cases f <;> exact ⟨rfl, rfl, rfl⟩, rfl, rfl, rfl⟩, rfl, rfl⟩

/-- C159 is false for an attempt that the timer ends: its request goes on, and the connection that
it makes stays open; the program is told a failure. -/
theorem C159_refuted_timeout : ∃ es s, (∀ e ∈ es, Ev.tame e = true) ∧
    run (.ip .v4) (init (.ip .v4)) es = some s ∧
    s.out = [.error] ∧ Quiet s ∧ s.sock = none ∧ s.sub .v4 = .connected ∧ s.handles = [0] :=
  ⟨[.timer true, .callback .timeout, .connOk .v4 0], _, by decide, rfl, rfl,
    ⟨fun f => by cases f <;> exact ⟨rfl, rfl, rfl⟩, rfl, rfl, rfl⟩, rfl, rfl, rfl⟩

/-- C159 is false: the peer closes while the shutdown of `close` is outstanding; the handle is
closed twice. -/
theorem C159_refuted_double : ∃ es s, (∀ e ∈ es, Ev.tame e = true) ∧
    run (.ip .v4) (init (.ip .v4)) es = some s ∧ s.crash = true :=
  ⟨[.connOk .v4 0, .userClose true, .eof 0, .shutdown 0 .user], _, by decide, rfl, rfl⟩

end Verif.Net.Tcp
