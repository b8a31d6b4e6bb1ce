import Verif.Net.Tcp
/-!
# C156: the program is told about the connection

Runs without calls of `close` and `reconnect` by the program: one attempt to connect.
-/
namespace Verif.Net.Tcp

/-- Nothing is outstanding. -/
def Quiet (s : S) : Prop :=
  (∀ f, s.dns f = 0 ∧ s.retry f = 0 ∧ s.req f = []) ∧ s.timers = 0 ∧ s.shut = [] ∧ s.cbs = []

/-- An event that the program does not cause. -/
def Ev.env : Ev → Bool
  | .userClose _ => false
  | .userReconnect _ => false
  | _ => true

/-- The program was told, or will be. -/
def Told (s : S) : Prop :=
  .connect ∈ s.out ∨ .error ∈ s.out ∨ .timeout ∈ s.cbs ∨ ∃ h, (h, Cb.timeout) ∈ s.shut

/-- One family: the state of its socket against its requests and lookups. -/
def FamOk : Sub → Bool → List Nat → Nat → Prop
  | .none, e, r, d => r = [] ∧ e = false ∧ d ≤ 1
  | .connecting, e, r, d => r.length + (if e then 1 else 0) = 1 ∧ d = 0
  | .connected, e, r, d => r = [] ∧ e = false ∧ d = 0

theorem upd_same {α} (g : Fam → α) (f : Fam) (x : α) : upd g f x f = x := if_pos rfl

theorem upd_ne {α} (g : Fam → α) {f f' : Fam} (x : α) (h : f' ≠ f) : upd g f x f' = g f' := if_neg h

theorem other_ne (f : Fam) : f.other ≠ f := by cases f <;> decide

theorem eq_other {f g : Fam} (h : g ≠ f) : g = f.other := by
  cases f <;> cases g <;> first | rfl | exact absurd rfl h

/-- The invariant of one attempt. -/
structure Inv (s : S) : Prop where
  fam : ∀ f, FamOk (s.sub f) (s.err f) (s.req f) (s.dns f + s.retry f)
  idle : ∀ f, s.sub f ≠ .none → s.st ≠ .resolving
  started : s.st ≠ .none
  connTold : s.st = .connected → Told s
  closedTold : s.st = .closed → Told s
  doneTold : ∀ f, s.sub f = .connected → Told s
  once : s.out.count .connect ≤ 1
  which : .connect ∈ s.out → ∃ f, s.sub f = .connected
  cbs : ∀ c ∈ s.cbs, c = .timeout
  shut : ∀ x ∈ s.shut, x.2 = .timeout
  pend : Told s ∨ (s.st = .resolving ∧ ∀ f, s.dns f + s.retry f = 1) ∨
    ∃ f, s.sub f = .connecting ∧ s.req f ≠ []

/-- While a connect request is outstanding, its family is connecting and has no error. -/
theorem famOk_req {b : Sub} {e : Bool} {r : List Nat} {d h : Nat} (H : FamOk b e r d) (hr : h ∈ r) :
    b = .connecting ∧ e = false ∧ r = [h] ∧ d = 0 := by
  cases b with
  | none => rw [H.1] at hr; cases hr
  | connected => rw [H.1] at hr; cases hr
  | connecting =>
    obtain ⟨h1, h2⟩ := H
    cases e with
    | true =>
      have : r.length = 0 := by simpa using h1
      rw [List.length_eq_zero_iff.1 this] at hr; cases hr
    | false =>
      have : r.length = 1 := by simpa using h1
      obtain ⟨x, hx⟩ := List.length_eq_one_iff.1 this
      rw [hx] at hr
      exact ⟨rfl, rfl, by rw [hx, List.mem_singleton.1 hr], h2⟩

theorem inv_init (a : Addr) : Inv (init a) := by
  cases a with
  | ip f =>
    refine ⟨?_, ?_, by simp [init, connect, begin, connectF], ?_, ?_, ?_, Nat.zero_le 1, ?_, ?_, ?_, ?_⟩
    · intro f'
      by_cases h : f' = f
      · subst h
        simp [init, connect, begin, connectF, s0, upd, FamOk]
      · simp [init, connect, begin, connectF, s0, upd, FamOk, h]
    · intro f' _ h; cases h
    · intro h; cases h
    · intro h; cases h
    · intro f' h
      by_cases hf : f' = f <;> simp [init, connect, begin, connectF, s0, upd, hf] at h
    · intro h; cases h
    · intro c h; cases h
    · intro c h; cases h
    · exact .inr (.inr ⟨f, by simp [init, connect, begin, connectF, s0, upd]⟩)
  | name =>
    refine ⟨?_, ?_, by simp [init, connect], ?_, ?_, ?_, by decide, ?_, ?_, ?_, ?_⟩
    · intro f'; exact ⟨rfl, rfl, Nat.le_refl 1⟩
    · intro f' h; exact absurd rfl h
    · intro h; cases h
    · intro h; cases h
    · intro f' h; cases h
    · intro h; cases h
    · intro c h; cases h
    · intro c h; cases h
    · exact .inr (.inl ⟨rfl, fun f => rfl⟩)

theorem inv_resolved {s : S} (H : Inv s) {f : Fam} (h0 : s.dns f ≠ 0) :
    Inv (begin { s with dns := upd s.dns f (s.dns f - 1) } f) := by
  have hf := H.fam f
  have hn : s.sub f = .none := by
    cases hb : s.sub f with
    | none => rfl
    | connecting => rw [hb] at hf; have := hf.2; omega
    | connected => rw [hb] at hf; have := hf.2.2; omega
  rw [hn] at hf
  obtain ⟨h1, h2, h3⟩ := hf
  refine ⟨?_, ?_, by simp [begin, connectF], ?_, ?_, ?_, H.once, ?_, H.cbs, H.shut, ?_⟩
  · intro f'
    by_cases h : f' = f
    · subst h
      simp only [begin, connectF, upd_same, h1, h2, FamOk]
      constructor
      · simp
      · omega
    · simp only [begin, connectF, upd_ne _ _ h]; exact H.fam f'
  · intro f' _ h; cases h
  · intro h; cases h
  · intro h; cases h
  · intro f' h
    by_cases hf' : f' = f
    · subst hf'; simp only [begin, connectF, upd_same] at h; cases h
    · simp only [begin, connectF, upd_ne _ _ hf'] at h; exact H.doneTold f' h
  · intro h
    obtain ⟨g, hg⟩ := H.which h
    have hgf : g ≠ f := by intro e; rw [e, hn] at hg; cases hg
    exact ⟨g, by simp only [begin, connectF, upd_ne _ _ hgf]; exact hg⟩
  · refine .inr (.inr ⟨f, by simp only [begin, connectF, upd_same], ?_⟩)
    simp only [begin, connectF, upd_same]
    simp

theorem inv_dnsError {s : S} (H : Inv s) {f : Fam} (h0 : s.dns f ≠ 0) :
    Inv { s with dns := upd s.dns f (s.dns f - 1),
                 retry := if s.st = .resolving then upd s.retry f (s.retry f + 1) else s.retry } := by
  refine ⟨?_, H.idle, H.started, H.connTold, H.closedTold, H.doneTold, H.once, H.which, H.cbs, H.shut, ?_⟩
  · intro f'
    have hf := H.fam f'
    by_cases h : f' = f
    · subst h
      have : upd s.dns f' (s.dns f' - 1) f' + (if s.st = .resolving then upd s.retry f' (s.retry f' + 1) else s.retry) f'
          ≤ s.dns f' + s.retry f' := by
        rw [upd_same]
        split
        · rw [upd_same]; omega
        · omega
      revert hf this
      show FamOk (s.sub f') (s.err f') (s.req f') _ → _ → FamOk (s.sub f') (s.err f') (s.req f') _
      intro hf this
      cases hb : s.sub f' with
      | none => rw [hb] at hf; exact ⟨hf.1, hf.2.1, Nat.le_trans this hf.2.2⟩
      | connecting => rw [hb] at hf; exact ⟨hf.1, by have := hf.2; omega⟩
      | connected => rw [hb] at hf; exact ⟨hf.1, hf.2.1, by have := hf.2.2; omega⟩
    · have h1 : upd s.dns f (s.dns f - 1) f' = s.dns f' := upd_ne _ _ h
      have h2 : (if s.st = .resolving then upd s.retry f (s.retry f + 1) else s.retry) f' = s.retry f' := by
        split
        · exact upd_ne _ _ h
        · rfl
      simp only [h1, h2]; exact hf
  · rcases H.pend with h | ⟨h, h'⟩ | h
    · exact .inl h
    · refine .inr (.inl ⟨h, ?_⟩)
      intro f'
      have := h' f'
      simp only [h, if_true]
      by_cases hf : f' = f
      · subst hf; rw [upd_same, upd_same]; omega
      · rw [upd_ne _ _ hf, upd_ne _ _ hf]; exact this
    · exact .inr (.inr h)

theorem inv_again {s : S} (H : Inv s) {f : Fam} (h0 : s.retry f ≠ 0) :
    Inv { s with retry := upd s.retry f (s.retry f - 1), dns := upd s.dns f (s.dns f + 1) } := by
  have he : ∀ f', upd s.dns f (s.dns f + 1) f' + upd s.retry f (s.retry f - 1) f' = s.dns f' + s.retry f' := by
    intro f'
    by_cases hf : f' = f
    · subst hf; rw [upd_same, upd_same]; omega
    · rw [upd_ne _ _ hf, upd_ne _ _ hf]
  refine ⟨?_, H.idle, H.started, H.connTold, H.closedTold, H.doneTold, H.once, H.which, H.cbs, H.shut, ?_⟩
  · intro f'; simp only [he]; exact H.fam f'
  · rcases H.pend with h | ⟨h, h'⟩ | h
    · exact .inl h
    · exact .inr (.inl ⟨h, fun f' => by simp only [he]; exact h' f'⟩)
    · exact .inr (.inr h)

theorem inv_connErr {s : S} (H : Inv s) {f : Fam} {h : Nat} (h0 : h ∈ s.req f) :
    Inv (onTcpError { s with req := upd s.req f ((s.req f).erase h) } f) := by
  obtain ⟨b1, b2, b3, b4⟩ := famOk_req (H.fam f) h0
  have hst : s.st ≠ .resolving := H.idle f (by rw [b1]; simp)
  have hT : Told s → Told (onTcpError { s with req := upd s.req f ((s.req f).erase h) } f) := by
    rintro (h | h | h | h)
    · refine .inl ?_
      simp only [onTcpError]; split
      · exact List.mem_append_left _ h
      · exact h
    · refine .inr (.inl ?_)
      simp only [onTcpError]; split
      · exact List.mem_append_left _ h
      · exact h
    · exact .inr (.inr (.inl h))
    · exact .inr (.inr (.inr h))
  refine ⟨?_, H.idle, H.started, fun h => hT (H.connTold h), fun h => hT (H.closedTold h),
    fun f' h => hT (H.doneTold f' h), ?_, ?_, H.cbs, H.shut, ?_⟩
  · intro f'
    by_cases hf : f' = f
    · subst hf
      simp only [onTcpError, upd_same, b1, b3, List.erase_cons_head, FamOk]
      exact ⟨by simp, b4⟩
    · simp only [onTcpError, upd_ne _ _ hf]; exact H.fam f'
  · simp only [onTcpError]; split
    · rw [List.count_append]; simpa using H.once
    · exact H.once
  · intro hc
    refine H.which ?_
    simp only [onTcpError] at hc
    split at hc
    · rcases List.mem_append.1 hc with h | h
      · exact h
      · simp at h
    · exact hc
  · by_cases h1 : s.sub f.other = .none ∨ s.err f.other = true
    · refine .inl (.inr (.inl ?_))
      simp only [onTcpError, if_pos h1]
      simp
    · have h2 : s.sub f.other ≠ .none := fun h => h1 (.inl h)
      have h3 : s.err f.other = false := by
        cases he : s.err f.other
        · rfl
        · exact absurd (.inr he) h1
      cases hb : s.sub f.other with
      | none => exact absurd hb h2
      | connected => exact .inl (hT (H.doneTold _ hb))
      | connecting =>
        refine .inr (.inr ⟨f.other, hb, ?_⟩)
        have := H.fam f.other
        rw [hb, h3] at this
        simp only [onTcpError, upd_ne _ _ (other_ne f)]
        intro he
        have := this.1
        rw [he] at this
        simp at this

theorem inv_connOk {s : S} (H : Inv s) {f : Fam} {h : Nat} (h0 : h ∈ s.req f) :
    Inv (onConnectF { s with req := upd s.req f ((s.req f).erase h) } f) := by
  obtain ⟨b1, b2, b3, b4⟩ := famOk_req (H.fam f) h0
  have hst : s.st ≠ .resolving := H.idle f (by rw [b1]; simp)
  have hfam : ∀ f', FamOk (upd s.sub f .connected f') (upd s.err f false f')
      (upd s.req f ((s.req f).erase h) f') (s.dns f' + s.retry f') := by
    intro f'
    by_cases hf : f' = f
    · subst hf
      rw [upd_same, upd_same, upd_same, b3, List.erase_cons_head]
      exact ⟨rfl, rfl, b4⟩
    · simp only [upd_ne _ _ hf]; exact H.fam f'
  have hmono : ∀ g, s.sub g = .connected → upd s.sub f .connected g = .connected := by
    intro g hg
    by_cases hf : g = f
    · subst hf; exact upd_same _ _ _
    · rw [upd_ne _ _ hf]; exact hg
  unfold onConnectF
  by_cases h1 : s.sub f.other = .connected
  · simp only [if_pos h1]
    have hT : Told s := H.doneTold _ h1
    refine ⟨hfam, fun f' _ => hst, H.started, fun _ => hT, fun _ => hT, fun _ _ => hT, H.once, ?_, H.cbs,
      H.shut, .inl hT⟩
    intro hc
    exact ⟨f, upd_same _ _ _⟩
  · simp only [if_neg h1]
    unfold onConnect
    by_cases h2 : s.st = .connecting
    · simp only [if_pos h2]
      have hno : .connect ∉ s.out := by
        intro hc
        obtain ⟨g, hg⟩ := H.which hc
        by_cases hf : g = f
        · subst hf; rw [b1] at hg; cases hg
        · rw [eq_other hf] at hg; exact h1 hg
      have hin : Note.connect ∈ s.out ++ [.connect] := by simp
      refine ⟨hfam, fun f' _ h => ?_, fun h => ?_, fun _ => .inl hin, fun _ => .inl hin,
        fun _ _ => .inl hin, ?_, fun _ => ⟨f, upd_same _ _ _⟩, H.cbs, H.shut, .inl (.inl hin)⟩
      · cases h
      · cases h
      · show (s.out ++ [Note.connect]).count .connect ≤ 1
        rw [List.count_append, List.count_eq_zero.2 hno]; decide
    · simp only [if_neg h2]
      have hT : Told s := by
        cases hs : s.st with
        | none => exact absurd hs H.started
        | resolving => exact absurd hs hst
        | connecting => exact absurd hs h2
        | connected => exact H.connTold hs
        | closed => exact H.closedTold hs
      exact ⟨hfam, fun f' _ => hst, H.started, fun _ => hT, fun _ => hT, fun _ _ => hT, H.once,
        fun _ => ⟨f, upd_same _ _ _⟩, H.cbs, H.shut, .inl hT⟩

/-- The attempt is given up. -/
theorem inv_closed {s s' : S} (H : Inv s) (e1 : s'.st = .closed) (e2 : s'.sub = s.sub) (e3 : s'.err = s.err)
    (e4 : s'.req = s.req) (e5 : s'.dns = s.dns) (e6 : s'.retry = s.retry) (e7 : s'.out = s.out)
    (hT : Told s') (hcb : ∀ c ∈ s'.cbs, c = .timeout) (hsh : ∀ x ∈ s'.shut, x.2 = .timeout) : Inv s' := by
  refine ⟨?_, ?_, ?_, fun _ => hT, fun _ => hT, fun _ _ => hT, ?_, ?_, hcb, hsh, .inl hT⟩
  · rw [e2, e3, e4, e5, e6]; exact H.fam
  · rw [e1]; intro _ _ h; cases h
  · rw [e1]; intro h; cases h
  · rw [e7]; exact H.once
  · rw [e7, e2]; exact H.which

theorem cbs_snoc {l : List Cb} (H : ∀ c ∈ l, c = Cb.timeout) : ∀ c ∈ l ++ [.timeout], c = Cb.timeout := by
  intro c hc
  rcases List.mem_append.1 hc with h | h
  · exact H c h
  · exact List.mem_singleton.1 h

theorem inv_timer {s : S} (H : Inv s) (ok : Bool) : Inv (onTimeout { s with timers := s.timers - 1 } ok) := by
  unfold onTimeout
  by_cases h : s.st = .connecting
  · rw [if_pos h]
    unfold close
    cases hs : s.sock with
    | none =>
      exact inv_closed H rfl rfl rfl rfl rfl rfl rfl (.inr (.inr (.inl (by simp)))) (cbs_snoc H.cbs) H.shut
    | some x =>
      cases ok with
      | true =>
        refine inv_closed H rfl rfl rfl rfl rfl rfl rfl (.inr (.inr (.inr ⟨x, by simp⟩))) H.cbs ?_
        intro c hc
        rcases List.mem_append.1 hc with h | h
        · exact H.shut c h
        · rw [List.mem_singleton.1 h]
      | false =>
        exact inv_closed H rfl rfl rfl rfl rfl rfl rfl (.inr (.inr (.inl (by simp)))) (cbs_snoc H.cbs) H.shut
  · rw [if_neg h]
    exact ⟨H.fam, H.idle, H.started, H.connTold, H.closedTold, H.doneTold, H.once, H.which, H.cbs, H.shut, H.pend⟩

/-- Only the notes and the ways to them changed. -/
theorem inv_notes {s s' : S} (H : Inv s) (e1 : s'.st = s.st) (e2 : s'.sub = s.sub) (e3 : s'.err = s.err)
    (e4 : s'.req = s.req) (e5 : s'.dns = s.dns) (e6 : s'.retry = s.retry)
    (hT : Told s → Told s') (hc : s'.out.count .connect = s.out.count .connect)
    (hcb : ∀ c ∈ s'.cbs, c = .timeout) (hsh : ∀ x ∈ s'.shut, x.2 = .timeout) : Inv s' := by
  refine ⟨?_, ?_, ?_, ?_, ?_, ?_, ?_, ?_, hcb, hsh, ?_⟩
  · rw [e2, e3, e4, e5, e6]; exact H.fam
  · rw [e1, e2]; exact H.idle
  · rw [e1]; exact H.started
  · rw [e1]; exact fun h => hT (H.connTold h)
  · rw [e1]; exact fun h => hT (H.closedTold h)
  · rw [e2]; exact fun f h => hT (H.doneTold f h)
  · rw [hc]; exact H.once
  · rw [e2]
    intro h
    apply H.which
    have := List.count_pos_iff.2 h
    rw [hc] at this
    exact List.count_pos_iff.1 this
  · rw [e1, e2, e4, e5, e6]
    rcases H.pend with h | h
    · exact .inl (hT h)
    · exact .inr h

theorem inv_shutdown {s : S} (H : Inv s) {h : Nat} {cb : Cb} (h0 : (h, cb) ∈ s.shut) :
    Inv (closeHandle { s with shut := s.shut.erase (h, cb), cbs := s.cbs ++ [cb] } h) := by
  have hcb : cb = .timeout := H.shut _ h0
  refine inv_notes H rfl rfl rfl rfl rfl rfl ?_ rfl ?_ ?_
  · rintro (h1 | h1 | h1 | ⟨x, h1⟩)
    · exact .inl h1
    · exact .inr (.inl h1)
    · exact .inr (.inr (.inl (List.mem_append_left _ h1)))
    · exact .inr (.inr (.inl (by simp [closeHandle, hcb])))
  · intro c hc
    rcases List.mem_append.1 hc with h | h
    · exact H.cbs c h
    · rw [List.mem_singleton.1 h]; exact hcb
  · intro x hx; exact H.shut x (List.mem_of_mem_erase hx)

theorem inv_callback {a : Addr} {s : S} (H : Inv s) {cb : Cb} (h0 : cb ∈ s.cbs) :
    Inv (onClosed a { s with cbs := s.cbs.erase cb } cb) := by
  have hcb : cb = .timeout := H.cbs _ h0
  subst hcb
  refine inv_notes H rfl rfl rfl rfl rfl rfl ?_ ?_ ?_ H.shut
  · intro _; exact .inr (.inl (by simp [onClosed]))
  · simp [onClosed, List.count_append]
  · intro c hc; exact H.cbs c (List.mem_of_mem_erase hc)

theorem inv_step {a : Addr} {s s' : S} {e : Ev} (he : e.env = true) (H : Inv s)
    (h : step a s e = some s') : Inv s' := by
  cases e with
  | resolved f =>
    simp only [step] at h
    split at h
    · cases h
    · rename_i h0; rw [← Option.some.inj h]; exact inv_resolved H h0
  | dnsError f =>
    simp only [step] at h
    split at h
    · cases h
    · rename_i h0; rw [← Option.some.inj h]; exact inv_dnsError H h0
  | again f =>
    simp only [step] at h
    split at h
    · cases h
    · rename_i h0; rw [← Option.some.inj h]; exact inv_again H h0
  | connOk f x =>
    simp only [step] at h
    split at h
    · rename_i h0; rw [← Option.some.inj h]; exact inv_connOk H h0
    · cases h
  | connErr f x =>
    simp only [step] at h
    split at h
    · rename_i h0; rw [← Option.some.inj h]; exact inv_connErr H h0
    · cases h
  | timer ok =>
    simp only [step] at h
    split at h
    · cases h
    · rw [← Option.some.inj h]; exact inv_timer H ok
  | shutdown x cb =>
    simp only [step] at h
    split at h
    · rename_i h0; rw [← Option.some.inj h]; exact inv_shutdown H h0
    · cases h
  | callback cb =>
    simp only [step] at h
    split at h
    · rename_i h0; rw [← Option.some.inj h]; exact inv_callback H h0
    · cases h
  | eof x =>
    simp only [step] at h
    split at h
    · rw [← Option.some.inj h]
      refine inv_notes H rfl rfl rfl rfl rfl rfl ?_ ?_ H.cbs H.shut
      · rintro (h1 | h1 | h1 | h1)
        · exact .inl (List.mem_append_left _ h1)
        · exact .inr (.inl (List.mem_append_left _ h1))
        · exact .inr (.inr (.inl h1))
        · exact .inr (.inr (.inr h1))
      · simp [List.count_append]
    · cases h
  | userClose ok => cases he
  | userReconnect ok => cases he

theorem inv_run {a : Addr} (es : List Ev) : ∀ {s s' : S}, (∀ e ∈ es, e.env = true) → Inv s →
    run a s es = some s' → Inv s' := by
  induction es with
  | nil => intro s s' _ H h; rw [← Option.some.inj h]; exact H
  | cons e es ih =>
    intro s s' he H h
    simp only [run] at h
    cases hs : step a s e with
    | none => rw [hs] at h; cases h
    | some t =>
      rw [hs] at h
      exact ih (fun x hx => he x (List.mem_cons_of_mem _ hx)) (inv_step (he e (by simp)) H hs) h

/-- C156: in one attempt, `on_connect` is called at most once. -/
theorem C156_once {a : Addr} {es : List Ev} {s : S} (he : ∀ e ∈ es, e.env = true)
    (h : run a (init a) es = some s) : s.out.count .connect ≤ 1 :=
  (inv_run es he (inv_init a) h).once

/-- C156: when nothing is outstanding any more, the program was told about success or failure. -/
theorem C156_told {a : Addr} {es : List Ev} {s : S} (he : ∀ e ∈ es, e.env = true)
    (h : run a (init a) es = some s) (hq : Quiet s) : .connect ∈ s.out ∨ .error ∈ s.out := by
  have H := inv_run es he (inv_init a) h
  obtain ⟨q1, _, q3, q4⟩ := hq
  rcases H.pend with (h | h | h | ⟨x, h⟩) | ⟨_, h⟩ | ⟨f, _, h⟩
  · exact .inl h
  · exact .inr h
  · rw [q4] at h; cases h
  · rw [q3] at h; cases h
  · have := h .v4
    have := q1 .v4
    omega
  · exact absurd (q1 f).2.2 h

/-- A run to rest over both families. -/
example : ∃ s, run .name (init .name) [.dnsError .v6, .resolved .v4, .again .v6, .resolved .v6, .connErr .v6 1,
    .connOk .v4 0, .timer true] = some s ∧ s.dns .v4 = 0 ∧ s.dns .v6 = 0 ∧ s.retry .v4 = 0 ∧ s.retry .v6 = 0 ∧
    s.req .v4 = [] ∧ s.req .v6 = [] ∧ s.timers = 0 ∧ s.shut = [] ∧ s.cbs = [] ∧ s.out = [.connect] :=
  ⟨_, rfl, rfl, rfl, rfl, rfl, rfl, rfl, rfl, rfl, rfl, rfl⟩

end Verif.Net.Tcp
