import Verif.Net.TcpOnce
/-!
# C157 to C159: one notice per attempt, reconnecting, handles
-/
namespace Verif.Net.Tcp

/-- The notices about the attempt. -/
def notices (s : S) : Nat := s.out.count .connect + s.out.count .error

/-- The states of one attempt to an address of the family `f`. -/
def Shape (f : Fam) (s : S) : Prop :=
  (s.st = .connecting ∧ s.sub f = .connecting ∧ s.err f = false ∧ (∃ h, s.req f = [h]) ∧ s.timers = 1 ∧
    s.cbs = [] ∧ s.out.count .connect = 0 ∧ s.out.count .error = 0 ∧ s.sock = none) ∨
  (s.st = .connecting ∧ s.sub f = .connecting ∧ s.err f = true ∧ s.req f = [] ∧ s.timers = 1 ∧
    s.cbs = [] ∧ s.out.count .connect = 0 ∧ s.out.count .error = 1 ∧ s.sock = none) ∨
  (s.st = .connected ∧ s.req f = [] ∧ s.timers ≤ 1 ∧
    s.cbs = [] ∧ s.out.count .connect = 1 ∧ s.out.count .error = 0) ∨
  (s.st = .closed ∧ s.timers = 0 ∧ s.out.count .connect = 0 ∧ FamOk (s.sub f) (s.err f) (s.req f) 0 ∧
    s.out.count .error + s.cbs.length ≤ 1 + (if s.err f then 1 else 0))

/-- The invariant of one attempt to an address of the family `f`. -/
structure Lit (f : Fam) (s : S) : Prop where
  oth : s.sub f.other = .none
  dns : ∀ g, s.dns g = 0 ∧ s.retry g = 0
  reqo : s.req f.other = []
  shut : s.shut = []
  cbs : ∀ c ∈ s.cbs, c = .timeout
  shape : Shape f s

theorem lit_init (f : Fam) : Lit f (init (.ip f)) := by
  have hn := other_ne f
  refine ⟨?_, fun g => ⟨rfl, rfl⟩, ?_, rfl, ?_, .inl ⟨rfl, ?_, rfl, ⟨0, ?_⟩, rfl, rfl, rfl, rfl, rfl⟩⟩
  · simp [init, connect, begin, connectF, s0, upd, hn]
  · simp [init, connect, begin, connectF, s0, upd, hn]
  · intro c h; cases h
  · simp [init, connect, begin, connectF, s0, upd]
  · simp [init, connect, begin, connectF, s0, upd]

theorem count_snoc_ne {l : List Note} {x y : Note} (h : y ≠ x) : (l ++ [y]).count x = l.count x := by
  rw [List.count_append, List.count_singleton]
  simp [h]

theorem count_snoc_eq (l : List Note) (x : Note) : (l ++ [x]).count x = l.count x + 1 := by
  rw [List.count_append, List.count_singleton]
  simp

theorem lit_connOk {f : Fam} {s : S} (H : Lit f s) {x : Nat} (h0 : x ∈ s.req f) :
    Lit f (onConnectF { s with req := upd s.req f ((s.req f).erase x) } f) := by
  have hn := other_ne f
  have ho : ¬ s.sub f.other = .connected := by rw [H.oth]; simp
  unfold onConnectF
  rw [if_neg ho]
  unfold onConnect
  rcases H.shape with ⟨a1, a2, a3, ⟨y, a4⟩, a5, a6, a7, a8, a9⟩ | ⟨_, _, _, a4, _⟩ | ⟨_, a4, _⟩ | ⟨a1, a2, a3, a4, a5⟩
  · rw [a4, List.mem_singleton] at h0
    subst h0
    rw [if_pos a1]
    refine ⟨?_, H.dns, ?_, H.shut, H.cbs, .inr (.inr (.inl ⟨rfl, ?_, ?_, a6, ?_, ?_⟩))⟩
    · exact (upd_ne _ _ hn).trans H.oth
    · exact (upd_ne _ _ hn).trans H.reqo
    · show upd s.req f ((s.req f).erase x) f = []
      rw [upd_same, a4]; simp
    · show s.timers ≤ 1; omega
    · show (s.out ++ [Note.connect]).count .connect = 1
      rw [count_snoc_eq, a7]
    · show (s.out ++ [Note.connect]).count .error = 0
      rw [count_snoc_ne (by decide), a8]
  · rw [a4] at h0; cases h0
  · rw [a4] at h0; cases h0
  · obtain ⟨b1, b2, b3, _⟩ := famOk_req a4 h0
    rw [if_neg (by show ¬ s.st = .connecting; rw [a1]; simp)]
    refine ⟨?_, H.dns, ?_, H.shut, H.cbs, .inr (.inr (.inr ⟨a1, a2, a3, ?_, ?_⟩))⟩
    · exact (upd_ne _ _ hn).trans H.oth
    · exact (upd_ne _ _ hn).trans H.reqo
    · show FamOk (upd s.sub f .connected f) (upd s.err f false f) (upd s.req f ((s.req f).erase x) f) 0
      rw [upd_same, upd_same, upd_same, b3, List.erase_cons_head]
      exact ⟨rfl, rfl, rfl⟩
    · show s.out.count .error + s.cbs.length ≤ 1 + (if upd s.err f false f then 1 else 0)
      rw [upd_same]; rw [b2] at a5; exact a5

theorem lit_connErr {f : Fam} {s : S} (H : Lit f s) {x : Nat} (h0 : x ∈ s.req f) :
    Lit f (onTcpError { s with req := upd s.req f ((s.req f).erase x) } f) := by
  have hn := other_ne f
  unfold onTcpError
  rw [if_pos (.inl H.oth)]
  refine ⟨H.oth, H.dns, ?_, H.shut, H.cbs, ?_⟩
  · exact (upd_ne _ _ hn).trans H.reqo
  have hc : (s.out ++ [Note.error]).count .connect = s.out.count .connect := count_snoc_ne (by decide)
  have he : (s.out ++ [Note.error]).count .error = s.out.count .error + 1 := count_snoc_eq _ _
  rcases H.shape with ⟨a1, a2, a3, ⟨y, a4⟩, a5, a6, a7, a8, a9⟩ | ⟨_, _, _, a4, _⟩ | ⟨_, a4, _⟩ | ⟨a1, a2, a3, a4, a5⟩
  · rw [a4, List.mem_singleton] at h0
    subst h0
    refine .inr (.inl ⟨a1, a2, upd_same _ _ _, ?_, a5, a6, ?_, ?_, a9⟩)
    · show upd s.req f ((s.req f).erase x) f = []
      rw [upd_same, a4]; simp
    · exact hc.trans a7
    · exact he.trans (by rw [a8])
  · rw [a4] at h0; cases h0
  · rw [a4] at h0; cases h0
  · obtain ⟨b1, b2, b3, _⟩ := famOk_req a4 h0
    refine .inr (.inr (.inr ⟨a1, a2, hc.trans a3, ?_, ?_⟩))
    · show FamOk (s.sub f) (upd s.err f true f) (upd s.req f ((s.req f).erase x) f) 0
      rw [upd_same, upd_same, b3, List.erase_cons_head, b1]
      exact ⟨rfl, rfl⟩
    · show (s.out ++ [Note.error]).count .error + s.cbs.length ≤ 1 + (if upd s.err f true f then 1 else 0)
      rw [upd_same, he]
      rw [b2] at a5
      simp only [Bool.false_eq_true, if_false, if_true] at a5 ⊢
      omega

theorem lit_timer {f : Fam} {s : S} (H : Lit f s) (ok : Bool) (h0 : s.timers ≠ 0) :
    Lit f (onTimeout { s with timers := s.timers - 1 } ok) := by
  unfold onTimeout
  rcases H.shape with ⟨a1, a2, a3, ⟨y, a4⟩, a5, a6, a7, a8, a9⟩ | ⟨a1, a2, a3, a4, a5, a6, a7, a8, a9⟩ |
    ⟨a1, a2, a3, a4, a5, a6⟩ | ⟨a1, a2, a3, a4, a5⟩
  · rw [if_pos a1]
    unfold close
    simp only [a9]
    refine ⟨H.oth, H.dns, H.reqo, H.shut, cbs_snoc H.cbs, .inr (.inr (.inr ⟨rfl, ?_, a7, ?_, ?_⟩))⟩
    · show s.timers - 1 = 0; omega
    · show FamOk (s.sub f) (s.err f) (s.req f) 0
      rw [a2, a3, a4]; exact ⟨rfl, rfl⟩
    · show s.out.count .error + (s.cbs ++ [Cb.timeout]).length ≤ _
      rw [a8, a6, a3]; decide
  · rw [if_pos a1]
    unfold close
    simp only [a9]
    refine ⟨H.oth, H.dns, H.reqo, H.shut, cbs_snoc H.cbs, .inr (.inr (.inr ⟨rfl, ?_, a7, ?_, ?_⟩))⟩
    · show s.timers - 1 = 0; omega
    · show FamOk (s.sub f) (s.err f) (s.req f) 0
      rw [a2, a3, a4]; exact ⟨rfl, rfl⟩
    · show s.out.count .error + (s.cbs ++ [Cb.timeout]).length ≤ _
      rw [a8, a6, a3]; decide
  · rw [if_neg (by show ¬ s.st = .connecting; rw [a1]; simp)]
    exact ⟨H.oth, H.dns, H.reqo, H.shut, H.cbs, .inr (.inr (.inl ⟨a1, a2, by show s.timers - 1 ≤ 1; omega, a4, a5, a6⟩))⟩
  · exact absurd a2 h0

theorem lit_step {f : Fam} {s s' : S} {e : Ev} (he : e.env = true) (H : Lit f s)
    (h : step (.ip f) s e = some s') : Lit f s' := by
  have hreq : ∀ g x, x ∈ s.req g → g = f := by
    intro g x h0
    by_cases e : g = f
    · exact e
    · rw [eq_other e, H.reqo] at h0; cases h0
  cases e with
  | resolved g => simp only [step, (H.dns g).1, if_true] at h; cases h
  | dnsError g => simp only [step, (H.dns g).1, if_true] at h; cases h
  | again g => simp only [step, (H.dns g).2, if_true] at h; cases h
  | connOk g x =>
    simp only [step] at h
    split at h
    · rename_i h0
      have hg := hreq g x h0
      subst hg
      rw [← Option.some.inj h]; exact lit_connOk H h0
    · cases h
  | connErr g x =>
    simp only [step] at h
    split at h
    · rename_i h0
      have hg := hreq g x h0
      subst hg
      rw [← Option.some.inj h]; exact lit_connErr H h0
    · cases h
  | timer ok =>
    simp only [step] at h
    split at h
    · cases h
    · rename_i h0; rw [← Option.some.inj h]; exact lit_timer H ok h0
  | shutdown x cb =>
    simp only [step, H.shut] at h
    split at h
    · rename_i h0; cases h0
    · cases h
  | callback cb =>
    simp only [step] at h
    split at h
    · rename_i h0
      have hcb := H.cbs cb h0
      subst hcb
      rw [← Option.some.inj h]
      refine ⟨H.oth, H.dns, H.reqo, H.shut, fun c hc => H.cbs c (List.mem_of_mem_erase hc), ?_⟩
      rcases H.shape with ⟨_, _, _, _, _, a6, _⟩ | ⟨_, _, _, _, _, a6, _⟩ | ⟨_, _, _, a4, _⟩ | ⟨a1, a2, a3, a4, a5⟩
      · rw [a6] at h0; cases h0
      · rw [a6] at h0; cases h0
      · rw [a4] at h0; cases h0
      · refine .inr (.inr (.inr ⟨a1, a2, ?_, a4, ?_⟩))
        · exact (count_snoc_ne (by decide)).trans a3
        · show (s.out ++ [Note.error]).count .error + (s.cbs.erase .timeout).length ≤ _
          rw [count_snoc_eq, List.length_erase_of_mem h0]
          have : 0 < s.cbs.length := List.length_pos_of_mem h0
          show s.out.count .error + 1 + (s.cbs.length - 1) ≤ 1 + (if s.err f then 1 else 0)
          omega
    · cases h
  | eof x =>
    simp only [step] at h
    split at h
    · rw [← Option.some.inj h]
      have hc : (s.out ++ [Note.remoteClose]).count .connect = s.out.count .connect := count_snoc_ne (by decide)
      have he : (s.out ++ [Note.remoteClose]).count .error = s.out.count .error := count_snoc_ne (by decide)
      refine ⟨H.oth, H.dns, H.reqo, H.shut, H.cbs, ?_⟩
      rcases H.shape with ⟨a1, a2, a3, a4, a5, a6, a7, a8, a9⟩ | ⟨a1, a2, a3, a4, a5, a6, a7, a8, a9⟩ |
        ⟨a1, a2, a3, a4, a5, a6⟩ | ⟨a1, a2, a3, a4, a5⟩
      · exact .inl ⟨a1, a2, a3, a4, a5, a6, hc.trans a7, he.trans a8, rfl⟩
      · exact .inr (.inl ⟨a1, a2, a3, a4, a5, a6, hc.trans a7, he.trans a8, rfl⟩)
      · exact .inr (.inr (.inl ⟨a1, a2, a3, a4, hc.trans a5, he.trans a6⟩))
      · refine .inr (.inr (.inr ⟨a1, a2, hc.trans a3, a4, ?_⟩))
        show (s.out ++ [Note.remoteClose]).count .error + s.cbs.length ≤ _
        rw [he]; exact a5
    · cases h
  | userClose ok => cases he
  | userReconnect ok => cases he

theorem lit_run {f : Fam} (es : List Ev) : ∀ {s s' : S}, (∀ e ∈ es, e.env = true) → Lit f s →
    run (.ip f) s es = some s' → Lit f s' := by
  induction es with
  | nil => intro s s' _ H h; rw [← Option.some.inj h]; exact H
  | cons e es ih =>
    intro s s' he H h
    simp only [run] at h
    cases hs : step (.ip f) s e with
    | none => rw [hs] at h; cases h
    | some t =>
      rw [hs] at h
      exact ih (fun x hx => he x (List.mem_cons_of_mem _ hx)) (lit_step (he e (by simp)) H hs) h

/-- C157, where it holds: with an address instead of a name, the program is never told both success
and failure, and it is told once while the timer of the attempt has not fired.
Missing: the second report of a failure after the timer, and names, see the refutations. -/
theorem C157_partial {f : Fam} {es : List Ev} {s : S} (he : ∀ e ∈ es, e.env = true)
    (h : run (.ip f) (init (.ip f)) es = some s) :
    ¬ (.connect ∈ s.out ∧ .error ∈ s.out) ∧ notices s ≤ 2 ∧ (s.timers = 1 → notices s ≤ 1) := by
  have H := lit_run es he (lit_init f) h
  have key : ∀ {x : Note}, x ∈ s.out → 0 < s.out.count x := fun h => List.count_pos_iff.2 h
  unfold notices
  rcases H.shape with ⟨_, _, _, _, _, _, a7, a8, _⟩ | ⟨_, _, _, _, _, _, a7, a8, _⟩ | ⟨_, _, _, _, a5, a6⟩ |
    ⟨_, a2, a3, _, a5⟩
  · exact ⟨fun ⟨h1, _⟩ => by have := key h1; omega, by omega, fun _ => by omega⟩
  · exact ⟨fun ⟨h1, _⟩ => by have := key h1; omega, by omega, fun _ => by omega⟩
  · exact ⟨fun ⟨_, h1⟩ => by have := key h1; omega, by omega, fun _ => by omega⟩
  · refine ⟨fun ⟨h1, _⟩ => by have := key h1; omega, ?_, fun _ => by omega⟩
    have : (if s.err f then 1 else 0) ≤ 1 := by split <;> omega
    omega

/-- C157 is false: a refused connection is reported, and again when the timer fires, also for an
address. -/
theorem C157_refuted_twice : ∃ es s, (∀ e ∈ es, Ev.env e = true) ∧
    run (.ip .v4) (init (.ip .v4)) es = some s ∧ s.out = [.error, .error] :=
  ⟨[.connErr .v4 0, .timer true, .callback .timeout], _, by decide, rfl, rfl⟩

/-- C157 is false: the IPv4 connection is made, then the lookup of the IPv6 address ends; the state
is connecting again, and the timer closes the connection that works. -/
theorem C157_refuted_late : ∃ es s, (∀ e ∈ es, Ev.env e = true) ∧
    run .name (init .name) es = some s ∧ s.out = [.connect, .error] ∧ s.sock = none ∧ Quiet s :=
  ⟨[.resolved .v4, .connOk .v4 0, .resolved .v6, .connOk .v6 1, .timer true, .shutdown 0 .timeout,
    .callback .timeout], _, by decide, rfl, rfl, rfl,
    ⟨fun f => by cases f <;> exact ⟨rfl, rfl, rfl⟩, rfl, rfl, rfl⟩⟩

/-- C157 is false: the IPv4 connection fails before the lookup of the IPv6 address ends; failure
is reported, then success. -/
theorem C157_refuted_early : ∃ es s, (∀ e ∈ es, Ev.env e = true) ∧
    run .name (init .name) es = some s ∧ s.out = [.error, .connect] :=
  ⟨[.resolved .v4, .connErr .v4 0, .resolved .v6, .connOk .v6 1], _, by decide, rfl, rfl⟩

/-- The lookups fail `n` times after the timer fired. -/
def failing : Nat → List Ev
  | 0 => []
  | n + 1 => .dnsError .v6 :: .dnsError .v4 :: .again .v6 :: .again .v4 :: failing n

/-- A name that resolves to nothing: the state after the timer. -/
def waiting : S := { init .name with timers := 0 }

theorem upd_round (g : Fam → Nat) (x y : Nat) (h4 : y = g .v4) (h6 : x = g .v6) (a b : Nat) :
    upd (upd (upd (upd g .v6 a) .v4 b) .v6 x) .v4 y = g := by
  funext f
  cases f <;> simp [upd, h4, h6]

theorem failing_run (n : Nat) : run .name waiting (failing n) = some waiting := by
  induction n with
  | zero => rfl
  | succ n ih =>
    have h : run .name waiting [.dnsError .v6, .dnsError .v4, .again .v6, .again .v4] = some waiting := by
      simp only [run, step, waiting, init, connect, s0]
      simp [upd]
      constructor
      · funext f; cases f <;> rfl
      · funext f; cases f <;> rfl
    have hrun : ∀ (es es' : List Ev) (s s' : S), run .name s es = some s' →
        run .name s (es ++ es') = run .name s' es' := by
      intro es es'
      induction es with
      | nil => intro s s' h; rw [← Option.some.inj h]; rfl
      | cons e es ih =>
        intro s s' h
        simp only [List.cons_append, run] at h ⊢
        cases hs : step .name s e with
        | none => rw [hs] at h; cases h
        | some t => rw [hs] at h; exact ih t s' h
    have := hrun [.dnsError .v6, .dnsError .v4, .again .v6, .again .v4] (failing n) waiting waiting h
    exact this.trans ih

/-- The timer does not help with a name that cannot be resolved: however often the lookups
fail after it fired, the program is told nothing. -/
theorem C157_refuted_lookup (n : Nat) : ∃ s, run .name (init .name) (.timer true :: failing n) = some s ∧
    s.timers = 0 ∧ s.out = [] ∧ (failing n).length = 4 * n :=
  ⟨waiting, failing_run n, rfl, rfl, by
    induction n with
    | zero => rfl
    | succ n ih => simp only [failing, List.length_cons, ih]; omega⟩

end Verif.Net.Tcp
