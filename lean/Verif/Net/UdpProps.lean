import Verif.Net.Udp
/-!
# C160: the program is told about the setup; C161: closed is closed
-/
namespace Verif.Net.Udp

open Verif.Net.Tcp (Fam Phase Addr upd)

/-- The states of the actor; `u`: the program called `close`. -/
inductive Shape (u : Bool) (s : S) : Prop
  | resolving (h1 : s.st = .resolving) (h2 : s.sock = none) (h3 : s.handles = []) (h4 : s.ready = 0)
      (h5 : s.failed = 0) (h6 : s.out = []) (h7 : s.dnsErrors ≤ 1)
      (h8 : s.dnsErrors + s.dns .v4 + s.dns .v6 = 2)
  | waiting (h : Nat) (h1 : s.st = .connecting) (h2 : s.sock = some h) (h3 : s.handles = [h]) (h4 : s.ready = 1)
      (h5 : s.failed = 0) (h6 : s.out = [])
  | failing (h1 : s.st = .connecting) (h2 : s.sock = none) (h3 : s.handles = []) (h4 : s.ready = 0)
      (h5 : s.failed = 1) (h6 : s.out = [])
  | connected (h : Nat) (h1 : s.st = .connected) (h2 : s.sock = some h) (h3 : s.handles = [h]) (h4 : s.ready = 0)
      (h5 : s.failed = 0) (h6 : s.out = [.connect])
  | done (h1 : s.st = .closed) (h2 : s.sock = none) (h3 : s.handles = []) (h4 : s.failed = 0) (h5 : s.out = [.connect])
  | closed (h1 : s.st = .closed) (h2 : s.sock = none) (h3 : s.handles = []) (h4 : .connect ∉ s.out)
      (h5 : s.out.length + s.failed ≤ 2) (h6 : s.timers = 1 → s.out.length + s.failed ≤ 1)
      (h7 : u = false → s.out ≠ [])

/-- The invariant. -/
structure Inv (u : Bool) (s : S) : Prop where
  tim : s.timers ≤ 1
  shape : Shape u s

theorem inv_init (a : Addr) (ok : Bool) : Inv false (init a ok) := by
  cases a with
  | name => exact ⟨Nat.le_refl 1, .resolving rfl rfl rfl rfl rfl rfl (Nat.zero_le _) rfl⟩
  | ip f =>
    cases ok with
    | true => exact ⟨Nat.le_refl 1, .waiting 0 rfl rfl rfl rfl rfl rfl⟩
    | false => exact ⟨Nat.le_refl 1, .failing rfl rfl rfl rfl rfl rfl⟩

theorem dns_dec (g : Fam → Nat) {f : Fam} (h : g f ≠ 0) :
    upd g f (g f - 1) .v4 + upd g f (g f - 1) .v6 + 1 = g .v4 + g .v6 := by
  cases f <;> simp [upd] <;> omega

theorem not_mem_error {l : List Note} (h : .connect ∉ l) : .connect ∉ l ++ [.error] := by
  intro h'
  rcases List.mem_append.1 h' with h1 | h1
  · exact h h1
  · simp at h1

/-- The lookups do not matter any more. -/
theorem inv_dns {u : Bool} {s : S} (H : Inv u s) (hr : s.st ≠ .resolving) (d : Fam → Nat) :
    Inv u { s with dns := d } := by
  obtain ⟨H1, H2⟩ := H
  refine ⟨H1, ?_⟩
  cases H2 with
  | resolving h1 => exact absurd h1 hr
  | waiting h h1 h2 h3 h4 h5 h6 => exact .waiting h h1 h2 h3 h4 h5 h6
  | failing h1 h2 h3 h4 h5 h6 => exact .failing h1 h2 h3 h4 h5 h6
  | connected h h1 h2 h3 h4 h5 h6 => exact .connected h h1 h2 h3 h4 h5 h6
  | done h1 h2 h3 h4 h5 => exact .done h1 h2 h3 h4 h5
  | closed h1 h2 h3 h4 h5 h6 h7 => exact .closed h1 h2 h3 h4 h5 h6 h7

theorem resolving_shape {u : Bool} {s : S} (H : Inv u s) (hr : s.st = .resolving) :
    s.sock = none ∧ s.handles = [] ∧ s.ready = 0 ∧ s.failed = 0 ∧ s.out = [] ∧ s.dnsErrors ≤ 1 ∧
      s.dnsErrors + s.dns .v4 + s.dns .v6 = 2 := by
  cases H.shape with
  | resolving h1 h2 h3 h4 h5 h6 h7 h8 => exact ⟨h2, h3, h4, h5, h6, h7, h8⟩
  | waiting h h1 => rw [hr] at h1; cases h1
  | failing h1 => rw [hr] at h1; cases h1
  | connected h h1 => rw [hr] at h1; cases h1
  | done h1 => rw [hr] at h1; cases h1
  | closed h1 => rw [hr] at h1; cases h1

theorem inv_dnsError {u : Bool} {s : S} (H : Inv u s) {f : Fam} (h0 : s.dns f ≠ 0) :
    Inv u (onDnsError { s with dns := upd s.dns f (s.dns f - 1) }) := by
  unfold onDnsError
  by_cases hr : s.st = .resolving
  · rw [if_neg (show ¬ s.st ≠ .resolving from fun h => h hr)]
    obtain ⟨h2, h3, h4, h5, h6, h7, h8⟩ := resolving_shape H hr
    have hd := dns_dec s.dns h0
    by_cases h9 : s.dnsErrors + 1 ≥ 2
    · rw [if_pos h9]
      refine ⟨H.tim, .closed rfl h2 h3 ?_ ?_ ?_ ?_⟩
      · show .connect ∉ s.out ++ [.error]
        rw [h6]; decide
      · show (s.out ++ [Note.error]).length + s.failed ≤ 2
        rw [h6, h5]; decide
      · intro _
        show (s.out ++ [Note.error]).length + s.failed ≤ 1
        rw [h6, h5]; decide
      · intro _; show s.out ++ [Note.error] ≠ []
        simp
    · rw [if_neg h9]
      refine ⟨H.tim, .resolving hr h2 h3 h4 h5 h6 ?_ ?_⟩
      · show s.dnsErrors + 1 ≤ 1; omega
      · show s.dnsErrors + 1 + upd s.dns f (s.dns f - 1) .v4 + upd s.dns f (s.dns f - 1) .v6 = 2
        omega
  · rw [if_pos (show s.st ≠ .resolving from hr)]
    exact inv_dns H hr _

theorem inv_resolved {u : Bool} {s : S} (H : Inv u s) {f : Fam} (b ok : Bool) (h0 : s.dns f ≠ 0) :
    Inv u (onResolve { s with dns := upd s.dns f (s.dns f - 1) } b ok) := by
  unfold onResolve
  by_cases hr : s.st = .resolving
  · rw [if_neg (show ¬ s.st ≠ .resolving from fun h => h hr)]
    cases b with
    | false => rw [if_pos rfl]; exact inv_dnsError H h0
    | true =>
      rw [if_neg (by simp)]
      obtain ⟨h2, h3, h4, h5, h6, h7, h8⟩ := resolving_shape H hr
      unfold start
      cases ok with
      | true =>
        refine ⟨H.tim, .waiting s.next rfl rfl ?_ ?_ h5 h6⟩
        · show s.handles ++ [s.next] = _
          rw [h3]; rfl
        · show s.ready + 1 = 1; omega
      | false =>
        refine ⟨H.tim, .failing rfl h2 h3 h4 ?_ h6⟩
        show s.failed + 1 = 1; omega
  · rw [if_pos (show s.st ≠ .resolving from hr)]
    exact inv_dns H hr _

theorem inv_ready {u : Bool} {s : S} (H : Inv u s) (h0 : s.ready ≠ 0) : Inv u (onReady { s with ready := s.ready - 1 }) := by
  unfold onReady
  cases H.shape with
  | resolving _ _ _ h4 => exact absurd h4 h0
  | waiting h h1 h2 h3 h4 h5 h6 =>
    rw [if_pos h1]
    refine ⟨H.tim, .connected h rfl h2 h3 ?_ h5 ?_⟩
    · show s.ready - 1 = 0; omega
    · show s.out ++ [Note.connect] = _
      rw [h6]; rfl
  | failing _ _ _ h4 => exact absurd h4 h0
  | connected _ _ _ _ h4 => exact absurd h4 h0
  | done h1 h2 h3 h4 h5 =>
    rw [if_neg (show ¬ s.st = .connecting by rw [h1]; simp)]
    exact ⟨H.tim, .done h1 h2 h3 h4 h5⟩
  | closed h1 h2 h3 h4 h5 h6 h7 =>
    rw [if_neg (show ¬ s.st = .connecting by rw [h1]; simp)]
    exact ⟨H.tim, .closed h1 h2 h3 h4 h5 h6 h7⟩

theorem inv_failed {u : Bool} {s : S} (H : Inv u s) (h0 : s.failed ≠ 0) :
    Inv u (onError { s with failed := s.failed - 1 }) := by
  have hl : (s.out ++ [Note.error]).length = s.out.length + 1 := by simp
  cases H.shape with
  | resolving _ _ _ _ h5 => exact absurd h5 h0
  | waiting _ _ _ _ _ h5 => exact absurd h5 h0
  | failing h1 h2 h3 h4 h5 h6 =>
    refine ⟨H.tim, .closed rfl h2 h3 ?_ ?_ ?_ ?_⟩
    · show .connect ∉ s.out ++ [.error]
      rw [h6]; decide
    · show (s.out ++ [Note.error]).length + (s.failed - 1) ≤ 2
      rw [h6, h5]; decide
    · intro _
      show (s.out ++ [Note.error]).length + (s.failed - 1) ≤ 1
      rw [h6, h5]; decide
    · intro _; show s.out ++ [Note.error] ≠ []
      simp
  | connected _ _ _ _ _ h5 => exact absurd h5 h0
  | done _ _ _ h4 => exact absurd h4 h0
  | closed h1 h2 h3 h4 h5 h6 h7 =>
    refine ⟨H.tim, .closed rfl h2 h3 (not_mem_error h4) ?_ ?_ ?_⟩
    · show (s.out ++ [Note.error]).length + (s.failed - 1) ≤ 2
      omega
    · intro ht
      have := h6 ht
      show (s.out ++ [Note.error]).length + (s.failed - 1) ≤ 1
      omega
    · intro _; show s.out ++ [Note.error] ≠ []
      simp

theorem inv_timer {u : Bool} {s : S} (H : Inv u s) (h0 : s.timers ≠ 0) :
    Inv u (onTimeout { s with timers := s.timers - 1 }) := by
  have ht := H.tim
  have ht' : s.timers - 1 ≤ 1 := by omega
  have hne : s.out ++ [Note.error] ≠ [] := by simp
  have h1' : s.timers - 1 ≠ 1 := by omega
  unfold onTimeout close
  cases H.shape with
  | resolving h1 h2 h3 h4 h5 h6 h7 h8 =>
    rw [if_pos (.inl h1)]
    simp only [h2]
    refine ⟨ht', .closed rfl rfl h3 ?_ ?_ (fun h => absurd h h1') (fun _ => hne)⟩
    · show .connect ∉ s.out ++ [.error]
      rw [h6]; decide
    · show (s.out ++ [Note.error]).length + s.failed ≤ 2
      rw [h6, h5]; decide
  | waiting h h1 h2 h3 h4 h5 h6 =>
    rw [if_pos (.inr h1)]
    simp only [h2]
    refine ⟨ht', .closed rfl rfl ?_ ?_ ?_ (fun h => absurd h h1') (fun _ => hne)⟩
    · show s.handles.erase h = []
      rw [h3]; simp
    · show .connect ∉ s.out ++ [.error]
      rw [h6]; decide
    · show (s.out ++ [Note.error]).length + s.failed ≤ 2
      rw [h6, h5]; decide
  | failing h1 h2 h3 h4 h5 h6 =>
    rw [if_pos (.inr h1)]
    simp only [h2]
    refine ⟨ht', .closed rfl rfl h3 ?_ ?_ (fun h => absurd h h1') (fun _ => hne)⟩
    · show .connect ∉ s.out ++ [.error]
      rw [h6]; decide
    · show (s.out ++ [Note.error]).length + s.failed ≤ 2
      rw [h6, h5]; decide
  | connected h h1 h2 h3 h4 h5 h6 =>
    rw [if_neg (show ¬ (s.st = .resolving ∨ s.st = .connecting) by rw [h1]; simp)]
    exact ⟨ht', .connected h h1 h2 h3 h4 h5 h6⟩
  | done h1 h2 h3 h4 h5 =>
    rw [if_neg (show ¬ (s.st = .resolving ∨ s.st = .connecting) by rw [h1]; simp)]
    exact ⟨ht', .done h1 h2 h3 h4 h5⟩
  | closed h1 h2 h3 h4 h5 h6 h7 =>
    rw [if_neg (show ¬ (s.st = .resolving ∨ s.st = .connecting) by rw [h1]; simp)]
    exact ⟨ht', .closed h1 h2 h3 h4 h5 (fun h => absurd h h1') h7⟩

theorem inv_close {u : Bool} {s : S} (H : Inv u s) : Inv true (close s) := by
  unfold close
  cases H.shape with
  | resolving h1 h2 h3 h4 h5 h6 h7 h8 =>
    simp only [h2]
    refine ⟨H.tim, .closed rfl rfl h3 ?_ ?_ ?_ (fun h => by cases h)⟩
    · show .connect ∉ s.out
      rw [h6]; decide
    · show s.out.length + s.failed ≤ 2
      rw [h6, h5]; decide
    · intro _; show s.out.length + s.failed ≤ 1
      rw [h6, h5]; decide
  | waiting h h1 h2 h3 h4 h5 h6 =>
    simp only [h2]
    refine ⟨H.tim, .closed rfl rfl ?_ ?_ ?_ ?_ (fun h => by cases h)⟩
    · show s.handles.erase h = []
      rw [h3]; simp
    · show .connect ∉ s.out
      rw [h6]; decide
    · show s.out.length + s.failed ≤ 2
      rw [h6, h5]; decide
    · intro _; show s.out.length + s.failed ≤ 1
      rw [h6, h5]; decide
  | failing h1 h2 h3 h4 h5 h6 =>
    simp only [h2]
    refine ⟨H.tim, .closed rfl rfl h3 ?_ ?_ ?_ (fun h => by cases h)⟩
    · show .connect ∉ s.out
      rw [h6]; decide
    · show s.out.length + s.failed ≤ 2
      rw [h6, h5]; decide
    · intro _; show s.out.length + s.failed ≤ 1
      rw [h6, h5]; decide
  | connected h h1 h2 h3 h4 h5 h6 =>
    simp only [h2]
    refine ⟨H.tim, .done rfl rfl ?_ h5 h6⟩
    show s.handles.erase h = []
    rw [h3]; simp
  | done h1 h2 h3 h4 h5 =>
    simp only [h2]
    exact ⟨H.tim, .done rfl rfl h3 h4 h5⟩
  | closed h1 h2 h3 h4 h5 h6 h7 =>
    simp only [h2]
    exact ⟨H.tim, .closed rfl rfl h3 h4 h5 h6 (fun h => by cases h)⟩

theorem inv_step {u : Bool} {s s' : S} {e : Ev} (H : Inv u s) (h : step s e = some s') :
    Inv (u || decide (e = .userClose)) s' := by
  cases e with
  | resolved f b ok =>
    simp only [step] at h
    split at h
    · cases h
    · rename_i h0; rw [← Option.some.inj h]; simpa using inv_resolved H b ok h0
  | dnsError f =>
    simp only [step] at h
    split at h
    · cases h
    · rename_i h0; rw [← Option.some.inj h]; simpa using inv_dnsError H h0
  | ready =>
    simp only [step] at h
    split at h
    · cases h
    · rename_i h0; rw [← Option.some.inj h]; simpa using inv_ready H h0
  | failed =>
    simp only [step] at h
    split at h
    · cases h
    · rename_i h0; rw [← Option.some.inj h]; simpa using inv_failed H h0
  | timer =>
    simp only [step] at h
    split at h
    · cases h
    · rename_i h0; rw [← Option.some.inj h]; simpa using inv_timer H h0
  | userClose =>
    rw [← Option.some.inj h]; simpa using inv_close H

theorem inv_run (es : List Ev) : ∀ {u : Bool} {s s' : S}, Inv u s → run s es = some s' →
    Inv (u || es.contains .userClose) s' := by
  induction es with
  | nil => intro u s s' H h; rw [← Option.some.inj h]; simpa using H
  | cons e es ih =>
    intro u s s' H h
    simp only [run] at h
    cases hs : step s e with
    | none => rw [hs] at h; cases h
    | some t =>
      rw [hs] at h
      have := ih (inv_step H hs) h
      rw [List.contains_cons]
      have hb : (Ev.userClose == e) = decide (e = .userClose) := by
        by_cases he : e = .userClose <;> simp [he]
        intro h'; exact he h'.symm
      rw [hb, ← Bool.or_assoc]
      exact this

/-- C160, where it holds: success and failure are never both reported, success at most once; and
at most one report is made or due while the timer has not fired.
Missing: the second report of a failure, see the refutation. -/
theorem C160_partial {a : Addr} {ok : Bool} {es : List Ev} {s : S} (h : run (init a ok) es = some s) :
    ¬ (.connect ∈ s.out ∧ .error ∈ s.out) ∧ s.out.count .connect ≤ 1 ∧ s.out.length ≤ 2 ∧
      (s.timers = 1 → s.out.length ≤ 1) := by
  cases (inv_run es (inv_init a ok) h).shape with
  | resolving _ _ _ _ _ h6 => rw [h6]; simp
  | waiting _ _ _ _ _ _ h6 => rw [h6]; simp
  | failing _ _ _ _ _ h6 => rw [h6]; simp
  | connected _ _ _ _ _ _ h6 => rw [h6]; simp
  | done _ _ _ _ h6 => rw [h6]; simp
  | closed _ _ _ h4 h5 h6 =>
    refine ⟨fun ⟨h, _⟩ => h4 h, ?_, by omega, fun ht => by have := h6 ht; omega⟩
    rw [List.count_eq_zero.2 h4]; exact Nat.zero_le _

/-- C160: if the program does not close the connection, then it was told when nothing is
outstanding any more. -/
theorem C160_told {a : Addr} {ok : Bool} {es : List Ev} {s : S} (h : run (init a ok) es = some s)
    (hu : .userClose ∉ es) (hq : Quiet s) : s.out ≠ [] := by
  have H := inv_run es (inv_init a ok) h
  have hc : es.contains .userClose = false := by simpa using hu
  rw [hc] at H
  obtain ⟨q1, q2, q3, q4⟩ := hq
  cases H.shape with
  | resolving _ _ _ _ _ _ h7 h8 => rw [q1, q1] at h8; omega
  | waiting _ _ _ _ h4 => omega
  | failing _ _ _ _ h5 => omega
  | connected _ _ _ _ _ _ h6 => rw [h6]; simp
  | done _ _ _ _ h6 => rw [h6]; simp
  | closed _ _ _ _ _ _ h7 => exact h7 rfl

/-- C160 is false: the timer fires while the message of the failed setup waits; the failure is
reported twice. -/
theorem C160_refuted : ∃ es s, run (init (.ip .v4) false) es = some s ∧ s.out = [.error, .error] ∧ Quiet s :=
  ⟨[.timer, .failed], _, rfl, rfl, ⟨fun f => by cases f <;> rfl, rfl, rfl, rfl⟩⟩

/-- C161: when the actor is closed, by the program, the timer or an error, it has no handle open, and
it stays closed whatever happens. -/
theorem C161_closed {a : Addr} {ok : Bool} {es es' : List Ev} {s s' : S} (h : run (init a ok) es = some s)
    (hc : s.st = .closed) (h' : run s es' = some s') : s'.st = .closed ∧ s'.sock = none ∧ s'.handles = [] := by
  have H := inv_run es (inv_init a ok) h
  revert H
  generalize (false || es.contains Ev.userClose) = u
  clear h
  intro H
  induction es' generalizing s u with
  | nil =>
    rw [← Option.some.inj h']
    cases H.shape with
    | resolving h1 => rw [hc] at h1; cases h1
    | waiting h h1 => rw [hc] at h1; cases h1
    | failing h1 => rw [hc] at h1; cases h1
    | connected h h1 => rw [hc] at h1; cases h1
    | done h1 h2 h3 => exact ⟨h1, h2, h3⟩
    | closed h1 h2 h3 => exact ⟨h1, h2, h3⟩
  | cons e es' ih =>
    simp only [run] at h'
    cases hs : step s e with
    | none => rw [hs] at h'; cases h'
    | some t =>
      rw [hs] at h'
      refine ih ?_ h' _ (inv_step H hs)
      cases e with
      | resolved f b ok =>
        simp only [step] at hs
        split at hs
        · cases hs
        · rw [← Option.some.inj hs]; unfold onResolve
          rw [if_pos (show s.st ≠ .resolving by rw [hc]; simp)]; exact hc
      | dnsError f =>
        simp only [step] at hs
        split at hs
        · cases hs
        · rw [← Option.some.inj hs]; unfold onDnsError
          rw [if_pos (show s.st ≠ .resolving by rw [hc]; simp)]; exact hc
      | ready =>
        simp only [step] at hs
        split at hs
        · cases hs
        · rw [← Option.some.inj hs]; unfold onReady
          rw [if_neg (show ¬ s.st = .connecting by rw [hc]; simp)]; exact hc
      | failed =>
        simp only [step] at hs
        split at hs
        · cases hs
        · rw [← Option.some.inj hs]; rfl
      | timer =>
        simp only [step] at hs
        split at hs
        · cases hs
        · rw [← Option.some.inj hs]; unfold onTimeout
          rw [if_neg (show ¬ (s.st = .resolving ∨ s.st = .connecting) by rw [hc]; simp)]; exact hc
      | userClose =>
        rw [← Option.some.inj hs]; unfold close
        split <;> rfl

/-- At any time at most one handle is open, and it is the socket in use: none is lost. -/
theorem C161_handles {a : Addr} {ok : Bool} {es : List Ev} {s : S} (h : run (init a ok) es = some s) :
    s.handles = s.sock.toList := by
  cases (inv_run es (inv_init a ok) h).shape with
  | resolving _ h2 h3 => rw [h2, h3]; rfl
  | waiting _ _ h2 h3 => rw [h2, h3]; rfl
  | failing _ h2 h3 => rw [h2, h3]; rfl
  | connected _ _ h2 h3 => rw [h2, h3]; rfl
  | done _ h2 h3 => rw [h2, h3]; rfl
  | closed _ h2 h3 => rw [h2, h3]; rfl

/-- A name whose IPv6 lookup fails: connected, closed by the program, at rest. -/
example : ∃ s s', run (init .name true) [.dnsError .v6, .resolved .v4 true true, .ready, .timer] = some s ∧
    s.out = [.connect] ∧ Quiet s ∧ s.handles = [0] ∧
    run (init .name true) [.dnsError .v6, .resolved .v4 true true, .userClose] = some s' ∧ s'.st = .closed ∧
    (run s' [.ready, .timer]).isSome ∧ s'.out = [] :=
  ⟨_, _, rfl, rfl, ⟨fun f => by cases f <;> rfl, rfl, rfl, rfl⟩, rfl, rfl, rfl, rfl, rfl⟩

end Verif.Net.Udp
