import Verif.Log.Path
/-!
# C163: who gets a message
-/
namespace Verif.Log

/-- The routes of a message of level `l` from the handler `h0`: every handler on the way lets it pass. -/
inductive Reach (hs : Nat → Handler) (l : Int) (h0 : Nat) : List Nat → Prop
  | first : l ≤ (hs h0).level → Reach hs l h0 [h0]
  | next {h p : Nat} {r : List Nat} : Reach hs l h0 (h :: r) → (hs h).parent = some p → l ≤ (hs p).level →
      Reach hs l h0 (p :: h :: r)

variable {hs : Nat → Handler} {l : Int} {h0 : Nat}

theorem reach_ne {r : List Nat} (h : Reach hs l h0 r) : r ≠ [] := by cases h <;> simp

theorem reach_level {h : Nat} {r : List Nat} (H : Reach hs l h0 (h :: r)) : l ≤ (hs h).level := by
  cases H with
  | first h => exact h
  | next _ _ h => exact h

theorem reach_tail {p h : Nat} {r : List Nat} (H : Reach hs l h0 (p :: h :: r)) :
    Reach hs l h0 (h :: r) ∧ (hs h).parent = some p := by
  cases H with
  | next a b _ => exact ⟨a, b⟩

theorem reach_det : ∀ {r r' : List Nat}, Reach hs l h0 r → Reach hs l h0 r' → r.length = r'.length → r = r'
  | _, _, .first _, .first _, _ => rfl
  | _, _, .first _, .next _ _ _, h => by simp at h
  | _, _, .next _ _ _, .first _, h => by simp at h
  | _, _, .next a b _, .next a' b' _, h => by
    have := reach_det a a' (by simpa using h)
    obtain ⟨rfl, rfl⟩ := List.cons.inj this
    rw [b] at b'
    rw [Option.some.inj b']

/-- Where a call may stand. -/
def Next (hs : Nat → Handler) (l : Int) (h0 : Nat) (a : Nat) : List Nat → Prop
  | [] => a = h0
  | h :: r => Reach hs l h0 (h :: r) ∧ (hs h).parent = some a

theorem reach_next {a : Nat} {r : List Nat} (h : Next hs l h0 a r) (hl : l ≤ (hs a).level) :
    Reach hs l h0 (a :: r) := by
  cases r with
  | nil =>
    have h' : a = h0 := h
    subst h'
    exact .first hl
  | cons b r => exact .next h.1 h.2 hl

theorem next_det {a b : Nat} {r : List Nat} (h : Next hs l h0 a r) (h' : Reach hs l h0 (b :: r)) : b = a := by
  cases r with
  | nil =>
    have h1 : a = h0 := h
    cases h'
    exact h1.symm
  | cons c r =>
    have := (reach_tail h').2
    rw [h.2] at this
    exact (Option.some.inj this).symm

/-- Sink `k` of the last handler of route `r` has written its line. -/
def Written (s : S) (r : List Nat) (k : Nat) : Prop := ∃ e ∈ s.out, e.route = r ∧ e.sink = k

/-- How much of a visited route is done. -/
def Done (hs : Nat → Handler) (s : S) (r : List Nat) : Prop :=
  (∃ t ∈ s.tasks, t.route = r ∧ (t.pc = .inserted ∨ ∃ k, t.pc = .sink k ∧ ∀ j < k, Written s r j)) ∨
  ∀ h r', r = h :: r' → ∀ j < (hs h).sinks.length, Written s r j

/-- The invariant with fixed handlers. -/
structure Inv2 (m : Msg) (hs : Nat → Handler) (h0 : Nat) (s : S) : Prop where
  fixed : s.hs = hs
  queued : ∀ t ∈ s.tasks, t.pc = .queued → Next hs m.level h0 t.at_ t.prev
  active : ∀ t ∈ s.tasks, t.pc ≠ .queued → Reach hs m.level h0 t.route
  pending : ∀ t ∈ s.tasks, ∀ p, t.buf = .pending p → (hs t.at_).parent = some p
  out : ∀ e ∈ s.out, Reach hs m.level h0 e.route ∧ e.route <:+ s.last ∧
    ∃ h r, e.route = h :: r ∧ e.sink < (hs h).sinks.length
  upto : ∀ t ∈ s.tasks, ∀ e ∈ s.out, e.route = t.route → ∃ k, t.pc = .sink k ∧ e.sink < k
  distinct : (s.tasks.map Task.route).Nodup
  once : (s.out.map fun e => (e.route, e.sink)).Nodup
  reached : s.last ≠ [] → Reach hs m.level h0 s.last
  ahead : ∀ a, Reach hs m.level h0 (a :: s.last) → ∃ t ∈ s.tasks,
    (t.pc = .queued ∧ t.at_ = a) ∨ t.pc = .inserted ∨ t.buf = .pending a
  done : known m.level = true → m.blank = false → ∀ r, r ≠ [] → r <:+ s.last → Done hs s r

theorem others_sent {l pre post : List Task} {t : Task} (ht : l = pre ++ t :: post) (ho : l.countP lead ≤ 1)
    (hl : t.buf ≠ .sent) : ∀ x, x ∈ pre ∨ x ∈ post → x.buf = .sent := by
  intro x hx
  have hlt : lead t = true := by unfold lead; simpa using hl
  rw [ht, List.countP_append, List.countP_cons, if_pos hlt] at ho
  have : lead x = false := by
    rcases hx with hx | hx
    · have h0 : pre.countP lead = 0 := by omega
      simpa using List.countP_eq_zero.1 h0 x hx
    · have h0 : post.countP lead = 0 := by omega
      simpa using List.countP_eq_zero.1 h0 x hx
  unfold lead at this
  simpa using this

theorem mem3 {pre post : List Task} {t x : Task} : x ∈ pre ++ t :: post ↔ x ∈ pre ∨ x = t ∨ x ∈ post := by
  simp

theorem mem4 {pre mid post : List Task} {x : Task} : x ∈ pre ++ (mid ++ post) ↔ x ∈ pre ∨ x ∈ mid ∨ x ∈ post := by
  simp

/-- The call `t` goes on as `t'`, with the same route; nothing is written, nobody enters. -/
theorem done_mono {s s' : S} {r : List Nat} (ho : ∀ e ∈ s.out, e ∈ s'.out)
    (ht : ∀ t ∈ s.tasks, t.route = r → (t.pc = .inserted ∨ ∃ k, t.pc = .sink k ∧ ∀ j < k, Written s r j) →
      Done hs s' r) (h : Done hs s r) : Done hs s' r := by
  rcases h with ⟨t, h1, h2, h3⟩ | h
  · exact ht t h1 h2 h3
  · refine .inr fun a b hr j hj => ?_
    obtain ⟨e, he, h⟩ := h a b hr j hj
    exact ⟨e, ho e he, h⟩

theorem written_mono {s s' : S} {r : List Nat} {j : Nat} (ho : ∀ e ∈ s.out, e ∈ s'.out) (h : Written s r j) :
    Written s' r j := by
  obtain ⟨e, he, h⟩ := h
  exact ⟨e, ho e he, h⟩

/-- A call that stays keeps what it has. -/
theorem done_stay {s s' : S} {r : List Nat} {t : Task} (ho : ∀ e ∈ s.out, e ∈ s'.out) (hm : t ∈ s'.tasks) (hr : t.route = r)
    (h : t.pc = .inserted ∨ ∃ k, t.pc = .sink k ∧ ∀ j < k, Written s r j) : Done hs s' r :=
  .inl ⟨t, hm, hr, h.imp id fun ⟨k, h1, h2⟩ => ⟨k, h1, fun j hj => written_mono ho (h2 j hj)⟩⟩

variable {names : Nat → Option Nat} {base : List Nat} {m : Msg} {s s' : S}

/-- A call ends at the last sink, or fails. -/
theorem inv2_flush {pre post : List Task} {t : Task} {k : Nat} (H : Inv names base s) (H2 : Inv2 m hs h0 s)
    (ht : s.tasks = pre ++ t :: post) (hp : t.pc = .sink k)
    (hk : known m.level = true → (hs t.at_).sinks[k]? = none) :
    Inv2 m hs h0 { s with tasks := pre ++ (flush t ++ post) } := by
  obtain ⟨m1, m2, m3⟩ := mem_split ht
  have hnq : t.pc ≠ .queued := by rw [hp]; simp
  have hni : t.pc ≠ .inserted := by rw [hp]; simp
  have old : ∀ {x}, x ∈ pre ∨ x ∈ post → x ∈ s.tasks := fun h => h.elim (m2 _) (m3 _)
  have new : ∀ {x}, x ∈ pre ++ (flush t ++ post) → (x ∈ pre ∨ x ∈ post) ∨
      ∃ p, t.buf = .pending p ∧ x = ⟨p, t.route, .queued, .none⟩ := by
    intro x hx
    rcases mem4.1 hx with h | h | h
    · exact .inl (.inl h)
    · exact .inr (mem_flush h)
    · exact .inl (.inr h)
  have route : ∀ p, t.buf = .pending p → t.route = s.last := fun p hb => (H.ok t m1).now hnq (by rw [hb]; simp)
  refine ⟨H2.fixed, ?_, ?_, ?_, H2.out, ?_, ?_, H2.once, H2.reached, ?_, ?_⟩
  · intro x hx hq
    rcases new hx with h | ⟨p, hb, rfl⟩
    · exact H2.queued x (old h) hq
    · exact ⟨H2.active t m1 hnq, H2.pending t m1 p hb⟩
  · intro x hx hq
    rcases new hx with h | ⟨p, hb, rfl⟩
    · exact H2.active x (old h) hq
    · exact absurd rfl hq
  · intro x hx p hb
    rcases new hx with h | ⟨p, _, rfl⟩
    · exact H2.pending x (old h) p hb
    · cases hb
  · intro x hx e he hr
    rcases new hx with h | ⟨p, hb, rfl⟩
    · exact H2.upto x (old h) e he hr
    · have h1 := (H2.out e he).2.1.length_le
      rw [hr] at h1
      have h2 : t.route.length = s.last.length := by rw [route p hb]
      have h3 : (Task.route ⟨p, t.route, .queued, .none⟩).length = t.route.length + 1 := rfl
      omega
  · have hd := H2.distinct
    rw [ht] at hd
    show ((pre ++ (flush t ++ post)).map Task.route).Nodup
    cases hb : t.buf with
    | none =>
      have : flush t = [] := by simp [flush, hb]
      rw [this, List.nil_append]
      exact hd.sublist (List.Sublist.map _ (List.Sublist.append_left (List.sublist_cons_self t post) pre))
    | sent =>
      have : flush t = [] := by simp [flush, hb]
      rw [this, List.nil_append]
      exact hd.sublist (List.Sublist.map _ (List.Sublist.append_left (List.sublist_cons_self t post) pre))
    | pending p =>
      have : flush t = [⟨p, t.route, .queued, .none⟩] := by simp [flush, hb]
      rw [this, List.singleton_append]
      have hne : ∀ x, x ∈ pre ∨ x ∈ post → x.route ≠ p :: t.route := by
        intro x hx hr
        have hsx := others_sent ht H.one (by rw [hb]; simp) x hx
        have hx' := H.ok x (old hx)
        have hq : x.pc ≠ .queued := fun h => by rw [(hx'.queued h).2] at hsx; cases hsx
        have h1 := (hx'.past hq).length_le
        rw [hr, ← route p hb, List.length_cons] at h1
        omega
      rw [List.map_append, List.map_cons, List.nodup_append, List.nodup_cons] at hd ⊢
      obtain ⟨d1, ⟨d2, d3⟩, d4⟩ := hd
      refine ⟨d1, ⟨?_, d3⟩, ?_⟩
      · intro hx
        obtain ⟨x, hx, hr⟩ := List.mem_map.1 hx
        exact hne x (.inr hx) hr
      · intro a ha b hb'
        rcases List.mem_cons.1 hb' with rfl | hb'
        · obtain ⟨x, hx, rfl⟩ := List.mem_map.1 ha
          exact hne x (.inl hx)
        · exact d4 a ha b (List.mem_cons_of_mem _ hb')
  · intro a ha
    obtain ⟨x, hx, hc⟩ := H2.ahead a ha
    rw [ht] at hx
    rcases mem3.1 hx with h | rfl | h
    · exact ⟨x, mem4.2 (.inl h), hc⟩
    · rcases hc with ⟨h, _⟩ | h | h
      · exact absurd h hnq
      · exact absurd h hni
      · refine ⟨⟨a, x.route, .queued, .none⟩, mem4.2 (.inr (.inl ?_)), .inl ⟨rfl, rfl⟩⟩
        unfold flush; rw [h]; simp
    · exact ⟨x, mem4.2 (.inr (.inr h)), hc⟩
  · intro hm hb r hr hsuf
    refine done_mono (s := s) (fun e he => he) ?_ (H2.done hm hb r hr hsuf)
    intro x hx hxr hc
    rw [ht] at hx
    rcases mem3.1 hx with h | rfl | h
    · exact done_stay (s := s) (fun e he => he) (mem4.2 (.inl h)) hxr hc
    · rcases hc with h | ⟨k', h, hw⟩
      · exact absurd h hni
      · rw [hp] at h
        have hkk : k = k' := by simpa using h
        subst hkk
        refine .inr fun a b hab j hj => hw j ?_
        rw [← hxr] at hab
        have ha : x.at_ = a := (List.cons.inj hab).1
        have := List.getElem?_eq_none_iff.1 (hk hm)
        rw [ha] at this
        omega
    · exact done_stay (s := s) (fun e he => he) (mem4.2 (.inr (.inr h))) hxr hc

end Verif.Log
