import Verif.Log.Deliver
/-!
# C162 to C164
-/
namespace Verif.Log

variable {hs : Nat → Handler} {h0 : Nat} {names : Nat → Option Nat} {base : List Nat} {m : Msg} {s s' : S}

/-- A sink writes its line: the call moves on by one sink. -/
theorem inv2_print {pre post : List Task} {t t' : Task} {k : Nat} (H2 : Inv2 m hs h0 s)
    (hlast : t.route <:+ s.last) (ht : s.tasks = pre ++ t :: post) (hp : t.pc = .sink k) (hk : k < (hs t.at_).sinks.length)
    (hr : t'.route = t.route) (hp' : t'.pc = .sink (k + 1)) (hb' : t'.buf = t.buf) :
    Inv2 m hs h0 { s with tasks := pre ++ t' :: post, out := s.out ++ lines m t k s.path } := by
  obtain ⟨m1, m2, m3⟩ := mem_split ht
  have hnq : t.pc ≠ .queued := by rw [hp]; simp
  have hnq' : t'.pc ≠ .queued := by rw [hp']; simp
  have hat : t'.at_ = t.at_ := (List.cons.inj hr).1
  have old : ∀ {x}, x ∈ pre ∨ x ∈ post → x ∈ s.tasks := fun h => h.elim (m2 _) (m3 _)
  have new : ∀ {x}, x ∈ pre ++ t' :: post → (x ∈ pre ∨ x ∈ post) ∨ x = t' := by
    intro x hx
    rcases mem3.1 hx with h | h | h
    · exact .inl (.inl h)
    · exact .inr h
    · exact .inl (.inr h)
  have hl : ∀ e ∈ lines m t k s.path, e.route = t.route ∧ e.sink = k := by
    intro e he
    unfold lines at he
    split at he
    · cases he
    · rw [List.mem_singleton.1 he]; exact ⟨rfl, rfl⟩
  have hd := H2.distinct
  rw [ht, List.map_append, List.map_cons] at hd
  have hne : ∀ x, x ∈ pre ∨ x ∈ post → x.route ≠ t.route := by
    rw [List.nodup_append, List.nodup_cons] at hd
    obtain ⟨_, ⟨d2, _⟩, d4⟩ := hd
    intro x hx hxr
    rcases hx with hx | hx
    · exact d4 x.route (List.mem_map_of_mem hx) t.route (by simp) hxr
    · exact d2 (hxr ▸ List.mem_map_of_mem hx)
  refine ⟨H2.fixed, ?_, ?_, ?_, ?_, ?_, ?_, ?_, H2.reached, ?_, ?_⟩
  · intro x hx hq
    rcases new hx with h | rfl
    · exact H2.queued x (old h) hq
    · exact absurd hq hnq'
  · intro x hx hq
    rcases new hx with h | rfl
    · exact H2.active x (old h) hq
    · rw [hr]; exact H2.active t m1 hnq
  · intro x hx p hb
    rcases new hx with h | rfl
    · exact H2.pending x (old h) p hb
    · rw [hat]; exact H2.pending t m1 p (hb' ▸ hb)
  · intro e he
    rcases List.mem_append.1 he with he | he
    · exact H2.out e he
    · obtain ⟨a, b⟩ := hl e he
      rw [a, b]
      exact ⟨H2.active t m1 hnq, hlast, t.at_, t.prev, rfl, hk⟩
  · intro x hx e he her
    rcases List.mem_append.1 he with he1 | he1
    · rcases new hx with h | rfl
      · exact H2.upto x (old h) e he1 her
      · obtain ⟨k', h1, h2⟩ := H2.upto t m1 e he1 (her.trans hr)
        rw [hp] at h1
        have : k = k' := by simpa using h1
        exact ⟨k + 1, hp', by omega⟩
    · obtain ⟨a, b⟩ := hl e he1
      rcases new hx with h | rfl
      · exact absurd (her.symm.trans a) (hne x h)
      · exact ⟨k + 1, hp', by omega⟩
  · show ((pre ++ t' :: post).map Task.route).Nodup
    rw [List.map_append, List.map_cons, hr]; exact hd
  · show ((s.out ++ lines m t k s.path).map fun e => (e.route, e.sink)).Nodup
    unfold lines
    split
    · rw [List.append_nil]; exact H2.once
    · rw [List.map_append, List.nodup_append]
      refine ⟨H2.once, by simp, ?_⟩
      intro a ha b hb hab
      obtain ⟨e, he, rfl⟩ := List.mem_map.1 ha
      have hb := List.mem_singleton.1 hb
      rw [hb] at hab
      obtain ⟨h1, h2⟩ := Prod.mk.inj hab
      obtain ⟨k', h3, h4⟩ := H2.upto t m1 e he h1
      rw [hp] at h3
      have : k = k' := by simpa using h3
      have h2' : e.sink = k := h2
      omega
  · intro a ha
    obtain ⟨x, hx, hc⟩ := H2.ahead a ha
    rw [ht] at hx
    rcases mem3.1 hx with h | rfl | h
    · exact ⟨x, mem3.2 (.inl h), hc⟩
    · rcases hc with ⟨h, _⟩ | h | h
      · exact absurd h hnq
      · rw [hp] at h; cases h
      · exact ⟨t', mem3.2 (.inr (.inl rfl)), .inr (.inr (hb' ▸ h))⟩
    · exact ⟨x, mem3.2 (.inr (.inr h)), hc⟩
  · intro hm hb r hrn hsuf
    have ho : ∀ e ∈ s.out, e ∈ s.out ++ lines m t k s.path := fun e he => by simp [he]
    refine done_mono (s := s) ho ?_ (H2.done hm hb r hrn hsuf)
    intro x hx hxr hc
    rw [ht] at hx
    rcases mem3.1 hx with h | rfl | h
    · exact done_stay (s := s) ho (mem3.2 (.inl h)) hxr hc
    · rcases hc with h | ⟨k', h, hw⟩
      · rw [hp] at h; cases h
      · rw [hp] at h
        have hkk : k = k' := by simpa using h
        subst hkk
        refine .inl ⟨t', mem3.2 (.inr (.inl rfl)), hr.trans hxr, .inr ⟨k + 1, hp', fun j hj => ?_⟩⟩
        by_cases hjk : j < k
        · exact written_mono ho (hw j hjk)
        · have : j = k := by omega
          subst this
          refine ⟨⟨x.route, j, s.path⟩, ?_, hxr, rfl⟩
          refine List.mem_append.2 (.inr ?_)
          unfold lines; rw [hb]; simp
    · exact done_stay (s := s) ho (mem3.2 (.inr (.inr h))) hxr hc

/-- A waiting call lets the message for the parent go. -/
theorem inv2_left {pre post : List Task} {t : Task} {k : Nat} (H : Inv names base s) (H2 : Inv2 m hs h0 s)
    (ht : s.tasks = pre ++ t :: post) (hp : t.pc = .sink k) :
    Inv2 m hs h0 { s with tasks := pre ++ { t with buf := left t.buf } :: (flush t ++ post) } := by
  cases hb : t.buf with
  | none =>
    have h1 : flush t = [] := by simp [flush, hb]
    have h2 : ({ t with buf := left .none } : Task) = t := by cases t; cases hb; rfl
    rw [h1, h2, List.nil_append, ← ht]; exact H2
  | sent =>
    have h1 : flush t = [] := by simp [flush, hb]
    have h2 : ({ t with buf := left .sent } : Task) = t := by cases t; cases hb; rfl
    rw [h1, h2, List.nil_append, ← ht]; exact H2
  | pending p =>
    have h1 : flush t = [⟨p, t.route, .queued, .none⟩] := by simp [flush, hb]
    rw [h1, List.singleton_append]
    obtain ⟨m1, m2, m3⟩ := mem_split ht
    have hnq : t.pc ≠ .queued := by rw [hp]; simp
    have hni : t.pc ≠ .inserted := by rw [hp]; simp
    have old : ∀ {x}, x ∈ pre ∨ x ∈ post → x ∈ s.tasks := fun h => h.elim (m2 _) (m3 _)
    have route : t.route = s.last := (H.ok t m1).now hnq (by rw [hb]; simp)
    let u : Task := { t with buf := left (.pending p) }
    let q : Task := ⟨p, t.route, .queued, .none⟩
    have new : ∀ {x}, x ∈ pre ++ u :: q :: post → (x ∈ pre ∨ x ∈ post) ∨ x = u ∨ x = q := by
      intro x hx
      rcases mem3.1 hx with h | h | h
      · exact .inl (.inl h)
      · exact .inr (.inl h)
      · rcases List.mem_cons.1 h with h | h
        · exact .inr (.inr h)
        · exact .inl (.inr h)
    have back : ∀ {x}, x ∈ pre ∨ x ∈ post → x ∈ pre ++ u :: q :: post := by
      intro x hx
      rcases hx with h | h
      · exact mem3.2 (.inl h)
      · exact mem3.2 (.inr (.inr (List.mem_cons_of_mem _ h)))
    have qm : q ∈ pre ++ u :: q :: post := mem3.2 (.inr (.inr (List.mem_cons_self)))
    have hqlen : q.route.length = s.last.length + 1 := by rw [← route]; rfl
    show Inv2 m hs h0 { s with tasks := pre ++ u :: q :: post }
    refine ⟨H2.fixed, ?_, ?_, ?_, H2.out, ?_, ?_, H2.once, H2.reached, ?_, ?_⟩
    · intro x hx hq
      rcases new hx with h | rfl | rfl
      · exact H2.queued x (old h) hq
      · exact absurd hq hnq
      · exact ⟨H2.active t m1 hnq, H2.pending t m1 p hb⟩
    · intro x hx hq
      rcases new hx with h | rfl | rfl
      · exact H2.active x (old h) hq
      · exact H2.active t m1 hnq
      · exact absurd rfl hq
    · intro x hx p' hb'
      rcases new hx with h | rfl | rfl
      · exact H2.pending x (old h) p' hb'
      · cases hb'
      · cases hb'
    · intro x hx e he hr
      rcases new hx with h | rfl | rfl
      · exact H2.upto x (old h) e he hr
      · exact H2.upto t m1 e he hr
      · have h1 := (H2.out e he).2.1.length_le
        rw [hr] at h1
        omega
    · have hd := H2.distinct
      rw [ht] at hd
      have hne : ∀ x, x ∈ pre ∨ x ∈ post → x.route ≠ q.route := by
        intro x hx hr
        have hsx := others_sent ht H.one (by rw [hb]; simp) x hx
        have hx' := H.ok x (old hx)
        have hq : x.pc ≠ .queued := fun h => by rw [(hx'.queued h).2] at hsx; cases hsx
        have h1 := (hx'.past hq).length_le
        rw [hr] at h1
        omega
      show ((pre ++ u :: q :: post).map Task.route).Nodup
      rw [List.map_append, List.map_cons, List.nodup_append, List.nodup_cons] at hd
      rw [List.map_append, List.map_cons, List.map_cons, List.nodup_append, List.nodup_cons, List.nodup_cons]
      obtain ⟨d1, ⟨d2, d3⟩, d4⟩ := hd
      refine ⟨d1, ⟨?_, ?_, d3⟩, ?_⟩
      · intro h
        rcases List.mem_cons.1 h with h | h
        · have h2 : u.route.length = q.route.length := by rw [h]
          have h3 : u.route.length = t.route.length := rfl
          rw [route] at h3
          omega
        · exact d2 h
      · intro hx
        obtain ⟨x, hx, hr⟩ := List.mem_map.1 hx
        exact hne x (.inr hx) hr
      · intro a ha b hb'
        rcases List.mem_cons.1 hb' with rfl | hb'
        · exact d4 a ha t.route (by simp)
        · rcases List.mem_cons.1 hb' with rfl | hb'
          · obtain ⟨x, hx, rfl⟩ := List.mem_map.1 ha
            exact hne x (.inl hx)
          · exact d4 a ha b (List.mem_cons_of_mem _ hb')
    · intro a ha
      obtain ⟨x, hx, hc⟩ := H2.ahead a ha
      rw [ht] at hx
      rcases mem3.1 hx with h | rfl | h
      · exact ⟨x, back (.inl h), hc⟩
      · rcases hc with ⟨h, _⟩ | h | h
        · exact absurd h hnq
        · exact absurd h hni
        · rw [hb] at h
          exact ⟨q, qm, .inl ⟨rfl, by simpa using h⟩⟩
      · exact ⟨x, back (.inr h), hc⟩
    · intro hm hbl r hr hsuf
      refine done_mono (s := s) (fun e he => he) ?_ (H2.done hm hbl r hr hsuf)
      intro x hx hxr hc
      rw [ht] at hx
      rcases mem3.1 hx with h | rfl | h
      · exact done_stay (s := s) (fun e he => he) (back (.inl h)) hxr hc
      · exact done_stay (s := s) (t := u) (fun e he => he) (mem3.2 (.inr (.inl rfl))) hxr hc
      · exact done_stay (s := s) (fun e he => he) (back (.inr h)) hxr hc

theorem inv2_step (H : Inv names base s) (H2 : Inv2 m hs h0 s) (h : Step names m s s') : Inv2 m hs h0 s' := by
  cases h with
  | @block pre post t ht hp hl =>
    obtain ⟨m1, m2, m3⟩ := mem_split ht
    have old : ∀ {x}, x ∈ pre ++ post → x ∈ s.tasks := fun h => (List.mem_append.1 h).elim (m2 _) (m3 _)
    have hnq := (H.ok t m1).queued hp
    have hN := H2.queued t m1 hp
    rw [H2.fixed] at hl
    have hd := H2.distinct
    rw [ht] at hd
    refine ⟨H2.fixed, fun x hx => H2.queued x (old hx), fun x hx => H2.active x (old hx),
      fun x hx => H2.pending x (old hx), H2.out, fun x hx => H2.upto x (old hx),
      hd.sublist (List.Sublist.map _ (List.Sublist.append_left (List.sublist_cons_self t post) pre)), H2.once,
      H2.reached, ?_, ?_⟩
    · intro a ha
      obtain ⟨x, hx, hc⟩ := H2.ahead a ha
      rw [ht] at hx
      rcases mem3.1 hx with h | rfl | h
      · exact ⟨x, List.mem_append.2 (.inl h), hc⟩
      · exfalso
        rcases hc with ⟨_, rfl⟩ | h | h
        · exact hl (reach_level ha)
        · rw [hp] at h; cases h
        · rw [hnq.2] at h; cases h
      · exact ⟨x, List.mem_append.2 (.inr h), hc⟩
    · intro hm hb r hr hsuf
      refine done_mono (s := s) (fun e he => he) ?_ (H2.done hm hb r hr hsuf)
      intro x hx hxr hc
      rw [ht] at hx
      rcases mem3.1 hx with h | rfl | h
      · exact done_stay (s := s) (fun e he => he) (List.mem_append.2 (.inl h)) hxr hc
      · exfalso
        rcases hc with h | ⟨k, h, _⟩
        · rw [hp] at h; cases h
        · rw [hp] at h; cases h
      · exact done_stay (s := s) (fun e he => he) (List.mem_append.2 (.inr h)) hxr hc
  | @enter pre post t ht hp hl hi =>
    obtain ⟨m1, m2, m3⟩ := mem_split ht
    have old : ∀ {x}, x ∈ pre ∨ x ∈ post → x ∈ s.tasks := fun h => h.elim (m2 _) (m3 _)
    obtain ⟨q1, q2⟩ := (H.ok t m1).queued hp
    rw [H2.fixed] at hl
    have hR := reach_next (H2.queued t m1 hp) hl
    let u : Task := { t with pc := .inserted }
    have new : ∀ {x}, x ∈ pre ++ u :: post → (x ∈ pre ∨ x ∈ post) ∨ x = u := by
      intro x hx
      rcases mem3.1 hx with h | h | h
      · exact .inl (.inl h)
      · exact .inr h
      · exact .inl (.inr h)
    have hsuf : s.last <:+ t.route := ⟨[t.at_], by rw [← q1]; rfl⟩
    have hlen : t.route.length = s.last.length + 1 := by rw [← q1]; rfl
    show Inv2 m hs h0 { s with tasks := pre ++ u :: post, path := insertName (names t.at_) s.path, last := t.route }
    refine ⟨H2.fixed, ?_, ?_, ?_, ?_, ?_, ?_, H2.once, fun _ => hR, ?_, ?_⟩
    · intro x hx hq
      rcases new hx with h | rfl
      · exact H2.queued x (old h) hq
      · cases hq
    · intro x hx hq
      rcases new hx with h | rfl
      · exact H2.active x (old h) hq
      · exact hR
    · intro x hx p hb
      rcases new hx with h | rfl
      · exact H2.pending x (old h) p hb
      · have hb' : t.buf = .pending p := hb
        rw [q2] at hb'; cases hb'
    · intro e he
      obtain ⟨a, b, c⟩ := H2.out e he
      exact ⟨a, b.trans hsuf, c⟩
    · intro x hx e he hr
      rcases new hx with h | rfl
      · exact H2.upto x (old h) e he hr
      · exfalso
        have h1 := (H2.out e he).2.1.length_le
        rw [hr] at h1
        have h2 : u.route.length = t.route.length := rfl
        omega
    · have hd := H2.distinct
      rw [ht] at hd
      show ((pre ++ u :: post).map Task.route).Nodup
      rw [List.map_append, List.map_cons] at hd ⊢
      exact hd
    · intro a ha
      exact ⟨u, mem3.2 (.inr (.inl rfl)), .inr (.inl rfl)⟩
    · intro hm hb r hr hs'
      have hs'' : r <:+ t.route := hs'
      by_cases he : r = t.route
      · exact .inl ⟨u, mem3.2 (.inr (.inl rfl)), he.symm, .inl rfl⟩
      · have hs3 : r <:+ s.last := by
          have h1 : t.route = t.at_ :: s.last := by rw [← q1]; rfl
          rw [h1] at hs''
          rcases List.suffix_cons_iff.1 hs'' with h | h
          · exact absurd (h.trans h1.symm) he
          · exact h
        refine done_mono (s := s) (fun e he => he) ?_ (H2.done hm hb r hr hs3)
        intro x hx hxr hc
        rw [ht] at hx
        rcases mem3.1 hx with h | rfl | h
        · exact done_stay (s := s) (fun e he => he) (mem3.2 (.inl h)) hxr hc
        · exact absurd hxr.symm he
        · exact done_stay (s := s) (fun e he => he) (mem3.2 (.inr (.inr h))) hxr hc
  | @parent pre post t ht hp =>
    obtain ⟨m1, m2, m3⟩ := mem_split ht
    have old : ∀ {x}, x ∈ pre ∨ x ∈ post → x ∈ s.tasks := fun h => h.elim (m2 _) (m3 _)
    have hnq : t.pc ≠ .queued := by rw [hp]; simp
    have hb := (H.ok t m1).inserted hp
    have hR := (H.ok t m1).now hnq (by rw [hb]; simp)
    have hf : (s.hs t.at_).parent = (hs t.at_).parent := by rw [H2.fixed]
    let u : Task := { t with pc := .sink 0, buf := forward (s.hs t.at_).parent }
    have hub : ∀ p, u.buf = .pending p ↔ (hs t.at_).parent = some p := by
      intro p
      show forward (s.hs t.at_).parent = .pending p ↔ _
      rw [hf]; unfold forward
      cases (hs t.at_).parent <;> simp
    have new : ∀ {x}, x ∈ pre ++ u :: post → (x ∈ pre ∨ x ∈ post) ∨ x = u := by
      intro x hx
      rcases mem3.1 hx with h | h | h
      · exact .inl (.inl h)
      · exact .inr h
      · exact .inl (.inr h)
    show Inv2 m hs h0 { s with tasks := pre ++ u :: post }
    refine ⟨H2.fixed, ?_, ?_, ?_, H2.out, ?_, ?_, H2.once, H2.reached, ?_, ?_⟩
    · intro x hx hq
      rcases new hx with h | rfl
      · exact H2.queued x (old h) hq
      · cases hq
    · intro x hx hq
      rcases new hx with h | rfl
      · exact H2.active x (old h) hq
      · exact H2.active t m1 hnq
    · intro x hx p hb
      rcases new hx with h | rfl
      · exact H2.pending x (old h) p hb
      · exact (hub p).1 hb
    · intro x hx e he hr
      rcases new hx with h | rfl
      · exact H2.upto x (old h) e he hr
      · exfalso
        obtain ⟨k, h, _⟩ := H2.upto t m1 e he hr
        rw [hp] at h; cases h
    · have hd := H2.distinct
      rw [ht] at hd
      show ((pre ++ u :: post).map Task.route).Nodup
      rw [List.map_append, List.map_cons] at hd ⊢
      exact hd
    · intro a ha
      refine ⟨u, mem3.2 (.inr (.inl rfl)), .inr (.inr ((hub a).2 ?_))⟩
      have ha' : Reach hs m.level h0 (a :: s.last) := ha
      rw [← hR] at ha'
      exact (reach_tail ha').2
    · intro hm hb' r hr hsuf
      refine done_mono (s := s) (fun e he => he) ?_ (H2.done hm hb' r hr hsuf)
      intro x hx hxr hc
      rw [ht] at hx
      rcases mem3.1 hx with h | rfl | h
      · exact done_stay (s := s) (fun e he => he) (mem3.2 (.inl h)) hxr hc
      · exact .inl ⟨u, mem3.2 (.inr (.inl rfl)), hxr, .inr ⟨0, rfl, fun j hj => absurd hj (Nat.not_lt_zero j)⟩⟩
      · exact done_stay (s := s) (fun e he => he) (mem3.2 (.inr (.inr h))) hxr hc
  | @print pre post t k ht hp hk hm =>
    have hnq : t.pc ≠ .queued := by rw [hp]; simp
    rw [H2.fixed] at hk
    exact inv2_print H2 ((H.ok t (mem_split ht).1).past hnq) ht hp (List.getElem?_eq_some_iff.1 hk).1 rfl rfl rfl
  | @wait pre post t k ht hp hk hm =>
    have hnq : t.pc ≠ .queued := by rw [hp]; simp
    have hk' := hk
    rw [H2.fixed] at hk'
    have A := inv2_print (t' := { t with pc := .sink (k + 1) }) H2 ((H.ok t (mem_split ht).1).past hnq) ht hp
      (List.getElem?_eq_some_iff.1 hk').1 rfl rfl rfl
    have B : Inv names base { s with tasks := pre ++ { t with pc := .sink (k + 1) } :: post, out := s.out ++ lines m t k s.path } := by
      have H' := H.ok t (mem_split ht).1
      obtain ⟨m1, m2, m3⟩ := mem_split ht
      refine ⟨H.path, ?_, ?_⟩
      · intro x hx
        rcases mem3.1 hx with h | rfl | h
        · exact H.ok x (m2 x h)
        · exact ⟨fun h => (by cases h), fun h => (by cases h), fun _ h => H'.now hnq h, fun _ => H'.past hnq⟩
        · exact H.ok x (m3 x h)
      · have hone := H.one
        rw [ht, List.countP_append, List.countP_cons] at hone
        show (pre ++ { t with pc := .sink (k + 1) } :: post).countP lead ≤ 1
        rw [List.countP_append, List.countP_cons]
        exact hone
    exact inv2_left B A rfl rfl
  | @fail pre post t k b ht hp hk hm =>
    exact inv2_flush H H2 ht hp (fun h => by rw [hm] at h; cases h)
  | @finish pre post t k ht hp hk =>
    rw [H2.fixed] at hk
    exact inv2_flush H H2 ht hp (fun _ => hk)

theorem inv2_start (hs : Nat → Handler) (base : List Nat) (h0 : Nat) : Inv2 m hs h0 (start hs base h0) := by
  have one : ∀ {t}, t ∈ (start hs base h0).tasks → t = ⟨h0, [], .queued, .none⟩ := fun h => List.mem_singleton.1 h
  refine ⟨rfl, ?_, ?_, ?_, fun e he => (by cases he), fun t _ e he => (by cases he), by simp [start], by simp [start],
    fun h => absurd rfl h, ?_, ?_⟩
  · intro t ht _; rw [one ht]; rfl
  · intro t ht h; rw [one ht] at h; exact absurd rfl h
  · intro t ht p h; rw [one ht] at h; cases h
  · intro a ha
    refine ⟨_, List.mem_singleton.2 rfl, .inl ⟨rfl, ?_⟩⟩
    have ha' : Reach hs m.level h0 [a] := ha
    cases ha'
    rfl
  · intro _ _ r hr hs'
    exact absurd (List.suffix_nil.1 hs') hr

theorem inv2_run (h : Run names m (· = hs) (start hs base h0) s) : Inv names base s ∧ Inv2 m hs h0 s := by
  have H : Inv names base (start hs base h0) ∧ Inv2 m hs h0 (start hs base h0) := ⟨inv_start .., inv2_start ..⟩
  revert H
  generalize start hs base h0 = s0 at h
  intro H
  induction h with
  | refl => exact H
  | step _ hst ih => exact ⟨(inv_step ih.1 hst).2.1, inv2_step ih.1 ih.2 hst⟩
  | config hp _ ih =>
    subst hp
    refine ⟨⟨ih.1.path, ih.1.ok, ih.1.one⟩, ?_⟩
    obtain ⟨a, b, c, d, e, f, g, i, j, k, n⟩ := ih.2
    exact ⟨rfl, b, c, d, e, f, g, i, j, k, n⟩

/-- C163: a line is written only by a sink of a handler that the message reaches, where every
handler on the way lets it pass; and at most once. -/
theorem C163_only (h : Run names m (· = hs) (start hs base h0) s) :
    (∀ e ∈ s.out, Reach hs m.level h0 e.route ∧ ∃ a r, e.route = a :: r ∧ e.sink < (hs a).sinks.length) ∧
    (s.out.map fun e => (e.route, e.sink)).Nodup := by
  obtain ⟨_, H⟩ := inv2_run h
  exact ⟨fun e he => ⟨(H.out e he).1, (H.out e he).2.2⟩, H.once⟩

theorem reach_suffix {l : Int} : ∀ {r : List Nat}, Reach hs l h0 r → ∀ {q : List Nat}, q ≠ [] → q <:+ r → Reach hs l h0 q := by
  intro r H
  induction H with
  | first h =>
    intro q hq hs'
    rcases List.suffix_cons_iff.1 hs' with rfl | h'
    · exact .first h
    · exact absurd (List.suffix_nil.1 h') hq
  | next H1 hp hl ih =>
    intro q hq hs'
    rcases List.suffix_cons_iff.1 hs' with rfl | h'
    · exact .next H1 hp hl
    · exact ih hq h'

/-- C163, where it holds: a message with a level of the table and with text or data, when it is no longer
under way, was written by every sink of every handler that it reaches.
Missing: other levels, see the refutation. -/
theorem C163_partial (h : Run names m (· = hs) (start hs base h0) s) (ht : s.tasks = []) (hk : 0 ≤ m.level ∧ m.level ≤ 9)
    (hb : m.blank = false) {a : Nat} {r : List Nat} (hr : Reach hs m.level h0 (a :: r)) {k : Nat}
    (hs' : k < (hs a).sinks.length) : ∃ e ∈ s.out, e.route = a :: r ∧ e.sink = k := by
  obtain ⟨_, H⟩ := inv2_run h
  have hkn : known m.level = true := by unfold known; simp [hk.1, hk.2]
  have hno : ∀ b, ¬ Reach hs m.level h0 (b :: s.last) := by
    intro b hb
    obtain ⟨t, h1, _⟩ := H.ahead b hb
    rw [ht] at h1; cases h1
  have hsuf : (a :: r) <:+ s.last := by
    by_cases hle : (a :: r).length ≤ s.last.length
    · have hne : s.last ≠ [] := by intro h; rw [h] at hle; simp at hle
      have hd : s.last.drop (s.last.length - (a :: r).length) <:+ s.last := List.drop_suffix _ _
      have hlen : (s.last.drop (s.last.length - (a :: r).length)).length = (a :: r).length := by
        rw [List.length_drop]; omega
      have hne' : s.last.drop (s.last.length - (a :: r).length) ≠ [] := by
        intro h; rw [h] at hlen; simp at hlen
      have := reach_det (reach_suffix (H.reached hne) hne' hd) hr hlen
      rw [this] at hd; exact hd
    · exfalso
      have hd : (a :: r).drop ((a :: r).length - (s.last.length + 1)) <:+ (a :: r) := List.drop_suffix _ _
      have hlen : ((a :: r).drop ((a :: r).length - (s.last.length + 1))).length = s.last.length + 1 := by
        rw [List.length_drop]; omega
      cases hq : (a :: r).drop ((a :: r).length - (s.last.length + 1)) with
      | nil => rw [hq] at hlen; simp at hlen
      | cons b q =>
        rw [hq] at hlen hd
        have hR := reach_suffix hr (by simp) hd
        have hql : q.length = s.last.length := by simpa using hlen
        have : q = s.last := by
          cases q with
          | nil => exact (List.eq_nil_of_length_eq_zero (by simpa using hql.symm)).symm
          | cons c q =>
            have hne : s.last ≠ [] := by intro h; rw [h] at hql; simp at hql
            exact reach_det (reach_tail hR).1 (H.reached hne) hql
        rw [this] at hR
        exact hno b hR
  rcases H.done hkn hb (a :: r) (by simp) hsuf with ⟨t, h1, _⟩ | h
  · rw [ht] at h1; cases h1
  · exact h a r rfl k hs'

/-- C162: with fixed handlers, a handler without parent writes the right path, also if sinks wait. -/
theorem C162_root (h : Run names m (· = hs) (start hs base h0) s) {e : Line} (he : e ∈ s.out) {a : Nat} {r : List Nat}
    (hr : e.route = a :: r) (hp : (hs a).parent = none) : e.path = trail names base e.route := by
  have key : ∀ s0 s, (Inv names base s0 ∧ Inv2 m hs h0 s0 ∧ (∀ t ∈ s0.tasks, (hs t.at_).parent = none → t.buf = .none) ∧
        ∀ e ∈ s0.out, ∀ a r, e.route = a :: r → (hs a).parent = none → e.path = trail names base e.route) →
      Run names m (· = hs) s0 s → (Inv names base s ∧ Inv2 m hs h0 s ∧
        (∀ t ∈ s.tasks, (hs t.at_).parent = none → t.buf = .none) ∧
        ∀ e ∈ s.out, ∀ a r, e.route = a :: r → (hs a).parent = none → e.path = trail names base e.route) := by
    intro s0 s H0 h
    induction h with
    | refl => exact H0
    | config hq _ ih =>
      subst hq
      obtain ⟨H1, H2, H3, H4⟩ := ih
      refine ⟨⟨H1.path, H1.ok, H1.one⟩, ?_, H3, H4⟩
      obtain ⟨a, b, c, d, e, f, g, i, j, k, n⟩ := H2
      exact ⟨rfl, b, c, d, e, f, g, i, j, k, n⟩
    | @step s1 s2 _ hst ih =>
      obtain ⟨H1, H2, H3, H4⟩ := ih
      obtain ⟨_, H1', l, hl, hl'⟩ := inv_step H1 hst
      have H2' := inv2_step H1 H2 hst
      refine ⟨H1', H2', ?_, ?_⟩
      · have hf : ∀ {t x : Task}, x ∈ flush t → x.buf = .none := by
          intro t x hx
          obtain ⟨p, _, rfl⟩ := mem_flush hx
          rfl
        have fx := H2.fixed
        cases hst with
        | block ht =>
          obtain ⟨m1, m2, m3⟩ := mem_split ht
          exact fun x hx => (List.mem_append.1 hx).elim (fun h => H3 x (m2 x h)) (fun h => H3 x (m3 x h))
        | @enter pre post t ht =>
          obtain ⟨m1, m2, m3⟩ := mem_split ht
          intro x hx
          rcases mem3.1 hx with h | rfl | h
          · exact H3 x (m2 x h)
          · exact H3 t m1
          · exact H3 x (m3 x h)
        | @parent pre post t ht =>
          obtain ⟨m1, m2, m3⟩ := mem_split ht
          intro x hx hp
          rcases mem3.1 hx with h | rfl | h
          · exact H3 x (m2 x h) hp
          · have hp' : (hs t.at_).parent = none := hp
            show forward (s1.hs t.at_).parent = .none
            rw [fx, hp']; rfl
          · exact H3 x (m3 x h) hp
        | @print pre post t k ht =>
          obtain ⟨m1, m2, m3⟩ := mem_split ht
          intro x hx
          rcases mem3.1 hx with h | rfl | h
          · exact H3 x (m2 x h)
          · exact H3 t m1
          · exact H3 x (m3 x h)
        | @wait pre post t k ht =>
          obtain ⟨m1, m2, m3⟩ := mem_split ht
          intro x hx hp
          rcases mem3.1 hx with h | rfl | h
          · exact H3 x (m2 x h) hp
          · have hp' : (hs t.at_).parent = none := hp
            show left t.buf = .none
            rw [H3 t m1 hp']; rfl
          · rcases List.mem_append.1 h with h | h
            · exact hf h
            · exact H3 x (m3 x h) hp
        | fail ht =>
          obtain ⟨m1, m2, m3⟩ := mem_split ht
          intro x hx hp
          rcases mem4.1 hx with h | h | h
          · exact H3 x (m2 x h) hp
          · exact hf h
          · exact H3 x (m3 x h) hp
        | finish ht =>
          obtain ⟨m1, m2, m3⟩ := mem_split ht
          intro x hx hp
          rcases mem4.1 hx with h | h | h
          · exact H3 x (m2 x h) hp
          · exact hf h
          · exact H3 x (m3 x h) hp
      · intro e he a r hr hp
        rw [hl] at he
        rcases List.mem_append.1 he with he | he
        · exact H4 e he a r hr hp
        · obtain ⟨_, b, t, ht, htr, _, _, c⟩ := hl' e he
          have ha : t.at_ = a := by
            rw [hr] at htr; exact (List.cons.inj htr).1
          rw [b, c (by rw [H3 t ht (by rw [ha]; exact hp)]; simp)]
  refine (key _ _ ⟨inv_start .., inv2_start .., ?_, fun e he => (by cases he)⟩ h).2.2.2 e he a r hr hp
  intro t ht _
  rw [List.mem_singleton.1 ht]

end Verif.Log
