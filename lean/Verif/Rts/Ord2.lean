import Verif.Rts.Ord
/-!
# The order of messages: the steps that move a message
-/
namespace Verif.Rts
open Verif Function

variable {Q : Nat → List Nat} {T : List Nat} {H : Nat → List Nat} {pd : Nat → List Nat} {log : List Event}
  {dst : Nat → Nat} {base : Nat → Int} {n : Nat}

theorem head_snoc {l : List Nat} {h x : Nat} (hh : l.head? = some h) : (l ++ [x]).head? = some h := by
  cases l with
  | nil => simp at hh
  | cons => simpa using hh

theorem OrdL.not_sent (h : OrdL Q T H pd log dst base n) {a x r b : Nat} {d : Int} (hx : Event.delayed a x d ∈ log) :
    x ∉ sends log b r := by
  intro hs
  have := h.uniq _ _ x hx ((mem_sends ..).1 hs) rfl rfl
  cases this

/-- The queue of `b` gets a message that was not sent by an actor for immediate delivery. -/
theorem ord_append {l1 q l2 : List Nat} {p : Nat → Bool} {x : Nat} (hx : p x = false) :
    (l1 ++ (q ++ [x]) ++ l2).filter p = (l1 ++ q ++ l2).filter p := by
  simp [List.filter_append, hx]

/-- A message goes from its sender to its receiver. -/
theorem OrdL.now (h : OrdL Q T H pd log dst base n) {a x y : Nat} {t : List Nat} (hx : pd a = x :: t)
    (hy : (Q a).head? = some y) (hb : base x = base y) :
    OrdL (update Q (dst x) (Q (dst x) ++ [x])) T H (update pd a t) log dst base n := by
  have hxm : x ∈ pd a := by rw [hx]; simp
  obtain ⟨y', g1, g2, -⟩ := h.kind a x hxm
  rw [hy] at g1
  cases g1
  have hs := g2 hb
  have hsub : ∀ b z, z ∈ update pd a t b → z ∈ pd b := by
    intro b z hz
    by_cases e : b = a
    · subst e; rw [update_self] at hz; rw [hx]; simp [hz]
    · rw [update_of_ne e] at hz; exact hz
  refine ⟨h.uniq, h.lt, h.sdst, h.ddst, ?_, h.tkind, h.hkind, ?_, ?_, h.qkind, h.fin, h.finlt, ?_, ?_⟩
  · intro b z hz
    obtain ⟨u, k1, k2, k3⟩ := h.kind b z (hsub b z hz)
    refine ⟨u, ?_, k2, k3⟩
    by_cases e : b = dst x
    · subst e; rw [update_self]; exact head_snoc k1
    · rw [update_of_ne e]; exact k1
  · intro b r
    have hold := h.ord b r
    have hno : ∀ b', x ∈ sends log b' r → b' = a ∧ r = dst x := by
      intro b' hm
      have := h.uniq _ _ x hs ((mem_sends ..).1 hm) rfl rfl
      cases this
      exact ⟨rfl, rfl⟩
    by_cases e : r = dst x
    · subst e
      rw [update_self]
      by_cases eb : b = a
      · subst eb
        rw [update_self]
        rw [hx] at hold
        simpa using hold
      · rw [update_of_ne eb, ord_append]
        · exact hold
        · simp only [decide_eq_false_iff_not]; intro hm; exact eb (hno _ hm).1
    · rw [update_of_ne e]
      by_cases eb : b = a
      · subst eb
        rw [update_self]
        rw [hx] at hold
        have : x ∉ sends log b r := fun hm => e (hno _ hm).2
        rw [show finishedBy log r ++ Q r ++ x :: t = (finishedBy log r ++ Q r) ++ ([x] ++ t) from rfl,
          List.filter_append (l₂ := [x] ++ t), List.filter_append (l₂ := t)] at hold
        rw [List.filter_append]
        rw [show [x].filter (fun z => decide (z ∈ sends log b r)) = [] by simp [this], List.nil_append] at hold
        exact hold
      · rw [update_of_ne eb]; exact hold
  · intro b
    by_cases eb : b = a
    · subst eb
      have hold := h.del b
      rw [update_self]
      rw [hx] at hold
      have : x ∉ delays log b := by
        intro hm
        obtain ⟨d, hd⟩ := (mem_delays ..).1 hm
        have := h.uniq _ _ x hs hd rfl rfl
        cases this
      rw [List.filter_append, List.filter_cons, if_neg (by simpa using this)] at hold
      rw [List.filter_append]
      exact hold
    · rw [update_of_ne eb]; exact h.del b
  · intro r z hz
    obtain ⟨k1, k2, k3, k4⟩ := h.finQ r z hz
    refine ⟨?_, k2, k3, fun b hm => k4 b (hsub b z hm)⟩
    intro r' hm
    by_cases e : r' = dst x
    · subst e
      rw [update_self, List.mem_append, List.mem_singleton] at hm
      rcases hm with hm | hm
      · exact k1 _ hm
      · subst hm; exact k4 _ hxm
    · rw [update_of_ne e] at hm; exact k1 _ hm
  · intro z hz
    rcases h.tot z hz with g | g | g | g | ⟨b, hb⟩
    · exact .inl g
    · refine .inr (.inl ?_)
      by_cases e : dst z = dst x
      · rw [e, update_self, List.mem_append]; rw [e] at g; exact .inl g
      · rw [update_of_ne e]; exact g
    · exact .inr (.inr (.inl g))
    · exact .inr (.inr (.inr (.inl g)))
    · by_cases e : z = x
      · subst e; refine .inr (.inl ?_); rw [update_self]; simp
      · refine .inr (.inr (.inr (.inr ⟨b, ?_⟩)))
        by_cases eb : b = a
        · subst eb; rw [update_self]; rw [hx, List.mem_cons] at hb; exact hb.resolve_left e
        · rw [update_of_ne eb]; exact hb

/-- A delayed message goes to the timer queue. -/
theorem OrdL.queue (h : OrdL Q T H pd log dst base n) {a x y : Nat} {t T' : List Nat} (hx : pd a = x :: t)
    (hy : (Q a).head? = some y) (hb : base x ≠ base y) (hT : ∀ z, z ∈ T' ↔ z = x ∨ z ∈ T) :
    OrdL Q T' H (update pd a t) (log ++ [.queued x (base x)]) dst base n := by
  have hxm : x ∈ pd a := by rw [hx]; simp
  obtain ⟨y', g1, -, g2⟩ := h.kind a x hxm
  rw [hy] at g1
  cases g1
  have hs := g2 hb
  have hsub : ∀ b z, z ∈ update pd a t b → z ∈ pd b := by
    intro b z hz
    by_cases e : b = a
    · subst e; rw [update_self] at hz; rw [hx]; simp [hz]
    · rw [update_of_ne e] at hz; exact hz
  have e2 : ∀ b r, sends (log ++ [.queued x (base x)]) b r = sends log b r := by intro b r; simp [sends]
  have e3 : ∀ r, finishedBy (log ++ [.queued x (base x)]) r = finishedBy log r := by intro r; simp [finishedBy]
  have e4 : ∀ r, delays (log ++ [.queued x (base x)]) r = delays log r := by intro r; simp [delays]
  have e5 : queuedList (log ++ [.queued x (base x)]) = queuedList log ++ [x] := by simp [queuedList]
  have k1 : ∀ e', (orig e').isSome → (e' ∈ log ++ [.queued x (base x)] ↔ e' ∈ log) := by
    intro e' h1
    rw [List.mem_append, List.mem_singleton]
    refine ⟨fun h => h.resolve_right ?_, .inl⟩
    rintro rfl; simp [orig] at h1
  refine ⟨?_, ?_, ?_, ?_, ?_, ?_, ?_, ?_, ?_, ?_, ?_, ?_, ?_, ?_⟩
  · intro e e' m h1 h2 h3 h4
    exact h.uniq e e' m ((k1 e (by rw [h3]; rfl)).1 h1) ((k1 e' (by rw [h4]; rfl)).1 h2) h3 h4
  · intro e m h1 h2
    exact h.lt e m ((k1 e (by rw [h2]; rfl)).1 h1) h2
  · intro b r m hm; exact h.sdst b r m ((k1 _ rfl).1 hm)
  · intro b m d hm; exact h.ddst b m d ((k1 _ rfl).1 hm)
  · intro b z hz
    rw [k1 _ rfl, k1 _ rfl]
    exact h.kind b z (hsub b z hz)
  · intro z hz
    rcases (hT z).1 hz with rfl | hz
    · exact ⟨a, (k1 _ rfl).2 hs⟩
    · obtain ⟨b, hb⟩ := h.tkind z hz
      exact ⟨b, (k1 _ rfl).2 hb⟩
  · intro w z hz
    obtain ⟨b, hb⟩ := h.hkind w z hz
    exact ⟨b, (k1 _ rfl).2 hb⟩
  · intro b r
    rw [e2, e3]
    by_cases eb : b = a
    · subst eb
      have hold := h.ord b r
      rw [update_self]
      rw [hx, List.filter_append, List.filter_cons, if_neg (by simpa using h.not_sent hs)] at hold
      rw [List.filter_append]
      exact hold
    · rw [update_of_ne eb]; exact h.ord b r
  · intro b
    rw [e4, e5]
    have hold := h.del b
    by_cases eb : b = a
    · subst eb
      rw [update_self]
      rw [hx] at hold
      simpa using hold
    · rw [update_of_ne eb]
      have : x ∉ delays log b := by
        intro hm
        obtain ⟨d, hd⟩ := (mem_delays ..).1 hm
        have := h.uniq _ _ x hs hd rfl rfl
        cases this
        exact eb rfl
      rw [List.append_assoc, List.filter_append, List.filter_append (l₁ := [x])]
      rw [List.filter_append] at hold
      simpa [this] using hold
  · intro z hz
    rw [e5, List.mem_append, List.mem_singleton] at hz
    rcases hz with hz | rfl
    · obtain ⟨b, hb⟩ := h.qkind z hz
      exact ⟨b, by rw [e4]; exact hb⟩
    · exact ⟨a, by rw [e4, mem_delays]; exact ⟨_, hs⟩⟩
  · intro r; rw [e3]; exact h.fin r
  · intro r m; rw [e3]; exact h.finlt r m
  · intro r z hz
    rw [e3] at hz
    obtain ⟨k1, k2, k3, k4⟩ := h.finQ r z hz
    refine ⟨k1, ?_, k3, fun b hm => k4 b (hsub b z hm)⟩
    intro hm
    rcases (hT z).1 hm with rfl | hm
    · exact k4 _ hxm
    · exact k2 hm
  · intro z hz
    rw [e3]
    rcases h.tot z hz with g | g | g | g | ⟨b, hb⟩
    · exact .inl g
    · exact .inr (.inl g)
    · exact .inr (.inr (.inl ((hT z).2 (.inr g))))
    · exact .inr (.inr (.inr (.inl g)))
    · by_cases e : z = x
      · exact .inr (.inr (.inl ((hT z).2 (.inl e))))
      · refine .inr (.inr (.inr (.inr ⟨b, ?_⟩)))
        by_cases eb : b = a
        · subst eb; rw [update_self]; rw [hx, List.mem_cons] at hb; exact hb.resolve_left e
        · rw [update_of_ne eb]; exact hb

/-- A message is done. -/
theorem OrdL.deq (h : OrdL Q T H pd log dst base n) {a x : Nat} {t : List Nat} (hx : Q a = x :: t) (hpd : pd a = [])
    (hdst : dst x = a) (hn : x < n) (h1 : x ∉ t) (h2 : ∀ r, r ≠ a → x ∉ Q r) (h3 : x ∉ T) (h4 : ∀ w, x ∉ H w) (h5 : ∀ b, x ∉ pd b) :
    OrdL (update Q a t) T H pd (log ++ [.finished a x]) dst base n := by
  have e2 : ∀ b r, sends (log ++ [.finished a x]) b r = sends log b r := by intro b r; simp [sends]
  have e3 : ∀ r, finishedBy (log ++ [.finished a x]) r = finishedBy log r ++ if r = a then [x] else [] := by
    intro r
    rw [finishedBy_append]
    congr 1
    by_cases e : a = r
    · simp [finishedBy, e]
    · simp [finishedBy, e, Ne.symm e]
  have e4 : ∀ r, delays (log ++ [.finished a x]) r = delays log r := by intro r; simp [delays]
  have e5 : queuedList (log ++ [.finished a x]) = queuedList log := by simp [queuedList]
  have k1 : ∀ e', (orig e').isSome → (e' ∈ log ++ [.finished a x] ↔ e' ∈ log) := by
    intro e' h1
    rw [List.mem_append, List.mem_singleton]
    refine ⟨fun h => h.resolve_right ?_, .inl⟩
    rintro rfl; simp [orig] at h1
  have hxQ : x ∈ Q a := by rw [hx]; simp
  have hnf : ∀ r, x ∉ finishedBy log r := fun r hm => (h.finQ r x hm).1 a hxQ
  refine ⟨?_, ?_, ?_, ?_, ?_, ?_, ?_, ?_, ?_, ?_, ?_, ?_, ?_, ?_⟩
  · intro e e' m h1 h2 h3 h4
    exact h.uniq e e' m ((k1 e (by rw [h3]; rfl)).1 h1) ((k1 e' (by rw [h4]; rfl)).1 h2) h3 h4
  · intro e m h1 h2
    exact h.lt e m ((k1 e (by rw [h2]; rfl)).1 h1) h2
  · intro b r m hm; exact h.sdst b r m ((k1 _ rfl).1 hm)
  · intro b m d hm; exact h.ddst b m d ((k1 _ rfl).1 hm)
  · intro b z hz
    rw [k1 _ rfl, k1 _ rfl]
    have : b ≠ a := by rintro rfl; rw [hpd] at hz; simp at hz
    rw [update_of_ne this]
    exact h.kind b z hz
  · intro z hz
    obtain ⟨b, hb⟩ := h.tkind z hz
    exact ⟨b, (k1 _ rfl).2 hb⟩
  · intro w z hz
    obtain ⟨b, hb⟩ := h.hkind w z hz
    exact ⟨b, (k1 _ rfl).2 hb⟩
  · intro b r
    rw [e2, e3]
    have hold := h.ord b r
    by_cases e : r = a
    · subst e
      rw [update_self, if_pos rfl]
      rw [hx] at hold
      simpa using hold
    · rw [update_of_ne e, if_neg e, List.append_nil]; exact hold
  · intro b; rw [e4, e5]; exact h.del b
  · intro z; rw [e5]; simp only [e4]; exact h.qkind z
  · intro r
    rw [e3]
    split
    · rw [List.nodup_append]
      refine ⟨h.fin r, by simp, ?_⟩
      intro z hz y hy
      simp at hy
      subst hy
      rintro rfl
      exact hnf r hz
    · rw [List.append_nil]; exact h.fin r
  · intro r z hz
    rw [e3, List.mem_append] at hz
    rcases hz with hz | hz
    · exact h.finlt r z hz
    · split at hz
      · simp at hz; subst hz; rename_i e; subst e; exact ⟨hn, hdst⟩
      · simp at hz
  · intro r z hz
    rw [e3, List.mem_append] at hz
    rcases hz with hz | hz
    · obtain ⟨j1, j2, j3, j4⟩ := h.finQ r z hz
      refine ⟨?_, j2, j3, j4⟩
      intro r' hm
      by_cases e : r' = a
      · rw [e, update_self] at hm; exact j1 a (by rw [hx]; simp [hm])
      · rw [update_of_ne e] at hm; exact j1 _ hm
    · split at hz
      · simp at hz; subst hz
        refine ⟨?_, h3, h4, h5⟩
        intro r' hm
        by_cases e : r' = a
        · subst e; rw [update_self] at hm; exact h1 hm
        · rw [update_of_ne e] at hm; exact h2 _ e hm
      · simp at hz
  · intro z hz
    rw [e3]
    rcases h.tot z hz with g | g | g
    · exact .inl (by rw [List.mem_append]; exact .inl g)
    · by_cases e : dst z = a
      · rw [e] at g ⊢
        rw [hx, List.mem_cons] at g
        rcases g with g | g
        · left; rw [List.mem_append]; right; simp [g]
        · right; left; rw [update_self]; exact g
      · right; left; rw [update_of_ne e]; exact g
    · exact .inr (.inr g)

/-- The message held by the timer handling goes to its receiver. -/
theorem OrdL.unhold (h : OrdL Q T H pd log dst base n) {w x : Nat} (hx : H w = [x]) :
    OrdL (update Q (dst x) (Q (dst x) ++ [x])) T (update H w []) pd log dst base n := by
  have hxm : x ∈ H w := by rw [hx]; simp
  obtain ⟨a, hs⟩ := h.hkind w x hxm
  refine ⟨h.uniq, h.lt, h.sdst, h.ddst, ?_, h.tkind, ?_, ?_, h.del, h.qkind, h.fin, h.finlt, ?_, ?_⟩
  · intro b z hz
    obtain ⟨u, k1, k2, k3⟩ := h.kind b z hz
    refine ⟨u, ?_, k2, k3⟩
    by_cases e : b = dst x
    · subst e; rw [update_self]; exact head_snoc k1
    · rw [update_of_ne e]; exact k1
  · intro w' z hz
    by_cases e : w' = w
    · subst e; simp at hz
    · rw [update_of_ne e] at hz; exact h.hkind w' z hz
  · intro b r
    have hold := h.ord b r
    by_cases e : r = dst x
    · subst e
      rw [update_self, ord_append]
      · exact hold
      · simpa using h.not_sent hs
    · rw [update_of_ne e]; exact hold
  · intro r z hz
    obtain ⟨k1, k2, k3, k4⟩ := h.finQ r z hz
    refine ⟨?_, k2, ?_, k4⟩
    · intro r' hm
      by_cases e : r' = dst x
      · subst e
        rw [update_self, List.mem_append, List.mem_singleton] at hm
        rcases hm with hm | hm
        · exact k1 _ hm
        · subst hm; exact k3 _ hxm
      · rw [update_of_ne e] at hm; exact k1 _ hm
    · intro w' hm
      by_cases e : w' = w
      · subst e; simp at hm
      · rw [update_of_ne e] at hm; exact k3 w' hm
  · intro z hz
    rcases h.tot z hz with g | g | g | ⟨w', g⟩ | g
    · exact .inl g
    · refine .inr (.inl ?_)
      by_cases e : dst z = dst x
      · rw [e, update_self, List.mem_append]; rw [e] at g; exact .inl g
      · rw [update_of_ne e]; exact g
    · exact .inr (.inr (.inl g))
    · by_cases e : w' = w
      · subst e
        rw [hx, List.mem_singleton] at g
        subst g
        right; left; rw [update_self]; simp
      · exact .inr (.inr (.inr (.inl ⟨w', by rw [update_of_ne e]; exact g⟩)))
    · exact .inr (.inr (.inr (.inr g)))

/-- The timer handling takes a message. -/
theorem OrdL.fire (h : OrdL Q T H pd log dst base n) {w x : Nat} {t : List Nat} (hx : T = x :: t) (hw : H w = []) {now : Int} :
    OrdL Q t (update H w [x]) pd (log ++ [.fired x now]) dst base n := by
  have h := h.quiet (e := .fired x now) trivial
  have hxm : x ∈ T := by rw [hx]; simp
  refine ⟨h.uniq, h.lt, h.sdst, h.ddst, h.kind, ?_, ?_, h.ord, h.del, h.qkind, h.fin, h.finlt, ?_, ?_⟩
  · intro z hz; exact h.tkind z (by rw [hx]; simp [hz])
  · intro w' z hz
    by_cases e : w' = w
    · subst e; simp at hz; subst hz; exact h.tkind z hxm
    · rw [update_of_ne e] at hz; exact h.hkind w' z hz
  · intro r z hz
    obtain ⟨k1, k2, k3, k4⟩ := h.finQ r z hz
    refine ⟨k1, fun hm => k2 (by rw [hx]; simp [hm]), ?_, k4⟩
    intro w' hm
    by_cases e : w' = w
    · subst e; simp at hm; subst hm; exact k2 hxm
    · rw [update_of_ne e] at hm; exact k3 w' hm
  · intro z hz
    rcases h.tot z hz with g | g | g | ⟨w', g⟩ | g
    · exact .inl g
    · exact .inr (.inl g)
    · rw [hx, List.mem_cons] at g
      rcases g with g | g
      · exact .inr (.inr (.inr (.inl ⟨w, by simp [g]⟩)))
      · exact .inr (.inr (.inl g))
    · have : w' ≠ w := by rintro rfl; rw [hw] at g; simp at g
      exact .inr (.inr (.inr (.inl ⟨w', by rw [update_of_ne this]; exact g⟩)))
    · exact .inr (.inr (.inr (.inr g)))

/-- A call from outside. -/
theorem OrdL.ext (h : OrdL Q T H pd log dst base n) {r : Nat} {b : Int} (hQ : ∀ a x, x ∈ Q a → x < n) (hT : ∀ x ∈ T, x < n)
    (hH : ∀ w x, x ∈ H w → x < n) (hpd : ∀ a x, x ∈ pd a → x < n) :
    OrdL (update Q r (Q r ++ [n])) T H pd (log ++ [.ext r n]) (upd dst n r) (upd base n b) (n + 1) := by
  have e2 : ∀ b r', sends (log ++ [.ext r n]) b r' = sends log b r' := by intro b r'; simp [sends]
  have e3 : ∀ r', finishedBy (log ++ [.ext r n]) r' = finishedBy log r' := by intro r'; simp [finishedBy]
  have e4 : ∀ r', delays (log ++ [.ext r n]) r' = delays log r' := by intro r'; simp [delays]
  have e5 : queuedList (log ++ [.ext r n]) = queuedList log := by simp [queuedList]
  have hn : ∀ x, x < n → x ≠ n := fun x hx => by omega
  have hfl : ∀ r x, x ∈ finishedBy log r → x < n := fun r x hx => (h.finlt r x hx).1
  have k1 : ∀ a r' m, Event.sent a r' m ∈ log ++ [.ext r n] ↔ Event.sent a r' m ∈ log := by simp
  have k2 : ∀ a m d, Event.delayed a m d ∈ log ++ [.ext r n] ↔ Event.delayed a m d ∈ log := by simp
  have k3 : ∀ e' x, e' ∈ log ++ [Event.ext r n] → orig e' = some x → x < n ∧ e' ∈ log ∨ x = n ∧ e' = .ext r n := by
    intro e' x h1 h2
    rw [List.mem_append, List.mem_singleton] at h1
    rcases h1 with h1 | rfl
    · exact .inl ⟨h.lt _ _ h1 h2, h1⟩
    · cases h2; exact .inr ⟨rfl, rfl⟩
  refine ⟨?_, ?_, ?_, ?_, ?_, ?_, ?_, ?_, ?_, ?_, ?_, ?_, ?_, ?_⟩
  · intro x y z h1 h2 h3 h4
    rcases k3 x z h1 h3 with ⟨g1, g2⟩ | ⟨g1, g2⟩ <;> rcases k3 y z h2 h4 with ⟨g3, g4⟩ | ⟨g3, g4⟩
    · exact h.uniq x y z g2 g4 h3 h4
    · omega
    · omega
    · rw [g2, g4]
  · intro x z h1 h2
    rcases k3 x z h1 h2 with ⟨g1, g2⟩ | ⟨g1, g2⟩ <;> omega
  · intro a r' m hm
    rw [k1] at hm
    rw [upd_ne _ (hn m (h.lt _ _ hm rfl))]; exact h.sdst _ _ _ hm
  · intro a m d hm
    rw [k2] at hm
    rw [upd_ne _ (hn m (h.lt _ _ hm rfl)), upd_ne _ (hn m (h.lt _ _ hm rfl))]; exact h.ddst _ _ _ hm
  · intro a m hm
    obtain ⟨u, g1, g2, g3⟩ := h.kind a m hm
    have hm' := hn m (hpd a m hm)
    have hu := hn u (hQ a u (List.mem_of_head? g1))
    refine ⟨u, ?_, ?_⟩
    · by_cases e : a = r
      · subst e; rw [update_self]; exact head_snoc g1
      · rw [update_of_ne e]; exact g1
    · rw [upd_ne _ hm', upd_ne _ hu, upd_ne _ hm', k1, k2]; exact ⟨g2, g3⟩
  · intro m hm
    rw [upd_ne _ (hn m (hT m hm))]; simp only [k2]; exact h.tkind m hm
  · intro w m hm
    rw [upd_ne _ (hn m (hH w m hm))]; simp only [k2]; exact h.hkind w m hm
  · intro a r'
    rw [e2, e3]
    by_cases e : r' = r
    · subst e
      rw [update_self, ord_append]
      · exact h.ord a r'
      · simp only [decide_eq_false_iff_not]
        intro hm
        exact hn n (h.lt _ _ ((mem_sends ..).1 hm) rfl) rfl
    · rw [update_of_ne e]; exact h.ord a r'
  · intro a; rw [e4, e5]; exact h.del a
  · intro m; rw [e5]; simp only [e4]; exact h.qkind m
  · intro r'; rw [e3]; exact h.fin r'
  · intro r' m hm
    rw [e3] at hm
    have := h.finlt r' m hm
    rw [upd_ne _ (hn m this.1)]
    exact ⟨by omega, this.2⟩
  · intro r' m hm
    rw [e3] at hm
    obtain ⟨g1, g2, g3, g4⟩ := h.finQ r' m hm
    refine ⟨?_, g2, g3, g4⟩
    intro b hb
    by_cases e : b = r
    · subst e
      rw [update_self, List.mem_append, List.mem_singleton] at hb
      rcases hb with hb | hb
      · exact g1 _ hb
      · exact hn m (hfl _ _ hm) hb
    · rw [update_of_ne e] at hb; exact g1 _ hb
  · intro m hm
    rw [e3]
    by_cases e : m = n
    · subst e; right; left; rw [upd_self, update_self]; simp
    · rw [upd_ne _ e]
      rcases h.tot m (by omega) with g | g | g
      · exact .inl g
      · right; left
        by_cases e' : dst m = r
        · rw [e'] at g ⊢; rw [update_self, List.mem_append]; exact .inl g
        · rw [update_of_ne e']; exact g
      · exact .inr (.inr g)

end Verif.Rts
