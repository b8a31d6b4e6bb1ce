import Verif.Rts.VInv
/-!
# The order of messages
-/
namespace Verif.Rts
open Verif Function

/-- The message whose creation an event records. -/
def orig : Event → Option Nat
  | .sent _ _ m => some m
  | .delayed _ m _ => some m
  | .ext _ m => some m
  | _ => none

/-- Where the messages are: queues `Q`, timer queue `T`, held by the timer handling `H`, and sent but
not yet posted `pd`. -/
structure OrdL (Q : Nat → List Nat) (T : List Nat) (H : Nat → List Nat) (pd : Nat → List Nat) (log : List Event)
    (dst : Nat → Nat) (base : Nat → Int) (n : Nat) : Prop where
  uniq : ∀ e e' m, e ∈ log → e' ∈ log → orig e = some m → orig e' = some m → e = e'
  lt : ∀ e m, e ∈ log → orig e = some m → m < n
  sdst : ∀ a r m, Event.sent a r m ∈ log → dst m = r
  ddst : ∀ a m d, Event.delayed a m d ∈ log → dst m = a ∧ base m = d
  kind : ∀ a m, m ∈ pd a → ∃ h, (Q a).head? = some h ∧ (base m = base h → Event.sent a (dst m) m ∈ log) ∧
    (base m ≠ base h → Event.delayed a m (base m) ∈ log)
  tkind : ∀ m, m ∈ T → ∃ a, Event.delayed a m (base m) ∈ log
  hkind : ∀ w m, m ∈ H w → ∃ a, Event.delayed a m (base m) ∈ log
  ord : ∀ a r, sends log a r = (finishedBy log r ++ Q r ++ pd a).filter (· ∈ sends log a r)
  del : ∀ a, delays log a = (queuedList log ++ pd a).filter (· ∈ delays log a)
  qkind : ∀ m, m ∈ queuedList log → ∃ a, m ∈ delays log a
  fin : ∀ r, (finishedBy log r).Nodup
  finlt : ∀ r m, m ∈ finishedBy log r → m < n ∧ dst m = r
  finQ : ∀ r m, m ∈ finishedBy log r → (∀ r', m ∉ Q r') ∧ m ∉ T ∧ (∀ w, m ∉ H w) ∧ ∀ a, m ∉ pd a
  tot : ∀ m, m < n → m ∈ finishedBy log (dst m) ∨ m ∈ Q (dst m) ∨ m ∈ T ∨ (∃ w, m ∈ H w) ∨ ∃ a, m ∈ pd a

variable {Q : Nat → List Nat} {T : List Nat} {H : Nat → List Nat} {pd : Nat → List Nat} {log : List Event}
  {dst : Nat → Nat} {base : Nat → Int} {n : Nat}

theorem filter_congr' {l : List Nat} {p q : Nat → Bool} (h : ∀ x ∈ l, p x = q x) : l.filter p = l.filter q :=
  List.filter_congr h

/-- Events that record neither creation, nor queueing, nor the end of a message. -/
def Event.quiet : Event → Prop
  | .sent .. => False
  | .delayed .. => False
  | .ext .. => False
  | .queued .. => False
  | .finished .. => False
  | _ => True

theorem OrdL.quiet (h : OrdL Q T H pd log dst base n) {e : Event} (he : e.quiet) :
    OrdL Q T H pd (log ++ [e]) dst base n := by
  have e1 : orig e = none := by cases e <;> simp_all [Event.quiet, orig]
  have e2 : ∀ a r, sends (log ++ [e]) a r = sends log a r := by intro a r; cases e <;> simp_all [Event.quiet, sends]
  have e3 : ∀ r, finishedBy (log ++ [e]) r = finishedBy log r := by intro r; cases e <;> simp_all [Event.quiet, finishedBy]
  have e4 : ∀ r, delays (log ++ [e]) r = delays log r := by intro r; cases e <;> simp_all [Event.quiet, delays]
  have e5 : queuedList (log ++ [e]) = queuedList log := by cases e <;> simp_all [Event.quiet, queuedList]
  have k1 : ∀ a r m, Event.sent a r m ∈ log ++ [e] ↔ Event.sent a r m ∈ log := by
    intro a r m; rw [← mem_sends, e2, mem_sends]
  have k2 : ∀ a m d, Event.delayed a m d ∈ log ++ [e] ↔ Event.delayed a m d ∈ log := by
    intro a m d; rw [List.mem_append, List.mem_singleton]
    refine ⟨fun h => h.resolve_right ?_, .inl⟩
    rintro rfl; exact he
  have k3 : ∀ e' m, e' ∈ log ++ [e] → orig e' = some m → e' ∈ log := by
    intro e' m h1 h2
    rw [List.mem_append, List.mem_singleton] at h1
    rcases h1 with h1 | rfl
    · exact h1
    · rw [e1] at h2; cases h2
  constructor
  · intro x y m h1 h2 h3 h4; exact h.uniq x y m (k3 x m h1 h3) (k3 y m h2 h4) h3 h4
  · intro x m h1 h2; exact h.lt x m (k3 x m h1 h2) h2
  · intro a r m; rw [k1]; exact h.sdst a r m
  · intro a m d; rw [k2]; exact h.ddst a m d
  · intro a m hm; simp only [k1, k2]; exact h.kind a m hm
  · intro m hm; simp only [k2]; exact h.tkind m hm
  · intro w m hm; simp only [k2]; exact h.hkind w m hm
  · intro a r; rw [e2, e3]; exact h.ord a r
  · intro a; rw [e4, e5]; exact h.del a
  · intro m; rw [e5]; simp only [e4]; exact h.qkind m
  · intro r; rw [e3]; exact h.fin r
  · intro r m; rw [e3]; exact h.finlt r m
  · intro r m; rw [e3]; exact h.finQ r m
  · intro m; rw [e3]; exact h.tot m

theorem OrdL.congr (h : OrdL Q T H pd log dst base n) {Q' : Nat → List Nat} {T' : List Nat} {H' pd' : Nat → List Nat}
    {dst' : Nat → Nat} {base' : Nat → Int} {n' : Nat}
    (h1 : ∀ a, Q' a = Q a) (h2 : T' = T) (h3 : ∀ w, H' w = H w) (h4 : ∀ a, pd' a = pd a) (h5 : ∀ m, dst' m = dst m)
    (h6 : ∀ m, base' m = base m) (h7 : n' = n) : OrdL Q' T' H' pd' log dst' base' n' := by
  have e1 : Q' = Q := funext h1
  have e3 : H' = H := funext h3
  have e4 : pd' = pd := funext h4
  have e5 : dst' = dst := funext h5
  have e6 : base' = base := funext h6
  rw [e1, h2, e3, e4, e5, e6, h7]
  exact h

/-- A new message of actor `a`. -/
theorem OrdL.send (h : OrdL Q T H pd log dst base n) {a m r : Nat} {d : Int} (hm : (Q a).head? = some m)
    (hd : d = 0 ∨ r = a) (hQ : ∀ a x, x ∈ Q a → x < n) (hT : ∀ x ∈ T, x < n) (hH : ∀ w x, x ∈ H w → x < n)
    (hpd : ∀ a x, x ∈ pd a → x < n) :
    OrdL Q T H (update pd a (pd a ++ [n]))
      (log ++ [if d = 0 then .sent a r n else .delayed a n (base m + d)]) (upd dst n r) (upd base n (base m + d)) (n + 1) := by
  generalize he : (if d = 0 then Event.sent a r n else .delayed a n (base m + d)) = e
  have e1 : orig e = some n := by subst he; split <;> rfl
  have e3 : ∀ r, finishedBy (log ++ [e]) r = finishedBy log r := by
    intro r'; subst he; split <;> simp [finishedBy]
  have e5 : queuedList (log ++ [e]) = queuedList log := by subst he; split <;> simp [queuedList]
  have hsl : ∀ a r x, x ∈ sends log a r → x < n := fun a r x hx => h.lt _ x ((mem_sends ..).1 hx) rfl
  have hdl : ∀ a x, x ∈ delays log a → x < n := fun a x hx => by
    obtain ⟨d, hd⟩ := (mem_delays ..).1 hx
    exact h.lt _ x hd rfl
  have hfl : ∀ r x, x ∈ finishedBy log r → x < n := fun r x hx => (h.finlt r x hx).1
  have hql : ∀ x, x ∈ queuedList log → x < n := fun x hx => by
    obtain ⟨a, ha⟩ := h.qkind x hx; exact hdl a x ha
  have hmn : m < n := hQ a m (List.mem_of_head? hm)
  have k3 : ∀ e' x, e' ∈ log ++ [e] → orig e' = some x → x < n ∧ e' ∈ log ∨ x = n ∧ e' = e := by
    intro e' x h1 h2
    rw [List.mem_append, List.mem_singleton] at h1
    rcases h1 with h1 | rfl
    · exact .inl ⟨h.lt _ _ h1 h2, h1⟩
    · rw [e1] at h2; cases h2; exact .inr ⟨rfl, rfl⟩
  have hn : ∀ x, x < n → x ≠ n := fun x hx => by omega
  have hS : ∀ a' r', sends (log ++ [e]) a' r' = sends log a' r' ++ if d = 0 ∧ a' = a ∧ r' = r then [n] else [] := by
    intro a' r'
    rw [sends_append]
    congr 1
    subst he
    by_cases h0 : d = 0
    · rw [if_pos h0]
      by_cases h1 : a = a' ∧ r = r'
      · simp [sends, h0, h1]
      · have : ¬ (a' = a ∧ r' = r) := fun hh => h1 ⟨hh.1.symm, hh.2.symm⟩
        simp [sends, h0, h1, this]
    · simp [sends, h0]
  have hD : ∀ a', delays (log ++ [e]) a' = delays log a' ++ if d ≠ 0 ∧ a' = a then [n] else [] := by
    intro a'
    rw [delays_append]
    congr 1
    subst he
    by_cases h0 : d = 0
    · simp [delays, h0]
    · rw [if_neg h0]
      by_cases h1 : a = a'
      · simp [delays, h0, h1]
      · simp [delays, h0, h1, Ne.symm h1]
  constructor
  · intro x y z h1 h2 h3 h4
    rcases k3 x z h1 h3 with ⟨g1, g2⟩ | ⟨g1, g2⟩ <;> rcases k3 y z h2 h4 with ⟨g3, g4⟩ | ⟨g3, g4⟩
    · exact h.uniq x y z g2 g4 h3 h4
    · omega
    · omega
    · rw [g2, g4]
  · intro x z h1 h2
    rcases k3 x z h1 h2 with ⟨g1, g2⟩ | ⟨g1, g2⟩ <;> omega
  · intro a' r' x hx
    rcases k3 _ x hx rfl with ⟨g1, g2⟩ | ⟨g1, g2⟩
    · rw [upd_ne _ (hn x g1)]; exact h.sdst _ _ _ g2
    · subst g1
      rw [upd_self]
      rw [← g2] at he
      split at he
      · cases he; rfl
      · cases he
  · intro a' x d' hx
    rcases k3 _ x hx rfl with ⟨g1, g2⟩ | ⟨g1, g2⟩
    · rw [upd_ne _ (hn x g1), upd_ne _ (hn x g1)]; exact h.ddst _ _ _ g2
    · subst g1
      rw [upd_self, upd_self]
      rw [← g2] at he
      split at he
      · cases he
      · rename_i h0
        cases he; exact ⟨hd.resolve_left h0, rfl⟩
  · intro a' x hx
    by_cases e' : a' = a
    · subst e'
      rw [update_self, List.mem_append, List.mem_singleton] at hx
      rcases hx with hx | hx
      · obtain ⟨y, g1, g2, g3⟩ := h.kind a' x hx
        have hxn := hn x (hpd _ _ hx)
        have hyn := hn y (hQ _ _ (List.mem_of_head? g1))
        refine ⟨y, g1, ?_, ?_⟩
        · rw [upd_ne _ hxn, upd_ne _ hyn, upd_ne _ hxn, List.mem_append]; intro g; exact .inl (g2 g)
        · rw [upd_ne _ hxn, upd_ne _ hyn, List.mem_append]; intro g; exact .inl (g3 g)
      · subst hx
        refine ⟨m, hm, ?_, ?_⟩
        · rw [upd_self, upd_ne _ (hn m hmn), upd_self]
          intro g
          have h0 : d = 0 := by omega
          rw [← he, if_pos h0]; simp
        · rw [upd_self, upd_ne _ (hn m hmn)]
          intro g
          have h0 : d ≠ 0 := by omega
          rw [← he, if_neg h0]; simp
    · rw [update_of_ne e'] at hx
      obtain ⟨y, g1, g2, g3⟩ := h.kind a' x hx
      have hxn := hn x (hpd _ _ hx)
      have hyn := hn y (hQ _ _ (List.mem_of_head? g1))
      refine ⟨y, g1, ?_, ?_⟩
      · rw [upd_ne _ hxn, upd_ne _ hyn, upd_ne _ hxn, List.mem_append]; intro g; exact .inl (g2 g)
      · rw [upd_ne _ hxn, upd_ne _ hyn, List.mem_append]; intro g; exact .inl (g3 g)
  · intro x hx
    obtain ⟨b, hb⟩ := h.tkind x hx
    exact ⟨b, by rw [upd_ne _ (hn x (hT x hx)), List.mem_append]; exact .inl hb⟩
  · intro w x hx
    obtain ⟨b, hb⟩ := h.hkind w x hx
    exact ⟨b, by rw [upd_ne _ (hn x (hH w x hx)), List.mem_append]; exact .inl hb⟩
  · intro a' r'
    rw [hS, e3]
    have hold := h.ord a' r'
    have hlt : ∀ x ∈ finishedBy log r' ++ Q r' ++ pd a', x < n := by
      intro x hx
      rw [List.mem_append, List.mem_append] at hx
      rcases hx with (hx | hx) | hx
      · exact hfl _ _ hx
      · exact hQ _ _ hx
      · exact hpd _ _ hx
    have hfe : (finishedBy log r' ++ Q r' ++ pd a').filter (fun x => decide (x ∈ sends log a' r' ++ if d = 0 ∧ a' = a ∧ r' = r then [n] else [])) =
        sends log a' r' := by
      rw [filter_congr' (q := (· ∈ sends log a' r')), ← hold]
      intro x hx
      have := hlt x hx
      congr 1
      rw [List.mem_append]
      simp only [eq_iff_iff, or_iff_left_iff_imp]
      intro h1
      split at h1
      · simp at h1; omega
      · simp at h1
    by_cases ea : a' = a
    · subst ea
      rw [update_self, ← List.append_assoc, List.filter_append, hfe]
      congr 1
      by_cases hc : d = 0 ∧ r' = r
      · simp [hc]
      · have : ¬ (n ∈ sends log a' r') := fun hx => hn n (hsl _ _ _ hx) rfl
        simp [hc, this]
    · rw [update_of_ne ea]
      rw [hfe]
      simp [ea]
  · intro a'
    rw [hD, e5]
    have hold := h.del a'
    have hlt : ∀ x ∈ queuedList log ++ pd a', x < n := by
      intro x hx
      rw [List.mem_append] at hx
      rcases hx with hx | hx
      · exact hql _ hx
      · exact hpd _ _ hx
    have hfe : (queuedList log ++ pd a').filter (fun x => decide (x ∈ delays log a' ++ if d ≠ 0 ∧ a' = a then [n] else [])) =
        delays log a' := by
      rw [filter_congr' (q := (· ∈ delays log a')), ← hold]
      intro x hx
      have := hlt x hx
      congr 1
      rw [List.mem_append]
      simp only [eq_iff_iff, or_iff_left_iff_imp]
      intro h1
      split at h1
      · simp at h1; omega
      · simp at h1
    by_cases ea : a' = a
    · subst ea
      rw [update_self, ← List.append_assoc, List.filter_append, hfe]
      congr 1
      by_cases hc : d = 0
      · have : ¬ (n ∈ delays log a') := fun hx => hn n (hdl _ _ hx) rfl
        simp [hc, this]
      · simp [hc]
    · rw [update_of_ne ea]
      rw [hfe]
      simp [ea]
  · intro x hx
    rw [e5] at hx
    obtain ⟨b, hb⟩ := h.qkind x hx
    exact ⟨b, by rw [hD, List.mem_append]; exact .inl hb⟩
  · intro r'; rw [e3]; exact h.fin r'
  · intro r' x; rw [e3]; intro hx
    have := h.finlt r' x hx
    rw [upd_ne _ (hn x this.1)]
    exact ⟨by omega, this.2⟩
  · intro r' x; rw [e3]; intro hx
    obtain ⟨g1, g2, g3, g4⟩ := h.finQ r' x hx
    refine ⟨g1, g2, g3, ?_⟩
    intro a' hx'
    by_cases ea : a' = a
    · subst ea
      rw [update_self, List.mem_append, List.mem_singleton] at hx'
      rcases hx' with hx' | hx'
      · exact g4 _ hx'
      · exact hn x (hfl _ _ hx) hx'
    · rw [update_of_ne ea] at hx'; exact g4 _ hx'
  · intro x hx
    rw [e3]
    by_cases ex : x = n
    · subst ex
      exact .inr (.inr (.inr (.inr ⟨a, by simp⟩)))
    · rw [upd_ne _ ex]
      rcases h.tot x (by omega) with g | g | g | g | ⟨b, hb⟩
      · exact .inl g
      · exact .inr (.inl g)
      · exact .inr (.inr (.inl g))
      · exact .inr (.inr (.inr (.inl g)))
      · refine .inr (.inr (.inr (.inr ⟨b, ?_⟩)))
        by_cases eb : b = a
        · subst eb; rw [update_self, List.mem_append]; exact .inl hb
        · rw [update_of_ne eb]; exact hb

end Verif.Rts
