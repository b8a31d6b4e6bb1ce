import Verif.Rts.Ord3
/-!
# The order of messages is preserved
-/
namespace Verif.Rts
open Verif Function

variable {v v' : V} {pd : Nat → List Nat}

section
variable (a m : Nat) (p : Option Nat) (k : After)
theorem flOf_contPh : flOf (contPh a m p k) = if p = none then none else some a := by
  cases p <;> cases k <;> rfl
theorem revOf_contPh : revOf (contPh a m p k) = none := by cases p <;> cases k <;> rfl
theorem endOf_contPh : endOf (contPh a m p k) = if p = none ∧ k ≠ .added then some a else none := by
  cases p <;> cases k <;> rfl
theorem poster_contPh' : poster (contPh a m p k) = if p ≠ none ∧ k = .added then some a else none := by
  cases p <;> cases k <;> simp [contPh, poster]
theorem flOf_wakePh (mark x : Nat) : flOf (wakePh a m mark x p) = none := by cases p <;> rfl
theorem revOf_wakePh (mark x : Nat) : revOf (wakePh a m mark x p) = none := by cases p <;> rfl
theorem endOf_wakePh (mark x : Nat) : endOf (wakePh a m mark x p) = some a := by cases p <;> rfl
theorem flOf_enqPh (q : List Nat) (b : Nat) (P : Phase) : flOf (enqPh q b P) = flOf P := by unfold enqPh; split <;> rfl
theorem revOf_enqPh (q : List Nat) (b : Nat) (P : Phase) : revOf (enqPh q b P) = revOf P := by unfold enqPh; split <;> rfl
theorem endOf_enqPh (q : List Nat) (b : Nat) (P : Phase) : endOf (enqPh q b P) = endOf P := by unfold enqPh; split <;> rfl
theorem poster_enqPh (q : List Nat) (b : Nat) (P : Phase) : poster (enqPh q b P) = poster P := by unfold enqPh; split <;> rfl
end

theorem handles_flush (a m : Nat) (k : After) : Handles (.flush a m k) a := by
  simp only [Handles, owner, poster]; split <;> simp

theorem handles_loop (a m x : Nat) (k : After) : Handles (.loop a m x k) a := by
  simp only [Handles, owner, poster]; split <;> simp

/-- An actor that a worker owns does not wait. -/
theorem VI.own_nowait (h : VI v) {w a : Nat} (ho : owner (v.wk w) = some a) : v.wf a = none := by
  by_contra hn
  have hm : a ∈ v.al (.own w) := by rw [h.own, ho]; simp
  rcases h.nowait a hn with ⟨x, hx⟩ | ⟨w', hx⟩
  · have := h.Adisj _ _ a hm hx; cases this
  · have := h.Adisj _ _ a hm hx; cases this

theorem ord_init : Ord (view init (fun _ => []) (fun _ => [])) := by
  refine ⟨fun _ => [], ?_, ?_, ?_⟩
  · constructor <;> simp [view, init, flOf, revOf, endOf]
  · constructor <;> simp [view, init, sends, finishedBy, delays, queuedList]
  · intro L1 L2 r m c x h
    simp [view, init] at h

/-- Steps of a worker that owns an actor and neither sends nor flushes. -/
theorem ord_quiet (hv : VI v) (ho : OrdP v pd) (hl : VOrdL v pd) {w a : Nat} {P : Phase} {att : Nat → Att} {wf : Nat → Option Nat} {al : ALoc → List Nat}
    {log : List Event} (ha : Handles (v.wk w) a)
    (hlog : log = v.log ∨ ∃ e : Event, e.quiet ∧ log = v.log ++ [e]) (hr : RanOrd log)
    (hatt : ∀ m, (att m).dst = (v.att m).dst ∧ (att m).base = (v.att m).base)
    (hwf : ∀ b, b ≠ a → wf b = v.wf b ∨ wf b = none)
    (hcur : ∀ b, flOf P = some b ∨ revOf P = some b ∨ endOf P = some b → b = a)
    (k1 : flOf P = some a → flOf (v.wk w) = some a)
    (k2 : revOf P = some a → revOf (v.wk w) = some a)
    (k3 : flOf P = none → revOf P = none → flOf (v.wk w) = none ∧ revOf (v.wk w) = none)
    (k4 : endOf P = some a → endOf (v.wk w) = some a)
    (k5 : pd a ≠ [] → poster P = some a ∨ wf a = none) :
    Ord { v with att := att, wf := wf, wk := upd v.wk w P, al := al, log := log } := by
  refine ⟨pd, ?_, ?_, hr⟩
  · refine ordP_step ho hv ha (v' := { v with att := att, wf := wf, wk := upd v.wk w P, al := al, log := log })
      (fun w' hw' => upd_ne _ hw' _) (fun _ _ => rfl) (fun _ _ => rfl) (fun _ _ => rfl) hwf ?_ ?_ ?_ ?_ ?_ ?_
    all_goals simp only [upd_self]
    · exact hcur
    · intro h1; exact ho.fl w a (k1 h1)
    · intro h1; exact ho.rev w a (k2 h1)
    · intro h1 h2
      obtain ⟨h3, h4⟩ := k3 h1 h2
      apply ho.free
      intro w'
      by_cases e : w' = w
      · subst e; rw [h3, h4]; simp
      · constructor
        · intro h5; exact e (hv.handles (handles_of (.inl h5)) ha)
        · intro h5; exact e (hv.handles (handles_of (.inr (.inl h5))) ha)
    · intro h1; exact ho.end_ w a (k4 h1)
    · exact k5
  · have : OrdL (fun a => v.ml (.mq a)) (v.ml .timer) (fun w => v.ml (.held w)) pd log (fun m => (v.att m).dst)
      (fun m => (v.att m).base) v.nmsg := by
      rcases hlog with rfl | ⟨e, he, rfl⟩
      · exact hl
      · exact hl.quiet he
    exact this.congr (fun _ => rfl) rfl (fun _ => rfl) (fun _ => rfl) (fun m => (hatt m).1) (fun m => (hatt m).2) rfl

theorem upd_att_pres (f : Nat → Att) (m : Nat) (x : Att) (h1 : x.dst = (f m).dst) (h2 : x.base = (f m).base) (y : Nat) :
    (upd f m x y).dst = (f y).dst ∧ (upd f m x y).base = (f y).base := by
  by_cases e : y = m
  · subst e; rw [upd_self]; exact ⟨h1, h2⟩
  · rw [upd_ne _ e]; exact ⟨rfl, rfl⟩

theorem ord_step (hv : VI v) (hv' : VI v') {W : Nat → Nat → Prop} (hs : AStep W v v') (h : Ord v) : Ord v' := by
  obtain ⟨pd, ho, hl, hr⟩ := h
  cases hs with
  | skip => exact ⟨pd, ho, hl, hr⟩
  | noFire now hb =>
    refine ⟨pd, ⟨ho.fl, ho.rev, ho.free, ho.end_, ho.stuck⟩, ?_, ranOrd_other hr (by simp)⟩
    exact OrdL.quiet hl trivial
  | take w i r t hw hr' hg =>
    refine ⟨pd, ordP_idle ho (w := w) (by rw [hw]; simp [flOf, revOf, poster]) (fun w' hw' => upd_ne _ hw' _) (fun _ _ => rfl)
      (fun _ => rfl) (fun _ => rfl) (by simp [flOf, revOf, endOf]), hl, hr⟩
  | got w a m hw hm hf =>
    refine ord_quiet hv ho hl (a := a) (by rw [hw]; exact .inl rfl) (.inr ⟨.ran a m (v.att m).cont (v.att m).val, trivial, rfl⟩) ?_ (fun _ => ⟨rfl, rfl⟩)
      (fun _ _ => .inl rfl) (by simp [flOf, revOf, endOf]) (by simp [flOf]) (by simp [revOf])
      (by rw [hw]; simp [flOf, revOf]) (by simp [endOf]) (fun _ => .inr (hv.own_nowait (w := w) (by rw [hw]; rfl)))
    apply ranOrd_snoc hr
    intro r m' c x he
    cases he
    refine ⟨fun hm' => (hl.finQ a m hm').1 a (List.mem_of_head? hm), ?_⟩
    intro b hb
    have hord := hl.ord b a
    cases hq : v.ml (.mq a) with
    | nil => rw [hq] at hm; simp at hm
    | cons y t =>
      rw [hq] at hm
      simp at hm
      subst hm
      have : decide (y ∈ sends v.log b a) = true := by simpa using hb
      simp only [hq] at hord
      rw [List.append_assoc, List.filter_append, List.cons_append, List.filter_cons, if_pos this] at hord
      exact ⟨_, by rw [List.append_assoc]; exact hord.symm⟩
  | send w a m dst c d hw hc hd =>
    have hlt : ∀ b x, x ∈ pd b → x < v.nmsg := by
      intro b x hx
      rcases ho.sub hx with h1 | ⟨w', h1⟩
      · exact hv.mlt _ _ h1
      · exact hv.mlt _ _ h1
    refine ⟨update pd a (pd a ++ [v.nmsg]), ?_, ?_, ?_⟩
    · have ha : Handles (v.wk w) a := by rw [hw]; exact .inl rfl
      refine ordP_step ho hv (w := w) (a := a) ha (fun _ _ => rfl) (fun _ _ => by simp) (fun b hb => by simp [Function.update_apply, hb])
        (fun b hb => by simp [hb]) (fun _ _ => .inl rfl) ?_ ?_ ?_ ?_ ?_ ?_
      all_goals simp only [hw]
      · simp [flOf, revOf, endOf]
      · simp [flOf]
      · simp [revOf]
      · intro _ _
        simp only [update_self, List.reverse_cons]
        rw [ho.free a]
        intro w'
        by_cases e : w' = w
        · subst e; rw [hw]; simp [flOf, revOf]
        · constructor
          · intro h5; exact e (hv.handles (handles_of (.inl h5)) ha)
          · intro h5; exact e (hv.handles (handles_of (.inr (.inl h5))) ha)
      · simp [endOf]
      · intro _; exact .inr (hv.own_nowait (w := w) (by rw [hw]; rfl))
    · have := OrdL.send hl (a := a) (m := m) (r := dst) (d := d) (hv.cur w a m (by rw [hw]; rfl)) hd (fun _ _ h => hv.mlt _ _ h)
        (fun _ h => hv.mlt _ _ h) (fun _ _ h => hv.mlt _ _ h) hlt
      refine this.congr (fun _ => by simp) (by simp) (fun _ => by simp) (fun _ => rfl) ?_ ?_ rfl
      · intro x; simp only [upd]; split <;> rfl
      · intro x; simp only [upd]; split <;> rfl
    · apply ranOrd_other hr
      intro r m c x
      split <;> simp
  | retDone w a m mark x hw =>
    have ha : Handles (v.wk w) a := by rw [hw]; exact .inl rfl
    refine ⟨pd, ?_, hl.congr (fun _ => by simp) (by simp) (fun _ => by simp) (fun _ => rfl) (fun _ => rfl) (fun _ => rfl) rfl, hr⟩
    refine ordP_step ho hv (w := w) (a := a) ha (fun w' hw' => upd_ne _ hw' _) (fun _ _ => by simp) (fun b hb => by simp [Function.update_apply, hb])
        (fun b hb => rfl) (fun _ _ => .inl rfl) ?_ ?_ ?_ ?_ ?_ ?_
    all_goals simp only [upd_self, update_self]
    · simp [flOf, revOf, endOf]
    · simp [flOf]
    · intro _
      apply ho.free
      intro w'
      by_cases e : w' = w
      · subst e; rw [hw]; simp [flOf, revOf]
      · constructor
        · intro h5; exact e (hv.handles (handles_of (.inl h5)) ha)
        · intro h5; exact e (hv.handles (handles_of (.inr (.inl h5))) ha)
    · simp [revOf]
    · simp [endOf]
    · intro _; exact .inr (hv.own_nowait (w := w) (by rw [hw]; rfl))
  | retCont w a m c x hw hc =>
    exact ord_quiet hv ho hl (a := a) (by rw [hw]; exact .inl rfl) (.inl rfl) hr (upd_att_pres _ _ _ rfl rfl) (fun _ _ => .inl rfl)
      (by simp [flOf, revOf, endOf]) (by simp [flOf]) (by simp [revOf])
      (by rw [hw]; simp [flOf, revOf]) (by simp [endOf]) (fun _ => .inr (hv.own_nowait (w := w) (by rw [hw]; rfl)))
  | retWait w a m c x hw hc hx hW =>
    have ha : Handles (v.wk w) a := by rw [hw]; exact .inl rfl
    refine ⟨pd, ?_, ?_, ranOrd_other hr (by simp)⟩
    · refine ordP_step ho hv (w := w) (a := a) ha (fun w' hw' => upd_ne _ hw' _) (fun _ _ => by simp) (fun b hb => by simp [Function.update_apply, hb])
        (fun b hb => rfl) (fun _ _ => .inl rfl) ?_ ?_ ?_ ?_ ?_ ?_
      all_goals simp only [upd_self, update_self]
      · simp [flOf, revOf, endOf]
      · simp [flOf]
      · intro _
        apply ho.free
        intro w'
        by_cases e : w' = w
        · subst e; rw [hw]; simp [flOf, revOf]
        · constructor
          · intro h5; exact e (hv.handles (handles_of (.inl h5)) ha)
          · intro h5; exact e (hv.handles (handles_of (.inr (.inl h5))) ha)
      · simp [revOf]
      · simp [endOf]
      · intro _; exact .inr (hv.own_nowait (w := w) (by rw [hw]; rfl))
    · have := OrdL.quiet hl (e := .awaits a m c x) trivial
      refine this.congr (fun _ => by simp) (by simp) (fun _ => by simp) (fun _ => rfl) ?_ ?_ rfl
      · intro y; exact (upd_att_pres v.att m { v.att m with cont := c } rfl rfl y).1
      · intro y; exact (upd_att_pres v.att m { v.att m with cont := c } rfl rfl y).2
  | addFrozen w a m x hw hx =>
    exact ord_quiet hv ho hl (a := a) (by rw [hw]; exact .inl rfl) (.inl rfl) hr (fun _ => ⟨rfl, rfl⟩) (fun _ _ => .inl rfl)
      (by simp [flOf, revOf, endOf]) (by simp [flOf]) (by rw [hw]; simp [revOf])
      (by simp [flOf, revOf]) (by simp [endOf]) (fun _ => .inr (hv.own_nowait (w := w) (by rw [hw]; rfl)))
  | addWait w a m x hw hx =>
    exact ord_quiet hv ho hl (a := a) (by rw [hw]; exact .inl rfl) (.inl rfl) hr (fun _ => ⟨rfl, rfl⟩)
      (fun b hb => .inl (by rw [upd_ne _ hb]))
      (by simp [flOf, revOf, endOf]) (by simp [flOf]) (by rw [hw]; simp [revOf])
      (by simp [flOf, revOf]) (by simp [endOf]) (fun _ => .inl (by simp [poster]))
  | flush w a m k hw =>
    have ha : Handles (v.wk w) a := by rw [hw]; exact handles_flush a m k
    have hp := ho.rev w a (by rw [hw]; rfl)
    refine ⟨pd, ?_, hl.congr (fun _ => by simp) (by simp) (fun _ => by simp) (fun _ => rfl) (fun _ => rfl) (fun _ => rfl) rfl, hr⟩
    refine ordP_step ho hv (w := w) (a := a) ha (fun w' hw' => upd_ne _ hw' _) (fun w' hw' => by simp [Function.update_apply, hw'])
      (fun b hb => by simp [Function.update_apply, hb]) (fun b hb => rfl) (fun _ _ => .inl rfl) ?_ ?_ ?_ ?_ ?_ ?_
    all_goals simp only [upd_self]
    · intro b hb
      rw [flOf_contPh, revOf_contPh, endOf_contPh] at hb
      rcases hb with hb | hb | hb
      · split at hb <;> simp at hb; exact hb.symm
      · cases hb
      · split at hb <;> simp at hb; exact hb.symm
    · intro _; simp [hp]
    · rw [revOf_contPh]; intro h; cases h
    · rw [flOf_contPh]; intro h1 _
      split at h1
      · rename_i h2; simp at h2; simp [hp, h2]
      · cases h1
    · rw [endOf_contPh]; intro h1
      split at h1
      · rename_i h2; simp at h2; simp [hp, h2]
      · cases h1
    · intro hne
      rw [hp] at hne
      rw [poster_contPh']
      by_cases hk : k = .added
      · left; simp [hk, hne]
      · right
        exact hv.own_nowait (w := w) (by rw [hw]; simp [owner, hk])
  | loopNow w a m x k t hw ht hb =>
    have ha : Handles (v.wk w) a := by rw [hw]; exact handles_loop a m x k
    obtain ⟨hp, hout⟩ := ho.fl w a (by rw [hw]; rfl)
    have hp' : pd a = x :: t := by rw [hp, ht]
    refine ⟨update pd a t, ?_, ?_, hr⟩
    · refine ordP_step ho hv (w := w) (a := a) ha (fun w' hw' => upd_ne _ hw' _) (fun w' hw' => by simp [Function.update_apply, hw'])
        (fun b hb => by simp) (fun b hb => by simp [hb]) (fun _ _ => .inl rfl) ?_ ?_ ?_ ?_ ?_ ?_
      all_goals simp only [upd_self, flOf_enqPh, revOf_enqPh, endOf_enqPh, poster_enqPh]
      · intro b hb
        rw [flOf_contPh, revOf_contPh, endOf_contPh] at hb
        rcases hb with hb | hb | hb
        · split at hb <;> simp at hb; exact hb.symm
        · cases hb
        · split at hb <;> simp at hb; exact hb.symm
      · intro _; simp [hout]
      · rw [revOf_contPh]; intro h; cases h
      · rw [flOf_contPh]; intro h1 _
        split at h1
        · rename_i h2; simp at h2; simp [h2, hout]
        · cases h1
      · rw [endOf_contPh]; intro h1
        split at h1
        · rename_i h2; simp at h2; simp [h2]
        · cases h1
      · intro hne
        rw [update_self] at hne
        rw [poster_contPh']
        by_cases hk : k = .added
        · left; simp [hk, hne]
        · right
          exact hv.own_nowait (w := w) (by rw [hw]; simp [owner, hk])
    · have := OrdL.now hl hp' (hv.cur w a m (by rw [hw]; rfl)) hb
      refine this.congr ?_ (by simp) (fun _ => by simp) (fun _ => rfl) (fun _ => rfl) (fun _ => rfl) rfl
      intro b
      simp [Function.update_apply]
  | loopTimed w a m x k t A B hw ht hb hAB hA hB =>
    have ha : Handles (v.wk w) a := by rw [hw]; exact handles_loop a m x k
    obtain ⟨hp, hout⟩ := ho.fl w a (by rw [hw]; rfl)
    have hp' : pd a = x :: t := by rw [hp, ht]
    refine ⟨update pd a t, ?_, ?_, ranOrd_other hr (by simp)⟩
    · refine ordP_step ho hv (w := w) (a := a) ha (fun w' hw' => upd_ne _ hw' _) (fun w' hw' => by simp [Function.update_apply, hw'])
        (fun b hb => by simp) (fun b hb => by simp [hb]) (fun _ _ => .inl rfl) ?_ ?_ ?_ ?_ ?_ ?_
      all_goals simp only [upd_self]
      · intro b hb
        rw [flOf_contPh, revOf_contPh, endOf_contPh] at hb
        rcases hb with hb | hb | hb
        · split at hb <;> simp at hb; exact hb.symm
        · cases hb
        · split at hb <;> simp at hb; exact hb.symm
      · intro _; simp [hout]
      · rw [revOf_contPh]; intro h; cases h
      · rw [flOf_contPh]; intro h1 _
        split at h1
        · rename_i h2; simp at h2; simp [h2, hout]
        · cases h1
      · rw [endOf_contPh]; intro h1
        split at h1
        · rename_i h2; simp at h2; simp [h2]
        · cases h1
      · intro hne
        rw [update_self] at hne
        rw [poster_contPh']
        by_cases hk : k = .added
        · left; simp [hk, hne]
        · right
          exact hv.own_nowait (w := w) (by rw [hw]; simp [owner, hk])
    · have := OrdL.queue hl hp' (hv.cur w a m (by rw [hw]; rfl)) hb (T' := A ++ x :: B) (by
        intro z; rw [hAB]; simp; tauto)
      refine this.congr ?_ (by simp) (fun _ => by simp) (fun _ => rfl) (fun _ => rfl) (fun _ => rfl) rfl
      intro b
      simp [Function.update_apply]
  | resume w a m x hw =>
    have he := ho.end_ w a (by rw [hw]; rfl)
    exact ord_quiet hv ho hl (a := a) (by rw [hw]; exact .inl rfl) (.inl rfl) hr (upd_att_pres _ _ _ rfl rfl) (fun _ _ => .inl rfl)
      (by simp [flOf, revOf, endOf]) (by simp [flOf]) (by simp [revOf])
      (by rw [hw]; simp [flOf, revOf]) (by simp [endOf]) (fun h => absurd he h)
  | freeze w a m mark x hw =>
    have he := ho.end_ w a (by rw [hw]; rfl)
    exact ord_quiet hv ho hl (a := a) (by rw [hw]; exact .inl rfl) (.inr ⟨.completed m mark x, trivial, rfl⟩) (ranOrd_other hr (by simp))
      (upd_att_pres _ _ _ rfl rfl) (fun _ _ => .inl rfl)
      (by simp [flOf_wakePh, revOf_wakePh, endOf_wakePh]) (by simp [flOf_wakePh]) (by simp [revOf_wakePh])
      (by rw [hw]; simp [flOf, revOf]) (by rw [hw]; simp [endOf]) (fun h => absurd he h)
  | wake w a m mark x b y t hw ht hy hf hb =>
    have he := ho.end_ w a (by rw [hw]; rfl)
    exact ord_quiet hv ho hl (a := a) (by rw [hw]; exact .inl rfl) (.inl rfl) hr
      (upd_att_pres _ _ _ rfl rfl)
      (fun c _ => by
        by_cases e : c = b
        · subst e; right; rw [upd_self]
        · left; rw [upd_ne _ e])
      (by simp [flOf, revOf, endOf, flOf_wakePh, revOf_wakePh, endOf_wakePh]) (by simp [flOf, flOf_wakePh]) (by simp [revOf, revOf_wakePh])
      (by rw [hw]; simp [flOf, revOf]) (by rw [hw]; simp [endOf]) (fun h => absurd he h)
  | deq w a m t hw ht =>
    have he := ho.end_ w a (by rw [hw]; rfl)
    have ha : Handles (v.wk w) a := by rw [hw]; exact .inl rfl
    have hm : m ∈ v.ml (.mq a) := by rw [ht]; simp
    refine ⟨pd, ?_, ?_, ranOrd_other hr (by simp)⟩
    · refine ordP_step ho hv (w := w) (a := a) ha (fun w' hw' => upd_ne _ hw' _) (fun w' hw' => by simp)
        (fun b hb => by simp) (fun b hb => rfl) (fun _ _ => .inl rfl) ?_ ?_ ?_ ?_ ?_ ?_
      all_goals simp only [upd_self]
      · intro b; split <;> simp [flOf, revOf, endOf]
      · split <;> simp [flOf]
      · split <;> simp [revOf]
      · intro _ _
        simp only [Function.update_apply, reduceCtorEq, if_false]
        apply ho.free
        intro w'
        by_cases e : w' = w
        · subst e; rw [hw]; simp [flOf, revOf]
        · constructor
          · intro h5; exact e (hv.handles (handles_of (.inl h5)) ha)
          · intro h5; exact e (hv.handles (handles_of (.inr (.inl h5))) ha)
      · split <;> simp [endOf]
      · intro h; exact absurd he h
    · have hnd := hv.Mnodup (.mq a)
      rw [ht, List.nodup_cons] at hnd
      have := OrdL.deq hl (a := a) (x := m) (t := t) ht he (hv.mto a m hm) (hv.mlt _ _ hm) hnd.1
        (fun r hr h1 => hr (by simpa using hv.Mdisj _ _ m h1 hm)) (fun h1 => by have := hv.Mdisj _ _ m h1 hm; cases this)
        (fun w' h1 => by have := hv.Mdisj _ _ m h1 hm; cases this)
        (fun b h1 => by
          rcases ho.sub h1 with h2 | ⟨w', h2⟩
          · have := hv.Mdisj _ _ m h2 hm; cases this
          · have := hv.Mdisj _ _ m h2 hm; cases this)
      refine this.congr ?_ (by simp) (fun _ => by simp) (fun _ => rfl) (fun _ => rfl) (fun _ => rfl) rfl
      intro b
      simp [Function.update_apply]
  | ready w b i k hw =>
    by_cases hk : ∃ a, Handles k a
    · obtain ⟨a, ha⟩ := hk
      have hcur : ∀ c, flOf k = some c ∨ revOf k = some c ∨ endOf k = some c → c = a :=
        fun c hc => handles_unique (handles_of hc) ha
      refine ord_quiet hv ho hl (a := a) (by rw [hw]; exact ha) (.inl rfl) hr (fun _ => ⟨rfl, rfl⟩) (fun _ _ => .inl rfl)
        hcur (by rw [hw]; exact id) (by rw [hw]; exact id) (by rw [hw]; exact fun h1 h2 => ⟨h1, h2⟩) (by rw [hw]; exact id) ?_
      intro hne
      rcases ho.stuck a hne with ⟨w', h1⟩ | h1
      · left
        have : w' = w := hv.handles (.inr h1) (by rw [hw]; exact ha)
        subst this
        rw [hw] at h1
        exact h1
      · exact .inr h1
    · have hno : ∀ c, flOf k ≠ some c ∧ revOf k ≠ some c ∧ endOf k ≠ some c ∧ poster k ≠ some c := by
        intro c
        refine ⟨fun h => hk ⟨c, handles_of (.inl h)⟩, fun h => hk ⟨c, handles_of (.inr (.inl h))⟩,
          fun h => hk ⟨c, handles_of (.inr (.inr h))⟩, fun h => hk ⟨c, .inr h⟩⟩
      refine ⟨pd, ordP_idle ho (w := w) ?_ (fun w' hw' => upd_ne _ hw' _) (fun _ _ => rfl)
        (fun _ => rfl) (fun _ => rfl) ?_, hl, hr⟩
      · intro c; rw [hw]; exact ⟨(hno c).1, (hno c).2.1, (hno c).2.2.2⟩
      · intro c; simp only [upd_self]; exact ⟨(hno c).1, (hno c).2.1, (hno c).2.2.1⟩
  | timed w x hw hx =>
    refine ⟨pd, ordP_idle ho (w := w) (by rw [hw]; simp [flOf, revOf, poster]) (fun w' hw' => upd_ne _ hw' _) (fun w' _ => by simp)
      (fun _ => by simp) (fun _ => rfl) (by simp [flOf_enqPh, revOf_enqPh, endOf_enqPh, flOf, revOf, endOf]), ?_, ranOrd_other hr (by simp)⟩
    refine ((OrdL.unhold hl (w := w) (x := x) hx).quiet (e := .delivered x) trivial).congr ?_ (by simp) ?_ (fun _ => rfl) (fun _ => rfl) (fun _ => rfl) rfl
    · intro b; simp [Function.update_apply]
    · intro b; simp [Function.update_apply]
  | ext w dst c now hw hc =>
    have hlt : ∀ b x, x ∈ pd b → x < v.nmsg := by
      intro b x hx
      rcases ho.sub hx with h1 | ⟨w', h1⟩
      · exact hv.mlt _ _ h1
      · exact hv.mlt _ _ h1
    refine ⟨pd, ordP_idle ho (w := w) (by rw [hw]; simp [flOf, revOf, poster]) (fun w' hw' => upd_ne _ hw' _) (fun w' _ => by simp)
      (fun _ => by simp) (fun _ => rfl) (by simp [flOf_enqPh, revOf_enqPh, endOf_enqPh, flOf, revOf, endOf]), ?_, ranOrd_other hr (by simp)⟩
    have := OrdL.ext hl (r := dst) (b := now) (fun _ _ h => hv.mlt _ _ h) (fun _ h => hv.mlt _ _ h) (fun _ _ h => hv.mlt _ _ h) hlt
    refine this.congr ?_ (by simp) (fun _ => by simp) (fun _ => rfl) ?_ ?_ rfl
    · intro b; simp [Function.update_apply]
    · intro x; simp only [upd]; split <;> rfl
    · intro x; simp only [upd]; split <;> rfl
  | fire x now t hw hx hb =>
    have hheld : v.ml (.held 0) = [] := by
      have := hv.held 0
      rw [hw] at this
      exact List.head?_eq_none_iff.1 this
    refine ⟨pd, ordP_idle ho (w := 0) (by rw [hw]; simp [flOf, revOf, poster]) (fun w' hw' => upd_ne _ hw' _) (fun w' _ => by simp)
      (fun _ => by simp) (fun _ => rfl) (by simp [flOf, revOf, endOf]), ?_, ranOrd_other hr (by simp)⟩
    refine (OrdL.fire hl hx hheld).congr ?_ (by simp) ?_ (fun _ => rfl) (fun _ => rfl) (fun _ => rfl) rfl
    · intro b; simp
    · intro b; simp [Function.update_apply]

end Verif.Rts
