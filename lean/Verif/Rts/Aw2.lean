import Verif.Rts.Aw
/-!
# Awaiting a message: all steps
-/
namespace Verif.Rts
open Verif Function

variable {v v' : V}

theorem aw_init : Aw (view init (fun _ => []) (fun _ => [])) := by
  refine ⟨⟨?_, ?_, ?_⟩, ⟨?_, ?_, ?_⟩, ⟨?_, ?_, ?_⟩⟩ <;> simp [view, init, pend, completions, wkOf, awOf]

theorem two_not_frozen {c : Nat} (hc : 2 ≤ c) : ¬ (c = MARK_RESULT ∨ c = MARK_EXCEPTION) := by
  simp only [MARK_RESULT, MARK_EXCEPTION]; omega

theorem wakeCont_two {k c : Nat} (hc : 2 ≤ c) : 2 ≤ wakeCont k c := by
  unfold wakeCont failInst; split <;> omega

theorem VI.cont_two (hv : VI v) {w a m : Nat} (hc : curOf (v.wk w) = some (a, m)) (ha : Handles (v.wk w) a)
    (hf : frozenOf (v.wk w) = none) : 2 ≤ (v.att m).cont := by
  have := hv.run_not_frozen hc ha hf
  simp only [V.frozen, MARK_RESULT, MARK_EXCEPTION] at this
  omega

/-- A change to one message that stays incomplete. -/
theorem att_one {m : Nat} {X : Att} (hf : ¬ v.frozen m) (hX : 2 ≤ X.cont) {v' : V} (h : v'.att = upd v.att m X) (x : Nat) :
    v'.att x = v.att x ∨ ((¬ v.frozen x ∨ v.nmsg ≤ x) ∧ ¬ v'.frozen x) := by
  by_cases e : x = m
  · right
    refine ⟨.inl (e ▸ hf), ?_⟩
    simp only [V.frozen, h, e, upd_self]
    exact two_not_frozen hX
  · left; rw [h, upd_ne _ e]

theorem fro_one {m : Nat} {X : Att} (hf : ¬ v.frozen m) {v' : V} (h : v'.att = upd v.att m X) (x : Nat) (hx : v.frozen x) :
    v'.frozen x := by
  have e : x ≠ m := fun e => hf (e ▸ hx)
  simp only [V.frozen, h, upd_ne _ e]; exact hx

/-- Steps that change neither messages nor the record, for the actors `A` apart. -/
theorem aw_still (h : Aw v) {w : Nat} {P : Phase} (hwk : v'.wk = upd v.wk w P) (hatt : v'.att = v.att) (hn : v'.nmsg = v.nmsg)
    (hlog : v'.log = v.log ∨ ∃ e, v'.log = v.log ++ [e] ∧ (∀ a m c u, e ≠ .ran a m c u) ∧ e.actor = none ∧ ∀ x k u, e ≠ Event.completed x k u)
    (A : Nat → Prop)
    (hw1 : ∀ m k u, wkOf P = some (m, k, u) → Event.completed m k u ∈ v.log)
    (hw2 : ∀ a m x, awOf P = some (a, m, x) → x < v.nmsg ∧ (isAdd P = true ∨ v.frozen x))
    (hq : ∀ a m, ¬ A a → (v.ml (.mq a)).head? = some m → (v'.ml (.mq a)).head? = some m)
    (hwf : ∀ a, ¬ A a → v'.wf a = v.wf a) (hph : ∀ a, ¬ A a → PhOk a (v.wk w) P)
    (hA : ∀ a m c x, A a → Verif.Rts.pend v.log a = some (m, c, x) → AwS v' a m c x) : Aw v' := by
  have hfz : ∀ x, v'.frozen x ↔ v.frozen x := by intro x; simp only [V.frozen, hatt]
  have hsub : ∀ e ∈ v.log, e ∈ v'.log := by
    rcases hlog with h1 | ⟨e, h1, -⟩ <;> rw [h1]
    · simp
    · intro e he; simp [he]
  have hpend : ∀ a, Verif.Rts.pend v'.log a = Verif.Rts.pend v.log a := by
    intro a
    rcases hlog with h1 | ⟨e, h1, h2, h3, -⟩ <;> rw [h1]
    rw [pend_snoc]
    cases e with
    | ran b m c u => exact absurd rfl (h2 b m c u)
    | awaits b m c u => cases h3
    | _ => rfl
  refine ⟨h.c.frame (by omega) (fun x => .inl (by rw [hatt])) (by omega) ?_,
    h.p.frame hwk (by omega) hsub (fun x _ => (hfz x).2) A ?_ ?_ (fun a _ => hpend a) (fun a m ha hm => ⟨hq a m ha hm, by rw [hatt]⟩) hwf hph ?_, ?_⟩
  · rcases hlog with h1 | ⟨e, h1, -, -, h2⟩
    · exact .inl h1
    · exact .inr ⟨e, h1, h2⟩
  · intro m k u hm; exact hsub _ (hw1 m k u hm)
  · intro a m x hm; rw [hn, hfz]; exact hw2 a m x hm
  · intro a m c x ha hp; rw [hpend] at hp; exact hA a m c x ha hp
  · rcases hlog with h1 | ⟨e, h1, h2, h3, h4⟩ <;> rw [h1]
    · exact h.h
    · exact h.h.other h2 h3 h4

/-- Steps of a worker that changes the phase only, or posts a message. -/
theorem aw_phase (h : Aw v) {w : Nat} {P : Phase} (hwk : v'.wk = upd v.wk w P) (hatt : v'.att = v.att) (hn : v'.nmsg = v.nmsg)
    (hwf : v'.wf = v.wf)
    (hlog : v'.log = v.log ∨ ∃ e, v'.log = v.log ++ [e] ∧ (∀ a m c u, e ≠ .ran a m c u) ∧ e.actor = none ∧ ∀ x k u, e ≠ Event.completed x k u)
    (hw1 : wkOf P = none) (hw2 : awOf P = awOf (v.wk w)) (hw3 : isAdd P = false → isAdd (v.wk w) = false)
    (hq : ∀ a m, (v.ml (.mq a)).head? = some m → (v'.ml (.mq a)).head? = some m)
    (hown : ∀ a, owner P = some a → owner (v.wk w) = some a ∧ v.wk w ≠ .got a) : Aw v' := by
  refine aw_still h hwk hatt hn hlog (fun _ => False) ?_ ?_ (fun a m _ => hq a m) (fun a _ => by rw [hwf]) ?_ ?_
  · intro m k u h1; rw [hw1] at h1; cases h1
  · intro a m x h1
    rw [hw2] at h1
    obtain ⟨h2, h3⟩ := h.p.aw w a m x h1
    refine ⟨h2, ?_⟩
    by_cases hP : isAdd P = true
    · exact .inl hP
    · rw [hw3 (by simpa using hP)] at h3
      exact .inr (h3.resolve_left (by simp))
  · intro a _
    exact ⟨fun m x h1 => by rw [hw2]; exact h1, fun h1 => .inr (hown a h1)⟩
  · intro a m c x hA; exact hA.elim

theorem head_append {q : List Nat} {m x : Nat} (h : q.head? = some m) : (q ++ [x]).head? = some m := by
  cases q with
  | nil => cases h
  | cons y t => exact h

theorem aw_step (hv : VI v) (hv' : VI v') {W : Nat → Nat → Prop} (hs : AStep W v v') (h : Aw v) : Aw v' := by
  cases hs with
  | skip => exact h
  | noFire now hb =>
    exact aw_still h (w := 0) (P := v.wk 0) (by simp [upd_same]) rfl rfl (.inr ⟨.notFired now, rfl, by simp, rfl, by simp⟩) (fun _ => False)
      (h.p.wkc 0) (h.p.aw 0) (fun _ _ _ h => h) (fun _ _ => rfl) (fun _ _ => PhOk.refl _ _) (by simp)
  | take w i r t hw hr' hg =>
    refine aw_still h (w := w) rfl rfl rfl (.inl rfl) (fun _ => False) (by simp [wkOf]) (by simp [awOf]) (fun _ _ _ h => h) (fun _ _ => rfl) ?_ (by simp)
    intro a _
    refine ⟨by rw [hw]; simp [awOf], ?_⟩
    intro h1
    left
    simp [owner] at h1
    rw [h1]
  | got w a m hw hm hf =>
    have key : ∀ m0 c0 x, pend v.log a = some (m0, c0, x) → m = m0 ∧ ∃ k, Event.completed x k (v.att m).val ∈ v.log ∧ (v.att m).cont = wakeCont k c0 := by
      intro m0 c0 x hp
      obtain ⟨h1, -, -, -, h2⟩ := h.p.pend a m0 c0 x hp
      rw [hm] at h1
      cases h1
      refine ⟨rfl, ?_⟩
      have ho : owner (v.wk w) = some a := by rw [hw]; rfl
      rcases h2 with ⟨w', h2, -⟩ | ⟨h2, -⟩ | ⟨-, h2, -⟩
      · have : w' = w := hv.handles (.inl (owner_of_awOf h2)) (.inl ho)
        rw [this, hw] at h2; cases h2
      · rw [hv.own_nowait ho] at h2; cases h2
      · exact h2
    refine ⟨h.c.frame (Nat.le_refl _) (fun x => .inl rfl) (fun x h1 h2 => by simp at h2; omega) (.inr ⟨_, rfl, by simp⟩), ?_, ?_⟩
    · refine h.p.frame (w := w) rfl (Nat.le_refl _) (by simp; tauto) (fun _ _ h => h) (fun b => b = a) (by simp [wkOf]) (by simp [awOf]) ?_
        (fun _ _ _ h => ⟨h, rfl⟩) (fun _ _ => rfl) ?_ ?_
      · intro b hb
        simp only [pend_snoc]
        rw [if_neg (fun e => hb e.symm)]
      · intro b hb
        refine PhOk.of_ne ?_ ?_ <;> simp [hw, owner] <;> exact fun e => hb e.symm
      · rintro b m' c' x rfl hp
        simp [pend_snoc] at hp
    · apply h.h.snoc
      · intro b m' c' u he
        cases he
        exact key
      · simp [Event.actor]
      · simp
  | send w a m dst c d hw hc hd =>
    have hp : pend v.log a = none := h.p.none_of hv (w := w) (by rw [hw]; rfl) (by rw [hw]; simp) (by rw [hw]; rfl)
    have hpend : ∀ b, pend (v.log ++ [if d = 0 then .sent a dst v.nmsg else .delayed a v.nmsg ((v.att m).base + d)]) b = pend v.log b := by
      intro b
      rw [pend_snoc]
      split <;> split at * <;> simp_all
    refine ⟨h.c.frame (Nat.le_succ _) ?_ ?_ (.inr ⟨_, rfl, by intro x k u; split <;> simp⟩), ?_, ?_⟩
    · intro x
      by_cases e : x = v.nmsg
      · right
        refine ⟨.inr (by omega), ?_⟩
        simp only [V.frozen, e, upd_self]
        exact two_not_frozen hc
      · left; simp only [upd_ne _ e]
    · intro x h1 h2
      have : x = v.nmsg := by simp at h2; omega
      simp only [V.frozen, this, upd_self]
      exact two_not_frozen hc
    · refine h.p.frame (w := w) (P := v.wk w) (by simp [upd_same]) (Nat.le_succ _) (fun e he => by simp [he]) ?_ (fun _ => False) ?_ ?_ (fun b _ => hpend b) ?_ (fun _ _ => rfl)
        (fun b _ => PhOk.refl _ _) (by simp)
      · intro x hx h1
        have : x ≠ v.nmsg := by omega
        simp only [V.frozen, upd_ne _ this]; exact h1
      · rw [hw]; simp [wkOf]
      · rw [hw]; simp [awOf]
      · intro b m' _ hm'
        have : m' ≠ v.nmsg := by have := hv.mlt _ _ (List.mem_of_head? hm'); omega
        simp only [upd_ne _ this, and_true]
        simpa using hm'
    · apply h.h.snoc
      · intro b m' c' u; split <;> simp
      · intro b hb
        have : b = a := by
          split at hb <;> simpa [Event.actor] using hb.symm
        rw [this]; exact hp
      · intro b m' c'; split <;> simp
  | retDone w a m mark x hw =>
    refine aw_phase h (w := w) rfl rfl rfl rfl (.inl rfl) rfl (by rw [hw]; rfl) (fun _ => by rw [hw]; rfl) (fun _ _ h => by simpa using h) ?_
    intro b hb
    rw [hw]
    refine ⟨?_, by simp⟩
    simpa [owner] using hb
  | retCont w a m c x hw hc =>
    have hf := hv.run_not_frozen (w := w) (a := a) (m := m) (by rw [hw]; rfl) (by rw [hw]; exact .inl rfl) (by rw [hw]; rfl)
    have hm := hv.cur w a m (by rw [hw]; rfl)
    have hp : pend v.log a = none := h.p.none_of hv (w := w) (by rw [hw]; rfl) (by rw [hw]; simp) (by rw [hw]; rfl)
    refine ⟨h.c.frame (Nat.le_refl _) (att_one hf hc rfl) (fun x h1 h2 => by simp at h2; omega) (.inl rfl), ?_, h.h⟩
    refine h.p.frame (w := w) rfl (Nat.le_refl _) (fun _ h => h) (fun x _ => fro_one hf rfl x) (fun b => b = a) (by simp [wkOf]) (by simp [awOf])
      (fun _ _ => rfl) ?_ (fun _ _ => rfl) ?_ ?_
    · intro b m' hb hm'
      refine ⟨hm', ?_⟩
      exact upd_ne _ (hv.head_ne hb hm' hm) _
    · intro b hb
      refine PhOk.of_ne ?_ ?_ <;> simp [hw, owner]
      exact fun e => hb e.symm
    · rintro b m' c' y rfl h1
      simp only [hp] at h1; cases h1
  | retWait w a m c x hw hc hx hW =>
    have hf := hv.run_not_frozen (w := w) (a := a) (m := m) (by rw [hw]; rfl) (by rw [hw]; exact .inl rfl) (by rw [hw]; rfl)
    have hm := hv.cur w a m (by rw [hw]; rfl)
    have hp : pend v.log a = none := h.p.none_of hv (w := w) (by rw [hw]; rfl) (by rw [hw]; simp) (by rw [hw]; rfl)
    refine ⟨h.c.frame (Nat.le_refl _) (att_one hf hc rfl) (fun x h1 h2 => by simp at h2; omega) (.inr ⟨_, rfl, by simp⟩), ?_, ?_⟩
    · refine h.p.frame (w := w) rfl (Nat.le_refl _) (fun _ h => by simp [h]) (fun x _ => fro_one hf rfl x) (fun b => b = a) (by simp [wkOf]) ?_
        ?_ ?_ (fun _ _ => rfl) ?_ ?_
      · intro a' m' x' h1
        simp [awOf] at h1
        obtain ⟨-, -, rfl⟩ := h1
        exact ⟨hx, .inl rfl⟩
      · intro b hb
        simp only [pend_snoc]
        rw [if_neg (fun e => hb e.symm)]
      · intro b m' hb hm'
        refine ⟨by simpa using hm', ?_⟩
        exact upd_ne _ (hv.head_ne hb hm' hm) _
      · intro b hb
        refine PhOk.of_ne ?_ ?_ <;> simp [hw, owner] <;> exact fun e => hb e.symm
      · rintro b m' c' y rfl h1
        simp only [pend_snoc, if_true, Option.some.injEq, Prod.mk.injEq] at h1
        obtain ⟨rfl, rfl, rfl⟩ := h1
        refine ⟨by simpa using hm, hx, hc, ?_, .inl ⟨w, by simp [awOf], by simp⟩⟩
        simp only [V.frozen, upd_self]
        exact two_not_frozen hc
    · apply h.h.snoc
      · simp
      · intro b hb
        simp [Event.actor] at hb
        rw [← hb]; exact hp
      · simp
  | addFrozen w a m x hw hx =>
    refine aw_still h (w := w) rfl rfl rfl (.inl rfl) (fun _ => False) (by simp [wkOf]) ?_ (fun _ _ _ h => h) (fun _ _ => rfl) ?_ (by simp)
    · intro a' m' x' h1
      obtain ⟨h2, -⟩ := h.p.aw w a m x (by rw [hw]; rfl)
      simp [awOf] at h1
      obtain ⟨-, -, rfl⟩ := h1
      exact ⟨h2, .inr hx⟩
    · intro b _
      rw [hw]
      exact ⟨by simp [awOf], by simp [owner]⟩
  | addWait w a m x hw hx =>
    refine aw_still h (w := w) rfl rfl rfl (.inl rfl) (fun b => b = a) (by simp [wkOf]) (by simp [awOf]) (fun _ _ _ h => h) ?_ ?_ ?_
    · intro b hb; exact upd_ne _ hb _
    · intro b hb
      refine PhOk.of_ne ?_ ?_ <;> simp [hw, owner]
      exact fun e => hb e.symm
    · rintro b m' c' y rfl h1
      obtain ⟨rfl, rfl, h2⟩ := h.p.of_aw hv (w := w) (a := b) (m := m) (x := x) (by rw [hw]; rfl) (by rw [hw]; simp) h1
      obtain ⟨h3, h4, h5, h6, -⟩ := h.p.pend _ _ _ _ h1
      exact ⟨h3, h4, h5, h6, .inr (.inl ⟨by simp, h2⟩)⟩
  | flush w a m k hw =>
    refine aw_phase h (w := w) rfl rfl rfl rfl (.inl rfl) (wkOf_contPh ..) (by rw [hw]; exact (awOf_flush ..).symm) (fun _ => by rw [hw]; rfl)
      (fun _ _ h => by simpa using h) ?_
    intro b hb
    obtain ⟨h1, rfl⟩ := owner_contPh' _ _ _ _ _ hb
    rw [hw]
    refine ⟨by simp [owner, h1], by simp⟩
  | loopNow w a m x k t hw ht hb =>
    refine aw_phase h (w := w) rfl rfl rfl rfl (.inl rfl) (by simp) (by rw [hw]; simp; exact (awOf_loop ..).symm) (fun _ => by rw [hw]; rfl)
      ?_ ?_
    · intro b m' hm'
      simp only [Function.update_apply, reduceCtorEq, if_false, MLoc.mq.injEq]
      split
      · rename_i e; subst e; exact head_append hm'
      · exact hm'
    · intro b hb
      rw [owner_enqPh'] at hb
      obtain ⟨h1, rfl⟩ := owner_contPh' _ _ _ _ _ hb
      rw [hw]
      refine ⟨by simp [owner, h1], by simp⟩
  | loopTimed w a m x k t A B hw ht hb hAB hA hB =>
    refine aw_phase h (w := w) rfl rfl rfl rfl (.inr ⟨.queued x (v.att x).base, rfl, by simp, rfl, by simp⟩) (by simp)
      (by rw [hw]; exact (awOf_loop ..).symm) (fun _ => by rw [hw]; rfl) (fun _ _ h => by simpa using h) ?_
    intro b hb
    obtain ⟨h1, rfl⟩ := owner_contPh' _ _ _ _ _ hb
    rw [hw]
    refine ⟨by simp [owner, h1], by simp⟩
  | resume w a m x hw =>
    have hf := hv.run_not_frozen (w := w) (a := a) (m := m) (by rw [hw]; rfl) (by rw [hw]; exact .inl rfl) (by rw [hw]; rfl)
    have h2 := hv.cont_two (w := w) (a := a) (m := m) (by rw [hw]; rfl) (by rw [hw]; exact .inl rfl) (by rw [hw]; rfl)
    have hm := hv.cur w a m (by rw [hw]; rfl)
    obtain ⟨h3, h4⟩ := h.p.aw w a m x (by rw [hw]; rfl)
    have hxf : v.frozen x := h4.resolve_left (by rw [hw]; simp [isAdd])
    have hcx := h.c.comp' x h3 hxf
    refine ⟨h.c.frame (Nat.le_refl _) (att_one hf (wakeCont_two h2) rfl) (fun x h1 h2 => by simp at h2; omega) (.inl rfl), ?_, h.h⟩
    refine h.p.frame (w := w) rfl (Nat.le_refl _) (fun _ h => h) (fun x _ => fro_one hf rfl x) (fun b => b = a) (by simp [wkOf]) (by simp [awOf])
      (fun _ _ => rfl) ?_ (fun _ _ => rfl) ?_ ?_
    · intro b m' hb hm'
      refine ⟨hm', ?_⟩
      exact upd_ne _ (hv.head_ne hb hm' hm) _
    · intro b hb
      refine PhOk.of_ne ?_ ?_ <;> simp [hw, owner]
      exact fun e => hb e.symm
    · rintro b m' c' y rfl h1
      obtain ⟨rfl, rfl, h5⟩ := h.p.of_aw hv (w := w) (a := b) (m := m) (x := x) (by rw [hw]; rfl) (by rw [hw]; simp) h1
      refine ⟨hm, h3, by rw [← h5]; exact h2, ?_, .inr (.inr ⟨hv.own_nowait (w := w) (by rw [hw]; rfl), ⟨(v.att y).cont, ?_, ?_⟩, ?_⟩)⟩
      · simp only [V.frozen, upd_self]; exact two_not_frozen (wakeCont_two h2)
      · simpa using hcx
      · simp [h5]
      · intro w' hw'
        exfalso
        simp only [upd] at hw'
        split at hw'
        · simp [owner] at hw'
        · rename_i e
          exact e (hv.handles (.inl hw') (by rw [hw]; exact .inl rfl))
  | freeze w a m mark x hw =>
    have hf := hv.run_not_frozen (w := w) (a := a) (m := m) (by rw [hw]; rfl) (by rw [hw]; exact .inl rfl) (by rw [hw]; rfl)
    have hm := hv.cur w a m (by rw [hw]; rfl)
    have hlt := hv.mlt _ _ (List.mem_of_head? hm)
    have hmk : mark = MARK_RESULT ∨ mark = MARK_EXCEPTION := by have := hv.mark w; rw [hw] at this; exact this
    have hp : pend v.log a = none := h.p.none_of hv (w := w) (by rw [hw]; rfl) (by rw [hw]; simp) (by rw [hw]; rfl)
    have hpend : ∀ b, pend (v.log ++ [.completed m mark x]) b = pend v.log b := by
      intro b
      rw [pend_snoc]
    have hnc : ∀ k u, Event.completed m k u ∉ v.log := by
      intro k u hk
      obtain ⟨-, h1, -, h2⟩ := h.c.comp m k u hk
      exact hf (by simp only [V.frozen, h1]; exact h2)
    refine ⟨⟨?_, ?_, ?_⟩, ?_, ?_⟩
    · intro y k u hy
      simp only [List.mem_append, List.mem_singleton, Event.completed.injEq] at hy
      rcases hy with hy | ⟨rfl, rfl, rfl⟩
      · have e : y ≠ m := fun e => hnc k u (e ▸ hy)
        simp only [upd_ne _ e]
        exact h.c.comp y k u hy
      · exact ⟨hlt, by simp, by simp, hmk⟩
    · intro y hy hfy
      by_cases e : y = m
      · subst e; simp
      · simp only [V.frozen, upd_ne _ e] at hfy
        simp only [upd_ne _ e]
        exact List.mem_append_left _ (h.c.comp' y hy hfy)
    · simp only [completions_append]
      rw [List.nodup_append]
      refine ⟨h.c.nodup, by simp [completions], ?_⟩
      intro y hy z hz
      simp [completions] at hz
      rintro rfl
      obtain ⟨k, u, hk⟩ := (mem_completions ..).1 hy
      rw [hz] at hk
      exact hnc k u hk
    · refine h.p.frame (w := w) rfl (Nat.le_refl _) (fun e he => by simp [he]) ?_ (fun b => b = a) ?_ (by simp)
        (fun b _ => hpend b) ?_ (fun _ _ => rfl) ?_ ?_
      · intro y _ hy
        by_cases e : y = m
        · simp only [V.frozen, e, upd_self]; exact hmk
        · simp only [V.frozen, upd_ne _ e]; exact hy
      · intro m' k u h1
        have := wkOf_wakePh _ _ _ _ _ h1
        cases this
        simp
      · intro b m' hb hm'
        refine ⟨hm', ?_⟩
        exact upd_ne _ (hv.head_ne hb hm' hm) _
      · intro b hb
        refine PhOk.of_ne ?_ ?_ <;> simp [hw, owner] <;> exact fun e => hb e.symm
      · rintro b m' c' y rfl h1
        rw [hpend, hp] at h1; cases h1
    · apply h.h.snoc
      · simp
      · simp [Event.actor]
      · intro m' k u he b c y hb
        cases he
        have h1 := (h.p.pend _ _ _ _ hb).head
        by_cases e : b = a
        · subst e; rw [hp] at hb; cases hb
        · exact hv.head_ne e h1 hm rfl
  | wake w a m mark x b y t hw ht hy hf hb =>
    have hc := h.p.wkc w m mark x (by rw [hw]; rfl)
    have h2 : 2 ≤ (v.att y).cont := by simp only [V.frozen, MARK_RESULT, MARK_EXCEPTION] at hf; omega
    have hbo : ∀ w', owner (v.wk w') ≠ some b := by
      intro w' h1
      rw [hv.own_nowait h1] at hb; cases hb
    refine ⟨h.c.frame (Nat.le_refl _) (att_one hf (wakeCont_two h2) rfl) (fun x h1 h2 => by simp at h2; omega) (.inl rfl), ?_, h.h⟩
    refine h.p.frame (w := w) rfl (Nat.le_refl _) (fun _ h => h) (fun x _ => fro_one hf rfl x) (fun c => c = b) ?_ (by simp [awOf])
      (fun _ _ => rfl) ?_ ?_ ?_ ?_
    · intro m' k u h1
      have := wkOf_wakePh _ _ _ _ _ h1
      cases this
      exact hc
    · intro c m' hcb hm'
      refine ⟨hm', ?_⟩
      exact upd_ne _ (hv.head_ne hcb hm' hy) _
    · intro c hcb; exact upd_ne _ hcb _
    · intro c hcb
      rw [hw]
      refine ⟨by simp [awOf], ?_⟩
      intro h1
      right
      simpa [owner] using h1
    · rintro c m' c' z rfl h1
      obtain ⟨h3, h4, h5, h6, h7⟩ := h.p.pend _ _ _ _ h1
      rw [hy] at h3
      cases h3
      rcases h7 with ⟨w', h7, -⟩ | ⟨h7, h8⟩ | ⟨h7, -⟩
      · exact absurd (owner_of_awOf h7) (hbo w')
      · rw [hb] at h7
        cases h7
        refine ⟨hy, h4, h5, ?_, .inr (.inr ⟨by simp, ⟨mark, ?_, ?_⟩, ?_⟩)⟩
        · simp only [V.frozen, upd_self]; exact two_not_frozen (wakeCont_two h2)
        · simpa using hc
        · simp [h8]
        · intro w' hw'
          exfalso
          simp only [upd] at hw'
          split at hw'
          · simp only [owner, owner_wakePh] at hw'
            exact hbo w (by rw [hw]; exact hw')
          · exact hbo w' hw'
      · rw [hb] at h7; cases h7
  | deq w a m t hw ht =>
    have hp : pend v.log a = none := h.p.none_of hv (w := w) (by rw [hw]; rfl) (by rw [hw]; simp) (by rw [hw]; rfl)
    have hpend : ∀ b, pend (v.log ++ [.finished a m]) b = pend v.log b := by
      intro b
      rw [pend_snoc]
    refine ⟨h.c.frame (Nat.le_refl _) (fun x => .inl rfl) (fun x h1 h2 => by simp at h2; omega) (.inr ⟨_, rfl, by simp⟩), ?_, ?_⟩
    · refine h.p.frame (w := w) rfl (Nat.le_refl _) (fun e he => by simp [he]) (fun _ _ h => h) (fun b => b = a) ?_ ?_
        (fun b _ => hpend b) ?_ (fun _ _ => rfl) ?_ ?_
      · split <;> simp [wkOf]
      · split <;> simp [awOf]
      · intro b m' hb hm'
        refine ⟨?_, rfl⟩
        simp only [Function.update_apply, MLoc.mq.injEq, hb, if_false]
        exact hm'
      · intro b hb
        refine PhOk.of_ne ?_ ?_
        · rw [hw]; simp [owner]; exact fun e => hb e.symm
        · split <;> simp [owner]
      · rintro b m' c' y rfl h1
        rw [hpend, hp] at h1; cases h1
    · apply h.h.snoc
      · simp
      · intro b hb
        simp [Event.actor] at hb
        rw [← hb]; exact hp
      · simp
  | ready w b i k hw =>
    refine aw_still h (w := w) rfl rfl rfl (.inl rfl) (fun _ => False) ?_ ?_ (fun _ _ _ h => h) (fun _ _ => rfl) ?_ (by simp)
    · intro m' k' u h1; exact h.p.wkc w m' k' u (by rw [hw]; exact h1)
    · intro a' m' x' h1
      have := h.p.aw w a' m' x' (by rw [hw]; exact h1)
      refine ⟨this.1, this.2.imp_left ?_⟩
      rw [hw]; simp [isAdd]
    · intro c _
      rw [hw]
      exact ⟨fun _ _ h => h, fun h => .inr ⟨h, by simp⟩⟩
  | timed w x hw hx =>
    refine aw_phase h (w := w) rfl rfl rfl rfl (.inr ⟨.delivered x, rfl, by simp, rfl, by simp⟩) (by simp [wkOf]) (by rw [hw]; simp [awOf]) (fun _ => by rw [hw]; rfl)
      ?_ (by simp [owner])
    intro b m' hm'
    simp only [Function.update_apply, reduceCtorEq, if_false, MLoc.mq.injEq]
    split
    · rename_i e; subst e; exact head_append hm'
    · exact hm'
  | ext w dst c now hw hc =>
    have hpend : ∀ b, pend (v.log ++ [.ext dst v.nmsg]) b = pend v.log b := by
      intro b
      rw [pend_snoc]
    refine ⟨h.c.frame (Nat.le_succ _) ?_ ?_ (.inr ⟨_, rfl, by simp⟩), ?_, h.h.other (by simp) rfl (by simp)⟩
    · intro x
      by_cases e : x = v.nmsg
      · right
        refine ⟨.inr (by omega), ?_⟩
        simp only [V.frozen, e, upd_self]
        exact two_not_frozen hc
      · left; simp only [upd_ne _ e]
    · intro x h1 h2
      have : x = v.nmsg := by simp at h2; omega
      simp only [V.frozen, this, upd_self]
      exact two_not_frozen hc
    · refine h.p.frame (w := w) rfl (Nat.le_succ _) (fun e he => by simp [he]) ?_ (fun _ => False) (by simp [wkOf]) (by simp [awOf]) (fun b _ => hpend b) ?_ (fun _ _ => rfl)
        ?_ (by simp)
      · intro x hx h1
        have : x ≠ v.nmsg := by omega
        simp only [V.frozen, upd_ne _ this]; exact h1
      · intro b m' _ hm'
        have : m' ≠ v.nmsg := by have := hv.mlt _ _ (List.mem_of_head? hm'); omega
        simp only [upd_ne _ this, and_true]
        simp only [Function.update_apply, MLoc.mq.injEq]
        split
        · rename_i e; subst e; exact head_append hm'
        · exact hm'
      · intro b _
        refine PhOk.of_ne ?_ ?_ <;> simp [hw, owner]
  | fire x now t hw hx hb =>
    refine aw_phase h (w := 0) rfl rfl rfl rfl (.inr ⟨.fired x now, rfl, by simp, rfl, by simp⟩) rfl (by rw [hw]; rfl) (fun _ => by rw [hw]; rfl)
      ?_ (by simp [owner])
    intro b m' hm'
    simpa using hm'

end Verif.Rts
