import Verif.Rts.Aw2
/-!
# Delayed messages: the invariant
-/
namespace Verif.Rts
open Verif Function

/-- What the record of events says about delayed messages. -/
structure TimH (log : List Event) : Prop where
  q : ∀ L1 L2 m d, log = L1 ++ Event.queued m d :: L2 → ∃ a, Event.delayed a m d ∈ L1
  f : ∀ L1 L2 m now, log = L1 ++ Event.fired m now :: L2 →
    ∃ d, d ≤ now ∧ (dueAt L1 d).head? = some m ∧ ∀ d', d' < d → dueAt L1 d' = []
  n : ∀ L1 L2 now, log = L1 ++ Event.notFired now :: L2 → ∀ d, d ≤ now → dueAt L1 d = []

structure Tim (v : V) : Prop where
  sorted : (v.ml .timer).Pairwise (fun x y => (v.att x).base ≤ (v.att y).base)
  due : ∀ d, (v.ml .timer).filter (fun x => (v.att x).base = d) = dueAt v.log d
  qd : ∀ x ∈ queuedList v.log, x < v.nmsg ∧ (∀ a, x ∉ v.ml (.out a)) ∧ ∀ w, x ∉ v.ml (.fl w)
  fd : ∀ x ∈ firedList v.log, x ∈ queuedList v.log ∧ x ∉ v.ml .timer
  qn : (queuedList v.log).Nodup
  fn : (firedList v.log).Nodup
  del : firedList v.log = deliveredList v.log ++ v.ml (.held 0)
  held : ∀ w, w ≠ 0 → v.ml (.held w) = []
  dl : ∀ a m d, Event.delayed a m d ∈ v.log → (∃ b, m ∈ v.ml (.out b)) ∨ (∃ w, m ∈ v.ml (.fl w)) ∨ m ∈ queuedList v.log
  h : TimH v.log

variable {v v' : V}

theorem TimH.snoc {L : List Event} (h : TimH L) {e : Event}
    (h1 : ∀ m d, e = .queued m d → ∃ a, Event.delayed a m d ∈ L)
    (h2 : ∀ m now, e = .fired m now → ∃ d, d ≤ now ∧ (dueAt L d).head? = some m ∧ ∀ d', d' < d → dueAt L d' = [])
    (h3 : ∀ now, e = .notFired now → ∀ d, d ≤ now → dueAt L d = []) : TimH (L ++ [e]) := by
  constructor
  · intro L1 L2 m d he
    rcases snoc_split he with ⟨rfl, h4, rfl⟩ | ⟨L3, rfl, h4⟩
    · exact h1 _ _ h4
    · exact h.q _ _ _ _ h4
  · intro L1 L2 m now he
    rcases snoc_split he with ⟨rfl, h4, rfl⟩ | ⟨L3, rfl, h4⟩
    · exact h2 _ _ h4
    · exact h.f _ _ _ _ h4
  · intro L1 L2 now he
    rcases snoc_split he with ⟨rfl, h4, rfl⟩ | ⟨L3, rfl, h4⟩
    · exact h3 _ h4
    · exact h.n _ _ _ h4

/-- Events that do not concern the timer. -/
def Event.untimed : Event → Prop
  | .queued .. => False
  | .fired .. => False
  | .notFired .. => False
  | .delivered .. => False
  | _ => True

theorem tim_init : Tim (view init (fun _ => []) (fun _ => [])) := by
  refine ⟨?_, ?_, ?_, ?_, ?_, ?_, ?_, ?_, ?_, ⟨?_, ?_, ?_⟩⟩ <;> simp [view, init, dueAt, queuedAt, queuedList, firedList, deliveredList]

theorem untimed_lists {L : List Event} {e : Event} (he : e.untimed) : queuedList (L ++ [e]) = queuedList L ∧
    firedList (L ++ [e]) = firedList L ∧ deliveredList (L ++ [e]) = deliveredList L ∧ ∀ d, dueAt (L ++ [e]) d = dueAt L d := by
  have h1 : firedList [e] = [] := by cases e <;> simp_all [Event.untimed, firedList]
  refine ⟨?_, by rw [firedList_append, h1, List.append_nil], ?_, ?_⟩
  · cases e <;> simp_all [Event.untimed, queuedList]
  · cases e <;> simp_all [Event.untimed, deliveredList]
  · intro d
    have : queuedAt [e] d = [] := by cases e <;> simp_all [Event.untimed, queuedAt]
    simp only [dueAt, firedList_append, queuedAt_append, h1, this, List.append_nil]

theorem tim_quiet (hv : VI v) (h : Tim v) (ht : v'.ml .timer = v.ml .timer) (hh : ∀ w, v'.ml (.held w) = v.ml (.held w))
    (hn : v.nmsg ≤ v'.nmsg) (hb : ∀ x, x < v.nmsg → (v'.att x).base = (v.att x).base)
    (hlog : v'.log = v.log ∨ ∃ e, v'.log = v.log ++ [e] ∧ e.untimed)
    (hmv : ∀ x, ((∃ a, x ∈ v'.ml (.out a)) ∨ ∃ w, x ∈ v'.ml (.fl w)) → ((∃ a, x ∈ v.ml (.out a)) ∨ ∃ w, x ∈ v.ml (.fl w)) ∨ v.nmsg ≤ x)
    (hdl : ∀ a m d, Event.delayed a m d ∈ v'.log → (Event.delayed a m d ∈ v.log → (∃ b, m ∈ v.ml (.out b)) ∨ ∃ w, m ∈ v.ml (.fl w)) →
      (∃ b, m ∈ v'.ml (.out b)) ∨ ∃ w, m ∈ v'.ml (.fl w)) :
    Tim v' := by
  have hl : queuedList v'.log = queuedList v.log ∧
    firedList v'.log = firedList v.log ∧ deliveredList v'.log = deliveredList v.log ∧ ∀ d, dueAt v'.log d = dueAt v.log d := by
    rcases hlog with h1 | ⟨e, h1, h2⟩ <;> rw [h1]
    · exact ⟨rfl, rfl, rfl, fun _ => rfl⟩
    · exact untimed_lists h2
  obtain ⟨l1, l2, l3, l4⟩ := hl
  have hb' : ∀ x ∈ v.ml .timer, (v'.att x).base = (v.att x).base := fun x hx => hb x (hv.mlt _ _ hx)
  refine ⟨?_, ?_, ?_, ?_, ?_, ?_, ?_, ?_, ?_, ?_⟩
  · rw [ht]
    refine h.sorted.imp_of_mem ?_
    intro x y hx hy hxy
    rw [hb' x hx, hb' y hy]; exact hxy
  · intro d
    rw [ht, l4, ← h.due d]
    apply List.filter_congr
    intro x hx
    rw [hb' x hx]
  · intro x hx
    rw [l1] at hx
    obtain ⟨h1, h2, h3⟩ := h.qd x hx
    refine ⟨by omega, ?_, ?_⟩
    · intro a ha
      rcases hmv x (.inl ⟨a, ha⟩) with (⟨a', h4⟩ | ⟨w', h4⟩) | h4
      · exact h2 _ h4
      · exact h3 _ h4
      · omega
    · intro a ha
      rcases hmv x (.inr ⟨a, ha⟩) with (⟨a', h4⟩ | ⟨w', h4⟩) | h4
      · exact h2 _ h4
      · exact h3 _ h4
      · omega
  · intro x hx
    rw [l2] at hx
    rw [l1, ht]; exact h.fd x hx
  · rw [l1]; exact h.qn
  · rw [l2]; exact h.fn
  · rw [l2, l3, hh]; exact h.del
  · intro w hw; rw [hh]; exact h.held w hw
  · intro a m d he
    by_cases hq : m ∈ queuedList v.log
    · right; right; rw [l1]; exact hq
    · rw [← or_assoc]; left
      apply hdl a m d he
      intro he'
      rcases h.dl a m d he' with h1 | h1 | h1
      · exact .inl h1
      · exact .inr h1
      · exact absurd h1 hq
  · rcases hlog with h1 | ⟨e, h1, h2⟩ <;> rw [h1]
    · exact h.h
    · exact h.h.snoc (fun m d he => by subst he; exact h2.elim) (fun m d he => by subst he; exact h2.elim) (fun d he => by subst he; exact h2.elim)

macro "quiet_dl" : tactic => `(tactic|
  (intro a m d he h1; have h2 := h1 (by simpa using he); simpa using h2))

theorem tim_step (hv : VI v) (hv' : VI v') {W : Nat → Nat → Prop} (hs : AStep W v v') (ho : Ord v) (h : Tim v) : Tim v' := by
  cases hs with
  | skip => exact h
  | noFire now hb =>
    refine ⟨h.sorted, ?_, ?_, ?_, ?_, ?_, ?_, h.held, by simpa [queuedList] using h.dl, ?_⟩
    · intro d
      simp only [dueAt, queuedAt_append, firedList_append]
      have := h.due d
      simpa [dueAt, queuedAt, firedList] using this
    · simpa [queuedList] using h.qd
    · simpa [queuedList, firedList] using h.fd
    · simpa [queuedList] using h.qn
    · simpa [firedList] using h.fn
    · simpa [firedList, deliveredList] using h.del
    · refine h.h.snoc (by simp) (by simp) ?_
      intro now' he d hd
      cases he
      rw [← h.due d, List.filter_eq_nil_iff]
      intro x hx
      simp only [decide_eq_true_eq]
      cases ht : v.ml .timer with
      | nil => rw [ht] at hx; cases hx
      | cons y t =>
        have h1 := hb y (by rw [ht]; rfl)
        have h2 := h.sorted
        rw [ht] at h2 hx
        rw [List.pairwise_cons] at h2
        rcases List.mem_cons.1 hx with rfl | h3
        · omega
        · have := h2.1 x h3; omega
  | take w i r t hw hr' hg => exact tim_quiet hv h rfl (fun _ => rfl) (Nat.le_refl _) (fun _ _ => rfl) (.inl rfl) (fun x hx => .inl hx) (by quiet_dl)
  | got w a m hw hm hf => exact tim_quiet hv h rfl (fun _ => rfl) (Nat.le_refl _) (fun _ _ => rfl) (.inr ⟨.ran a m (v.att m).cont (v.att m).val, rfl, trivial⟩) (fun x hx => .inl hx) (by quiet_dl)
  | send w a m dst c d hw hc hd =>
    refine tim_quiet hv h (by simp) (by simp) (Nat.le_succ _) ?_ (.inr ⟨_, rfl, by split <;> trivial⟩) ?_ ?_
    · intro x hx
      have : x ≠ v.nmsg := by omega
      simp only [upd_ne _ this]
    · intro x hx
      simp only [Function.update_apply, reduceCtorEq, if_false, MLoc.out.injEq] at hx
      rcases hx with ⟨b, hx⟩ | hx
      · split at hx
        · rename_i e
          subst e
          rcases List.mem_cons.1 hx with rfl | h1
          · exact .inr (Nat.le_refl _)
          · exact .inl (.inl ⟨_, h1⟩)
        · exact .inl (.inl ⟨_, hx⟩)
      · exact .inl (.inr hx)
    · intro a' m' d' he h1
      simp only [Function.update_apply, reduceCtorEq, if_false, MLoc.out.injEq]
      rcases List.mem_append.1 he with he' | he'
      · rcases h1 he' with ⟨b, h2⟩ | h2
        · left; refine ⟨b, ?_⟩
          split
          · rename_i e; subst e; exact List.mem_cons_of_mem _ h2
          · exact h2
        · exact .inr h2
      · left; refine ⟨a, ?_⟩
        simp only [List.mem_singleton] at he'
        split at he'
        · cases he'
        · cases he'; simp
  | retDone w a m mark x hw =>
    refine tim_quiet hv h (by simp) (by simp) (Nat.le_refl _) (fun _ _ => rfl) (.inl rfl) ?_ ?_
    · intro x hx
      simp only [Function.update_apply, reduceCtorEq, if_false, MLoc.out.injEq] at hx
      rcases hx with ⟨b, hx⟩ | hx
      · split at hx
        · rename_i e
          subst e
          exact .inl (.inl ⟨_, List.mem_reverse.1 hx⟩)
        · exact .inl (.inl ⟨_, hx⟩)
      · exact .inl (.inr hx)
    · intro a' m' d' he h1
      simp only [Function.update_apply, reduceCtorEq, if_false, MLoc.out.injEq]
      rcases h1 (by simpa using he) with ⟨b, h2⟩ | h2
      · left; refine ⟨b, ?_⟩
        split
        · rename_i e; subst e; exact List.mem_reverse.2 h2
        · exact h2
      · exact .inr h2
  | retCont w a m c x hw hc =>
    refine tim_quiet hv h rfl (fun _ => rfl) (Nat.le_refl _) ?_ (.inl rfl) (fun x hx => .inl hx) (by quiet_dl)
    intro y _
    exact (upd_att_pres v.att m { v.att m with cont := c, val := x } rfl rfl y).2
  | retWait w a m c x hw hc hx hW =>
    refine tim_quiet hv h (by simp) (by simp) (Nat.le_refl _) ?_ (.inr ⟨.awaits a m c x, rfl, trivial⟩) ?_ ?_
    · intro y _
      exact (upd_att_pres v.att m { v.att m with cont := c } rfl rfl y).2
    · intro x hx
      simp only [Function.update_apply, reduceCtorEq, if_false, MLoc.out.injEq] at hx
      rcases hx with ⟨b, hx⟩ | hx
      · split at hx
        · rename_i e
          subst e
          exact .inl (.inl ⟨_, List.mem_reverse.1 hx⟩)
        · exact .inl (.inl ⟨_, hx⟩)
      · exact .inl (.inr hx)
    · intro a' m' d' he h1
      simp only [Function.update_apply, reduceCtorEq, if_false, MLoc.out.injEq]
      rcases h1 (by simpa using he) with ⟨b, h2⟩ | h2
      · left; refine ⟨b, ?_⟩
        split
        · rename_i e; subst e; exact List.mem_reverse.2 h2
        · exact h2
      · exact .inr h2
  | addFrozen w a m x hw hx => exact tim_quiet hv h rfl (fun _ => rfl) (Nat.le_refl _) (fun _ _ => rfl) (.inl rfl) (fun x hx => .inl hx) (by quiet_dl)
  | addWait w a m x hw hx => exact tim_quiet hv h rfl (fun _ => rfl) (Nat.le_refl _) (fun _ _ => rfl) (.inl rfl) (fun x hx => .inl hx) (by quiet_dl)
  | flush w a m k hw =>
    refine tim_quiet hv h (by simp) (by simp) (Nat.le_refl _) (fun _ _ => rfl) (.inl rfl) ?_ ?_
    · intro x hx
      simp only [Function.update_apply, reduceCtorEq, if_false, MLoc.out.injEq, MLoc.fl.injEq] at hx
      rcases hx with ⟨b, hx⟩ | ⟨w', hx⟩
      · split at hx
        · cases hx
        · exact .inl (.inl ⟨_, hx⟩)
      · split at hx
        · exact .inl (.inl ⟨_, hx⟩)
        · exact .inl (.inr ⟨_, hx⟩)
    · intro a' m' d' he h1
      simp only [Function.update_apply, reduceCtorEq, if_false, MLoc.out.injEq, MLoc.fl.injEq]
      have hno : v.ml (.fl w) = [] := by
        have := hv.fl w
        rw [hw] at this
        exact List.head?_eq_none_iff.1 this
      rcases h1 he with ⟨b, h2⟩ | ⟨w', h2⟩
      · by_cases e : b = a
        · right; exact ⟨w, by simpa [e] using h2⟩
        · left; exact ⟨b, by simpa [e] using h2⟩
      · right; refine ⟨w', ?_⟩
        split
        · rename_i e; rw [e, hno] at h2; cases h2
        · exact h2
  | loopNow w a m x k t hw ht hb =>
    have hxfl : x ∈ v.ml (.fl w) := by rw [ht]; simp
    have hsent : ∃ b r, Event.sent b r x ∈ v.log := by
      obtain ⟨pd, ho, hl, -⟩ := ho
      obtain ⟨hp, -⟩ := ho.fl w a (by rw [hw]; rfl)
      obtain ⟨hd, h1, h2, -⟩ := hl.kind a x (by rw [hp]; exact hxfl)
      have h3 := hv.cur w a m (by rw [hw]; rfl)
      simp only [h3, Option.some.injEq] at h1
      subst h1
      exact ⟨a, _, h2 hb⟩
    refine tim_quiet hv h (by simp) (by simp) (Nat.le_refl _) (fun _ _ => rfl) (.inl rfl) ?_ ?_
    · intro y hy
      simp only [Function.update_apply, reduceCtorEq, if_false, MLoc.fl.injEq] at hy
      rcases hy with hy | ⟨w', hy⟩
      · exact .inl (.inl hy)
      · split at hy
        · exact .inl (.inr ⟨w, by rw [ht]; exact List.mem_cons_of_mem _ hy⟩)
        · exact .inl (.inr ⟨_, hy⟩)
    · intro a' m' d' he h1
      simp only [Function.update_apply, reduceCtorEq, if_false, MLoc.fl.injEq]
      rcases h1 he with h2 | ⟨w', h2⟩
      · exact .inl h2
      · right; refine ⟨w', ?_⟩
        split
        · rename_i e
          rw [e, ht] at h2
          rcases List.mem_cons.1 h2 with rfl | h3
          · exfalso
            obtain ⟨pd, -, hl, -⟩ := ho
            obtain ⟨b, r, hbr⟩ := hsent
            have := hl.uniq _ _ m' he hbr rfl rfl
            cases this
          · exact h3
        · exact h2
  | loopTimed w a m x k t A B hw ht hb hAB hA hB =>
    have hxfl : x ∈ v.ml (.fl w) := by rw [ht]; simp
    have hxlt := hv.mlt _ _ hxfl
    have hxq : x ∉ queuedList v.log := fun hx => (h.qd x hx).2.2 w hxfl
    have hxf : x ∉ firedList v.log := fun hx => hxq (h.fd x hx).1
    have hsB : ∀ z ∈ B, (v.att x).base < (v.att z).base := by
      have h1 := h.sorted
      rw [hAB, List.pairwise_append] at h1
      cases B with
      | nil => simp
      | cons y B' =>
        have h2 := hB y rfl
        have h3 := h1.2.1
        rw [List.pairwise_cons] at h3
        intro z hz
        rcases List.mem_cons.1 hz with rfl | h4
        · exact h2
        · have := h3.1 z h4; omega
    have hdel : ∃ b, Event.delayed b x (v.att x).base ∈ v.log := by
      obtain ⟨pd, ho, hl, -⟩ := ho
      obtain ⟨hp, -⟩ := ho.fl w a (by rw [hw]; rfl)
      obtain ⟨hd, h1, -, h2⟩ := hl.kind a x (by rw [hp]; exact hxfl)
      have h3 := hv.cur w a m (by rw [hw]; rfl)
      simp only [h3, Option.some.injEq] at h1
      subst h1
      exact ⟨a, h2 hb⟩
    refine ⟨?_, ?_, ?_, ?_, ?_, ?_, ?_, ?_, ?_, ?_⟩
    · simp only [update_self]
      have h1 := h.sorted
      rw [hAB, List.pairwise_append] at h1
      rw [List.pairwise_append, List.pairwise_cons]
      refine ⟨h1.1, ⟨fun z hz => by have := hsB z hz; omega, h1.2.1⟩, ?_⟩
      intro y hy z hz
      rcases List.mem_cons.1 hz with rfl | h4
      · exact hA y hy
      · exact h1.2.2 y hy z h4
    · intro d
      have h1 := h.due d
      rw [hAB, List.filter_append] at h1
      simp only [update_self, List.filter_append, List.filter_cons, dueAt, queuedAt_append, firedList_append]
      rw [show firedList [Event.queued x (v.att x).base] = [] from rfl, List.append_nil]
      rw [show queuedAt [Event.queued x (v.att x).base] d = if (v.att x).base = d then [x] else [] by
        by_cases e : (v.att x).base = d <;> simp [queuedAt, e]]
      rw [← dueAt, ← h1]
      by_cases e : (v.att x).base = d
      · have hBn : B.filter (fun x => decide ((v.att x).base = d)) = [] := by
          rw [List.filter_eq_nil_iff]
          intro z hz
          have := hsB z hz
          simp; omega
        simp [e, hBn, hxf]
      · simp [e]
    · intro y hy
      simp only [queuedList_append, List.mem_append] at hy
      simp only [Function.update_apply, reduceCtorEq, if_false, MLoc.fl.injEq]
      rcases hy with hy | hy
      · obtain ⟨h1, h2, h3⟩ := h.qd y hy
        refine ⟨h1, h2, ?_⟩
        intro w'
        split
        · intro h4; exact h3 w (by rw [ht]; exact List.mem_cons_of_mem _ h4)
        · exact h3 w'
      · simp [queuedList] at hy
        subst hy
        refine ⟨hxlt, ?_, ?_⟩
        · intro b hb'
          have := hv.Mdisj _ _ y hb' hxfl; cases this
        · intro w'
          split
          · have := hv.Mnodup (.fl w)
            rw [ht, List.nodup_cons] at this
            exact this.1
          · rename_i e
            intro h4
            have := hv.Mdisj _ _ y h4 hxfl
            exact e (by simpa using this)
    · intro y hy
      have hy' : y ∈ firedList v.log := by simpa [firedList] using hy
      obtain ⟨h1, h2⟩ := h.fd y hy'
      refine ⟨by simp [h1], ?_⟩
      simp only [update_self]
      rw [hAB] at h2
      have : y ≠ x := fun e => hxf (e ▸ hy')
      simp only [List.mem_append, List.mem_cons, not_or] at h2 ⊢
      exact ⟨h2.1, this, h2.2⟩
    · simp only [queuedList_append]
      rw [List.nodup_append]
      refine ⟨h.qn, by simp [queuedList], ?_⟩
      intro y hy z hz
      simp [queuedList] at hz
      rintro rfl
      exact hxq (hz ▸ hy)
    · simpa [firedList] using h.fn
    · simpa [firedList, deliveredList] using h.del
    · intro w' hw'; simpa using h.held w' hw'
    · intro a' m' d' he
      have he' : Event.delayed a' m' d' ∈ v.log := by simpa using he
      simp only [Function.update_apply, reduceCtorEq, if_false, MLoc.fl.injEq, queuedList_append, List.mem_append]
      rcases h.dl a' m' d' he' with h1 | ⟨w', h1⟩ | h1
      · exact .inl h1
      · by_cases e : w' = w
        · rw [e, ht] at h1
          rcases List.mem_cons.1 h1 with rfl | h2
          · right; right; right; simp [queuedList]
          · right; left; exact ⟨w, by simpa using h2⟩
        · right; left; exact ⟨w', by simpa [e] using h1⟩
      · exact .inr (.inr (.inl h1))
    · refine h.h.snoc ?_ (by simp) (by simp)
      intro m' d he
      cases he
      exact hdel
  | resume w a m x hw =>
    refine tim_quiet hv h rfl (fun _ => rfl) (Nat.le_refl _) ?_ (.inl rfl) (fun x hx => .inl hx) (by quiet_dl)
    intro y _
    exact (upd_att_pres v.att m { v.att m with cont := wakeCont (v.att x).cont (v.att m).cont, val := (v.att x).val } rfl rfl y).2
  | freeze w a m mark x hw =>
    refine tim_quiet hv h rfl (fun _ => rfl) (Nat.le_refl _) ?_ (.inr ⟨.completed m mark x, rfl, trivial⟩) (fun x hx => .inl hx) (by quiet_dl)
    intro y _
    exact (upd_att_pres v.att m { v.att m with cont := mark, val := x } rfl rfl y).2
  | wake w a m mark x b y t hw ht hy hf hb =>
    refine tim_quiet hv h rfl (fun _ => rfl) (Nat.le_refl _) ?_ (.inl rfl) (fun x hx => .inl hx) (by quiet_dl)
    intro z _
    exact (upd_att_pres v.att y { v.att y with cont := wakeCont mark (v.att y).cont, val := x } rfl rfl z).2
  | deq w a m t hw ht =>
    refine tim_quiet hv h (by simp) (by simp) (Nat.le_refl _) (fun _ _ => rfl) (.inr ⟨.finished a m, rfl, trivial⟩) (fun x hx => .inl (by simpa using hx)) (by quiet_dl)
  | ready w b i k hw => exact tim_quiet hv h rfl (fun _ => rfl) (Nat.le_refl _) (fun _ _ => rfl) (.inl rfl) (fun x hx => .inl hx) (by quiet_dl)
  | timed w x hw hx =>
    have hw0 : w = 0 := by
      by_contra hne
      rw [h.held w hne] at hx; cases hx
    subst hw0
    refine ⟨?_, ?_, ?_, ?_, ?_, ?_, ?_, ?_, ?_, ?_⟩
    · simpa using h.sorted
    · intro d
      have := h.due d
      simp only [dueAt, queuedAt_append, firedList_append]
      simpa [dueAt, queuedAt, firedList] using this
    · simpa [queuedList] using h.qd
    · simpa [queuedList, firedList] using h.fd
    · simpa [queuedList] using h.qn
    · simpa [firedList] using h.fn
    · have := h.del
      rw [hx] at this
      simpa [firedList, deliveredList] using this
    · intro w' hw'; simpa [hw'] using h.held w' hw'
    · simpa [queuedList] using h.dl
    · exact h.h.snoc (by simp) (by simp) (by simp)
  | ext w dst c now hw hc =>
    refine tim_quiet hv h (by simp) (by simp) (Nat.le_succ _) ?_ (.inr ⟨.ext dst v.nmsg, rfl, trivial⟩) (fun x hx => .inl (by simpa using hx)) (by quiet_dl)
    intro x hx
    have : x ≠ v.nmsg := by omega
    simp only [upd_ne _ this]
  | fire x now t hw hx hb =>
    have hxt : x ∈ v.ml .timer := by rw [hx]; simp
    have hnd := hv.Mnodup .timer
    rw [hx, List.nodup_cons] at hnd
    have hheld : v.ml (.held 0) = [] := by
      have := hv.held 0
      rw [hw] at this
      exact List.head?_eq_none_iff.1 this
    have hsort := h.sorted
    rw [hx, List.pairwise_cons] at hsort
    have hxf : x ∉ firedList v.log := fun h1 => (h.fd x h1).2 hxt
    have hdue := h.due (v.att x).base
    rw [hx, List.filter_cons, if_pos (by simp)] at hdue
    have hxq : x ∈ queuedList v.log := by
      have : x ∈ dueAt v.log (v.att x).base := by rw [← hdue]; simp
      simp only [dueAt, List.mem_filter] at this
      rw [mem_queuedList]
      exact ⟨_, (mem_queuedAt ..).1 this.1⟩
    refine ⟨?_, ?_, ?_, ?_, ?_, ?_, ?_, ?_, ?_, ?_⟩
    · simpa using hsort.2
    · intro d
      have h1 := h.due d
      have e1 : dueAt (v.log ++ [.fired x now]) d = (dueAt v.log d).filter (· ≠ x) := by
        simp only [dueAt, queuedAt_append, firedList_append, List.filter_filter]
        rw [show queuedAt [Event.fired x now] d = [] from rfl, List.append_nil]
        apply List.filter_congr
        intro y _
        simp [firedList]
        by_cases h5 : y = x <;> simp [h5]
      simp only [e1, ← h1, hx]
      rw [update_of_ne (by simp), update_self, List.filter_filter, List.filter_cons, if_neg (by simp)]
      apply List.filter_congr
      intro y hy
      have : y ≠ x := fun e => hnd.1 (e ▸ hy)
      simp [this]
    · simpa [queuedList] using h.qd
    · intro y hy
      simp only [firedList_append, List.mem_append] at hy
      refine ⟨?_, ?_⟩
      · rcases hy with hy | hy
        · simpa [queuedList] using (h.fd y hy).1
        · simp [firedList] at hy; subst hy; simpa [queuedList] using hxq
      · show y ∉ update (update v.ml MLoc.timer t) (MLoc.held 0) [x] .timer
        rw [update_of_ne (by simp), update_self]
        rcases hy with hy | hy
        · have := (h.fd y hy).2
          rw [hx] at this
          exact fun h5 => this (List.mem_cons_of_mem _ h5)
        · simp [firedList] at hy; subst hy; exact hnd.1
    · simpa [queuedList] using h.qn
    · simp only [firedList_append]
      rw [List.nodup_append]
      refine ⟨h.fn, by simp [firedList], ?_⟩
      intro y hy z hz
      simp [firedList] at hz
      rintro rfl
      exact hxf (hz ▸ hy)
    · have := h.del
      rw [hheld, List.append_nil] at this
      simp [this]
      simp [firedList, deliveredList]
    · intro w' hw'; simpa [hw'] using h.held w' hw'
    · simpa [queuedList] using h.dl
    · refine h.h.snoc (by simp) ?_ (by simp)
      intro m' now' he
      cases he
      refine ⟨(v.att x).base, hb, by rw [← hdue]; rfl, ?_⟩
      intro d' hd'
      rw [← h.due d', hx, List.filter_eq_nil_iff]
      intro y hy
      simp only [decide_eq_true_eq]
      rcases List.mem_cons.1 hy with rfl | h3
      · omega
      · have := hsort.1 y h3; omega

end Verif.Rts
