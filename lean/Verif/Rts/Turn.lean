import Verif.Rts.Syn
/-!
# One message at a time
-/
namespace Verif.Rts
open Verif Function

structure Turn (v : V) : Prop where
  cur : ∀ r m, started v.log r = some m → (v.ml (.mq r)).head? = some m
  ran : ∀ L1 L2 r m c x, v.log = L1 ++ Event.ran r m c x :: L2 → started L1 r = none ∨ started L1 r = some m

variable {v v' : V}

theorem turn_init : Turn (view init (fun _ => []) (fun _ => [])) := by
  constructor <;> simp [view, init, started]

theorem turn_still (h : Turn v) (hq : ∀ a m, (v.ml (.mq a)).head? = some m → (v'.ml (.mq a)).head? = some m)
    (hlog : v'.log = v.log ∨ ∃ e, v'.log = v.log ++ [e] ∧ (∀ a m c u, e ≠ .ran a m c u) ∧ ∀ a m, e ≠ .finished a m) : Turn v' := by
  constructor
  · intro r m hr
    apply hq
    apply h.cur
    rcases hlog with h1 | ⟨e, h1, h2, h3⟩
    · rw [h1] at hr; exact hr
    · rw [h1, started_snoc] at hr
      cases e with
      | ran a m c u => exact absurd rfl (h2 a m c u)
      | finished a m => exact absurd rfl (h3 a m)
      | _ => exact hr
  · intro L1 L2 r m c x hr
    rcases hlog with h1 | ⟨e, h1, h2, h3⟩
    · rw [h1] at hr; exact h.ran _ _ _ _ _ _ hr
    · rw [h1] at hr
      rcases snoc_split hr with ⟨-, h4, -⟩ | ⟨L3, -, h4⟩
      · exact absurd h4 (h2 _ _ _ _)
      · exact h.ran _ _ _ _ _ _ h4

theorem turn_step (hv : VI v) {W : Nat → Nat → Prop} (hs : AStep W v v') (h : Turn v) : Turn v' := by
  cases hs with
  | skip => exact h
  | got w a m hw hm hf =>
    constructor
    · intro r m' hr
      simp only [started_snoc] at hr
      split at hr
      · rename_i e; subst e; cases hr; exact hm
      · exact h.cur r m' hr
    · intro L1 L2 r m' c x hr
      rcases snoc_split hr with ⟨rfl, h4, rfl⟩ | ⟨L3, rfl, h4⟩
      · cases h4
        cases hst : started v.log a with
        | none => exact .inl rfl
        | some y =>
          have := h.cur a y hst
          rw [hm] at this
          right; exact this.symm
      · exact h.ran _ _ _ _ _ _ h4
  | deq w a m t hw ht =>
    constructor
    · intro r m' hr
      simp only [started_snoc] at hr
      split at hr
      · cases hr
      · rename_i e
        have : r ≠ a := fun h => e h.symm
        simpa [this] using h.cur r m' hr
    · intro L1 L2 r m' c x hr
      rcases snoc_split hr with ⟨-, h4, -⟩ | ⟨L3, -, h4⟩
      · cases h4
      · exact h.ran _ _ _ _ _ _ h4
  | loopNow w a m x k t hw ht hb =>
    refine turn_still h ?_ (.inl rfl)
    intro b m' hm'
    simp only [Function.update_apply, reduceCtorEq, if_false, MLoc.mq.injEq]
    split
    · rename_i e; subst e; exact head_append hm'
    · exact hm'
  | timed w x hw hx =>
    refine turn_still h ?_ (.inr ⟨_, rfl, by simp, by simp⟩)
    intro b m' hm'
    simp only [Function.update_apply, reduceCtorEq, if_false, MLoc.mq.injEq]
    split
    · rename_i e; subst e; exact head_append hm'
    · exact hm'
  | ext w dst c now hw hc =>
    refine turn_still h ?_ (.inr ⟨_, rfl, by simp, by simp⟩)
    intro b m' hm'
    simp only [Function.update_apply, MLoc.mq.injEq]
    split
    · rename_i e; subst e; exact head_append hm'
    · exact hm'
  | send w a m dst c d hw hc hd =>
    refine turn_still h (fun _ _ h => by simpa using h) (.inr ⟨_, rfl, ?_, ?_⟩) <;> (intros; split <;> simp)
  | _ =>
    first
    | exact turn_still h (fun _ _ h => by simpa using h) (.inl rfl)
    | exact turn_still h (fun _ _ h => by simpa using h) (.inr ⟨_, rfl, by simp, by simp⟩)

/-- Everything together. -/
structure All (v : V) : Prop where
  ord : Ord v
  aw : Aw v
  tim : Tim v
  turn : Turn v

theorem all_init : All (view init (fun _ => []) (fun _ => [])) := ⟨ord_init, aw_init, tim_init, turn_init⟩

theorem all_step (hv : VI v) (hv' : VI v') {W : Nat → Nat → Prop} (hs : AStep W v v') (h : All v) : All v' :=
  ⟨ord_step hv hv' hs h.ord, aw_step hv hv' hs h.aw, tim_step hv hv' hs h.ord h.tim, turn_step hv hs h.turn⟩

theorem reach_all {G : State → Label → Prop} (hG : ∀ s l, G s l → NoOverlap s l) {s : State} (h : Reach G s) :
    ∃ ml al, Core s ml al ∧ VI (view s ml al) ∧ All (view s ml al) :=
  reach_inv hG all_init (fun _ _ _ h1 h2 h3 h4 => all_step h1 h2 h3 h4) h

theorem Core.ready_head {s : State} {ml : MLoc → List Nat} {al : ALoc → List Nat} (h : Core s ml al) {i r : Nat}
    (hr : (s.rqs i).head = some r) : r ∈ al (.ready i) := by
  have := (h.A.chain (.ready i) trivial).head
  simp only [headA, hr] at this
  exact List.mem_of_head? this.symm

/-- Executions in which actors await only the message sent last satisfy the condition on schedules. -/
theorem reach_sync {s : State} (h : Reach Sync s) : ∃ ml al, Core s ml al ∧ VI (view s ml al) ∧ Syn (view s ml al) := by
  refine reach_inv' (W := fun v a x => v.frozen x ∨ (v.ml (.out a)).head? = some x) ?_ ?_ syn_init
    (fun v v' h1 h2 h3 h4 => syn_step h1 h2 h3 h4) h
  · intro s l ml al _ hc hv hI
    cases l with
    | take w shared =>
      intro r w' hr
      exact hI.noOverlap hv (i := takeQueue w shared) (hc.ready_head hr)
    | _ => trivial
  · rintro s l ml al a x hG hc ⟨w, m, c, rfl, hw⟩
    simp only [Sync, hw] at hG
    rcases hG with hG | hG
    · exact .inl hG
    · right; rw [← hG]; exact (hc.headM_eq (.out a)).symm

theorem sync_noOverlap {s : State} (h : Reach Sync s) (l : Label) : NoOverlap s l := by
  obtain ⟨ml, al, hc, hv, hI⟩ := reach_sync h
  cases l with
  | take w shared =>
    intro r w' hr
    exact hI.noOverlap hv (i := takeQueue w shared) (hc.ready_head hr)
  | _ => trivial

theorem sync_reach {s : State} (h : Reach Sync s) : Reach NoOverlap s := by
  induction h with
  | init => exact .init
  | step h1 _ hs ih => exact .step ih (sync_noOverlap h1 _) hs

end Verif.Rts
