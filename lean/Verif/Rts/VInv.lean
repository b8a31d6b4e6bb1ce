import Verif.Rts.Abs
import Verif.Rts.Spec
/-!
# The invariant on lists
-/
namespace Verif.Rts
open Verif Function

/-- The invariant in terms of the view. -/
structure VI (v : V) : Prop where
  Mnodup : ∀ l, (v.ml l).Nodup
  Mdisj : ∀ l l' x, x ∈ v.ml l → x ∈ v.ml l' → l = l'
  Anodup : ∀ l, (v.al l).Nodup
  Adisj : ∀ l l' x, x ∈ v.al l → x ∈ v.al l' → l = l'
  own : ∀ w, v.al (.own w) = (owner (v.wk w)).toList
  rdy : ∀ w, v.al (.rdy w) = rdys (v.wk w)
  live : ∀ a, (∃ l, a ∈ v.al l) ↔ v.ml (.mq a) ≠ []
  mto : ∀ a m, m ∈ v.ml (.mq a) → (v.att m).dst = a
  mlt : ∀ l m, m ∈ v.ml l → m < v.nmsg
  cur : ∀ w a m, curOf (v.wk w) = some (a, m) → (v.ml (.mq a)).head? = some m
  post : ∀ w a, poster (v.wk w) = some a →
    (∀ w', owner (v.wk w') ≠ some a) ∧ ∀ w', poster (v.wk w') = some a → w' = w
  frz : ∀ m l, m ∈ v.ml l → v.frozen m → ∃ w a, frozenOf (v.wk w) = some (a, m)
  frzW : ∀ m, v.frozen m → v.al (.waiting m) = []
  frzO : ∀ w a m, frozenOf (v.wk w) = some (a, m) → v.frozen m
  fresh : ∀ m, v.nmsg ≤ m → v.frozen m
  wait : ∀ a x, a ∈ v.al (.waiting x) → v.wf a = some x
  waitk : ∀ b w, b ∈ v.al (.wake w) → ∃ a m, frozenOf (v.wk w) = some (a, m) ∧ v.wf b = some m
  nowait : ∀ a, v.wf a ≠ none → (∃ x, a ∈ v.al (.waiting x)) ∨ ∃ w, a ∈ v.al (.wake w)
  mark : ∀ w, markOk (v.wk w)
  fl : ∀ w, (v.ml (.fl w)).head? = flPtr (v.wk w)
  held : ∀ w, (v.ml (.held w)).head? = heldPtr (v.wk w)
  wake : ∀ w, (v.al (.wake w)).head? = wakePtr (v.wk w)
  held1 : ∀ w, (v.ml (.held w)).length ≤ 1

theorem vi_of {s : State} {ml : MLoc → List Nat} {al : ALoc → List Nat} (h : Core s ml al)
    (hl : ∀ w, (ml (.held w)).length ≤ 1) : VI (view s ml al) where
  Mnodup := h.M.nodup
  Mdisj := h.M.disj
  Anodup := h.A.nodup
  Adisj := h.A.disj
  own := h.own
  rdy := h.rdy
  live := h.live
  mto := h.mto
  mlt := h.mlt
  cur := h.cur
  post := h.post
  frz := h.frz
  frzW := h.frzW
  frzO := h.frzO
  fresh := h.fresh
  wait := h.wait
  waitk := h.waitk
  nowait := h.nowait
  mark := h.mark
  fl w := (h.headM_eq (.fl w)).symm
  held w := (h.headM_eq (.held w)).symm
  wake w := ((h.A.chain (.wake w) trivial).head).symm
  held1 := hl

theorem held_step {W : Nat → Nat → Prop} {v v' : V} (h : AStep W v v') (hl : ∀ w, (v.ml (.held w)).length ≤ 1) (w : Nat) :
    (v'.ml (.held w)).length ≤ 1 := by
  cases h <;> (try simp only [Function.update_apply, reduceCtorEq, if_false]) <;> try exact hl w
  case timed => split
                · simp
                · exact hl w
  case fire => split
               · simp
               · exact hl w

/-- An invariant that may use the condition on awaits and from which the condition on schedules follows. -/
theorem reach_inv' {G : State → Label → Prop} {I : V → Prop} {W : V → Nat → Nat → Prop}
    (hG : ∀ s l ml al, G s l → Core s ml al → VI (view s ml al) → I (view s ml al) → NoOverlap s l)
    (hW : ∀ s l ml al a x, G s l → Core s ml al → WaitsIn s l a x → W (view s ml al) a x)
    (h0 : I (view init (fun _ => []) (fun _ => []))) (hstep : ∀ v v', VI v → VI v' → AStep (W v) v v' → I v → I v') {s : State}
    (h : Reach G s) : ∃ ml al, Core s ml al ∧ VI (view s ml al) ∧ I (view s ml al) := by
  suffices ∃ ml al, Core s ml al ∧ (∀ w, (ml (.held w)).length ≤ 1) ∧ I (view s ml al) by
    obtain ⟨ml, al, h1, h2, h3⟩ := this
    exact ⟨ml, al, h1, vi_of h1 h2, h3⟩
  induction h with
  | init => exact ⟨_, _, core_init, by simp, h0⟩
  | step _ hg hs ih =>
    obtain ⟨ml, al, h1, h2, h3⟩ := ih
    obtain ⟨s', ml', al', e, h4, h5⟩ := refine h1 h2 (hG _ _ _ _ hg h1 (vi_of h1 h2) h3) hs
    cases e
    have hl := held_step h5 h2
    exact ⟨ml', al', h4, hl, hstep _ _ (vi_of h1 h2) (vi_of h4 hl) (h5.mono (fun a x => hW _ _ _ _ a x hg h1)) h3⟩

theorem reach_inv {G : State → Label → Prop} {I : V → Prop} (hG : ∀ s l, G s l → NoOverlap s l)
    (h0 : I (view init (fun _ => []) (fun _ => [])))
    (hstep : ∀ v v' (W : Nat → Nat → Prop), VI v → VI v' → AStep W v v' → I v → I v') {s : State}
    (h : Reach G s) : ∃ ml al, Core s ml al ∧ VI (view s ml al) ∧ I (view s ml al) :=
  reach_inv' (W := fun _ _ _ => True) (fun s l _ _ hg _ _ _ => hG s l hg) (fun _ _ _ _ _ _ _ _ _ => trivial) h0 (fun v v' => hstep v v' _) h

end Verif.Rts
