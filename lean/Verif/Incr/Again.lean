import Verif.Incr.Sound

namespace Verif.Incr

set_option linter.unusedSectionVars false

variable {κ ν η σ τ : Type} [DecidableEq κ] [DecidableEq ν] [DecidableEq η]
variable {C : Compiler κ ν η σ τ}

/-! ## What holds of the records without assumptions on the front passes -/

/-- The index of a refreshed record. -/
theorem refresh_idx {look : Look κ ν η σ τ} {r : Rec κ ν η σ τ} (hk : Kept C r)
    (hall : r.rows.all (fun x => !x.own.isSome ||
      (resolve C Row.impl look (x.implDeps.map Prod.fst)).isSome) = true) :
    pubIdx (r.rows.map (refreshRow C look r.rows)) = pubIdx r.rows ∧
    (∀ x ∈ implIdx (r.rows.map (refreshRow C look r.rows)),
      hashOf C Row.impl look x.1 = some x.2) ∧
    (∀ x ∈ r.rows.map (refreshRow C look r.rows), x.own = none → x.implDeps = []) ∧
    modPub C (r.rows.map (refreshRow C look r.rows)) = modPub C r.rows := by
  have hf : ∀ x : Row κ ν η, (refreshRow C look r.rows x).name = x.name ∧
      (refreshRow C look r.rows x).pub = x.pub ∧
      (refreshRow C look r.rows x).pubDeps = x.pubDeps ∧
      (refreshRow C look r.rows x).own = x.own := by
    intro x
    simp only [refreshRow]
    split <;> exact ⟨rfl, rfl, rfl, rfl⟩
  have hd : ∀ x ∈ r.rows, (x.own = none → (refreshRow C look r.rows x).implDeps = []) ∧
      ∀ y ∈ (refreshRow C look r.rows x).implDeps, hashOf C Row.impl look y.1 = some y.2 := by
    intro x hx
    simp only [refreshRow]
    by_cases h : x.own.isSome
    · rw [if_pos h]
      refine ⟨fun h' => by simp [h'] at h, fun y hy => ?_⟩
      have hy : y ∈ newDeps C look x := hy
      rw [newDeps, if_pos h] at hy
      have := List.all_eq_true.1 hall x hx
      simp only [h, Bool.not_true, Bool.false_or] at this
      exact (resolved_spec this).2 y hy
    · rw [if_neg h]
      have := hk.items x hx (by simpa using h)
      rw [this]
      exact ⟨fun _ => rfl, fun y hy => by cases hy⟩
  refine ⟨?_, ?_, ?_, ?_⟩
  · simp only [pubIdx, List.flatMap_map, (hf _).2.2.1]
  · intro y hy
    simp only [implIdx, List.flatMap_map, List.mem_flatMap] at hy
    obtain ⟨x, hx, hy⟩ := hy
    exact (hd x hx).2 y hy
  · intro y hy h
    obtain ⟨x, hx, rfl⟩ := List.mem_map.1 hy
    rw [(hf x).2.2.2] at h
    exact (hd x hx).1 h
  · simp only [modPub, List.filter_map, List.map_map, Function.comp_def, (hf _).1, (hf _).2.1]

/-- What a step leaves on disk, and that its hashes are current. -/
def Settled (C : Compiler κ ν η σ τ) (look : Look κ ν η σ τ) (s : σ) (r : Rec κ ν η σ τ) : Prop :=
  Kept C r ∧ r.src = s ∧ importsThere C look s = true ∧ PubCurrent C look r ∧ ImplCurrent C look r

theorem compile_settled {look : Look κ ν η σ τ} (hw : WFLook C look) {s : σ}
    {r : Rec κ ν η σ τ} (h : compile C look s = some r) : Settled C look s r := by
  obtain ⟨hv, hs⟩ := valid_compile hw h
  obtain ⟨hm, t, -, ho, rfl⟩ := compile_some h
  obtain ⟨h1, h2⟩ := idx_hash ho
  exact ⟨hv.toKept, hs, hm, h1, h2⟩

section
variable [DecidableEq σ]

theorem step_settled (hI : Ideal C) {look : Look κ ν η σ τ} (hw : WFLook C look)
    {stored : Option (Rec κ ν η σ τ)} (hk : ∀ r, stored = some r → Kept C r) {s : σ}
    {r' : Rec κ ν η σ τ} (h : step C look stored s = some r') : Settled C look s r' := by
  cases stored with
  | none => exact compile_settled hw h
  | some r =>
      have hk := hk r rfl
      simp only [step] at h
      by_cases hs : r.src = s
      · subst hs
        rw [if_pos rfl] at h
        by_cases hm : importsThere C look r.src = true
        · rw [if_pos hm] at h
          obtain ⟨d1, d2⟩ := decision_iff hI hw hk
          cases hd : decision C look r with
          | front => rw [hd] at h; exact compile_settled hw h
          | reuse =>
              rw [hd] at h
              obtain ⟨hp, hi⟩ := d2.1 hd
              cases h
              exact ⟨hk, rfl, hm, hp, hi⟩
          | refresh =>
              rw [hd] at h
              have h : refresh C look r = some r' := h
              obtain ⟨hp, hi⟩ := d1.1 (by rw [hd]; decide)
              simp only [refresh] at h
              split at h
              · rename_i hall
                split at h
                · obtain ⟨e1, e2, e3, e4⟩ := refresh_idx hk hall
                  simp only [Option.some.injEq] at h
                  subst h
                  have hp' : ∀ x ∈ pubIdx (r.rows.map (refreshRow C look r.rows)),
                      hashOf C Row.pub look x.1 = some x.2 := by rw [e1]; exact hp
                  obtain ⟨h5, h6, h7⟩ := depMods_ok hw hp' e2
                  exact ⟨⟨⟨hk.wf.1.trans e4.symm, rfl⟩, h5, h6, h7, e3⟩, rfl, hm, hp', e2⟩
                · exact compile_settled hw h
              · exact compile_settled hw h
        · rw [if_neg hm] at h; cases h
      · rw [if_neg hs] at h
        exact compile_settled hw h

/-- The compiler without front passes. -/
def mute (C : Compiler κ ν η σ τ) : Compiler κ ν η σ τ := { C with front := fun _ _ => none }

theorem compile_mute (look : Look κ ν η σ τ) (s : σ) : compile (mute C) look s = none := by
  simp only [compile]
  split
  · rfl
  · rfl

theorem resolve_mute (get : Row κ ν η → Option η) (look : Look κ ν η σ τ) :
    ∀ ds, resolve (mute C) get look ds = resolve C get look ds
  | [] => rfl
  | d :: ds => by
      rw [resolve, resolve, resolve_mute get look ds]; rfl

theorem refreshRow_mute (look : Look κ ν η σ τ) (rows : List (Row κ ν η)) (r : Row κ ν η) :
    refreshRow (mute C) look rows r = refreshRow C look rows r := by
  have : ∀ r, newDeps (mute C) look r = newDeps C look r := fun r => by
    simp only [newDeps, resolved, resolve_mute]
  simp only [refreshRow, this, funext this]
  rfl

theorem step_again (hI : Ideal C) {look : Look κ ν η σ τ} (hw : WFLook C look) {s : σ}
    {r : Rec κ ν η σ τ} (h : Settled C look s r) : step (mute C) look (some r) s = some r := by
  obtain ⟨hk, hs, hm, hp, hi⟩ := h
  have hd := (decision_iff hI hw hk).2.2 ⟨hp, hi⟩
  have hd : decision (mute C) look r = .reuse := hd
  have hm : importsThere (mute C) look s = true := hm
  simp only [step]
  rw [if_pos hs, if_pos hm, hd]

theorem step_none {look : Look κ ν η σ τ} {stored : Option (Rec κ ν η σ τ)} {s : σ}
    (h : step C look stored s = none) : step (mute C) look stored s = none := by
  cases stored with
  | none => exact compile_mute look s
  | some r =>
      simp only [step] at h ⊢
      split
      · rename_i hs
        rw [if_pos hs] at h
        split
        · rename_i hm
          rw [if_pos (show importsThere C look s = true from hm)] at h
          have hd : decision (mute C) look r = decision C look r := rfl
          rw [hd]
          cases hc : decision C look r with
          | front => exact compile_mute look s
          | reuse => rw [hc] at h; cases h
          | refresh =>
              rw [hc] at h
              have h : refresh C look r = none := h
              show refresh (mute C) look r = none
              simp only [refresh] at h
              simp only [refresh, resolve_mute, funext (refreshRow_mute look r.rows)]
              split
              · rename_i hall
                rw [if_pos hall] at h
                split
                · rename_i hx
                  rw [if_pos hx] at h
                  cases h
                · exact compile_mute look _
              · exact compile_mute look _
        · rfl
      · exact compile_mute look s

theorem build_kept (hI : Ideal C) : ∀ (p : List (κ × σ)) (look : Look κ ν η σ τ)
    (store : κ → Option (Rec κ ν η σ τ)), WFLook C look →
    (∀ m r, store m = some r → Kept C r) →
    WFLook C (build C p look store).1 ∧ ∀ m r, (build C p look store).2 m = some r → Kept C r
  | [], look, store, hw, hk => ⟨hw, hk⟩
  | (m, s) :: p, look, store, hw, hk => by
      simp only [build]
      cases h1 : step C look (store m) s with
      | none => exact build_kept hI p look store hw hk
      | some r =>
          have hr := (step_settled hI hw (hk m) h1).1
          refine build_kept hI p _ _ ?_ ?_
          · intro x q hq
            by_cases hx : x = m
            · simp only [hx, if_true, Option.some.injEq] at hq; exact hq ▸ hr.wf
            · simp only [hx, if_false] at hq; exact hw x q hq
          · intro x q hq
            by_cases hx : x = m
            · simp only [hx, if_true, Option.some.injEq] at hq; exact hq ▸ hr
            · simp only [hx, if_false] at hq; exact hk x q hq

theorem stored_kept (hI : Ideal C) {store : κ → Option (Rec κ ν η σ τ)} (h : Stored C store) :
    ∀ m r, store m = some r → Kept C r := by
  induction h with
  | empty => intro m r h; cases h
  | build p _ ih => exact (build_kept hI p _ _ (fun _ _ h => by cases h) ih).2

theorem build_other : ∀ (p : List (κ × σ)) (look : Look κ ν η σ τ)
    (store : κ → Option (Rec κ ν η σ τ)) (m : κ), m ∉ p.map Prod.fst →
    (build C p look store).2 m = store m
  | [], _, _, _, _ => rfl
  | (x, s) :: p, look, store, m, h => by
      simp only [List.map_cons, List.mem_cons, not_or] at h
      simp only [build]
      cases step C look (store x) s with
      | none => exact build_other p look store m h.2
      | some r => rw [build_other p _ _ m h.2]; simp [h.1]

theorem build_again (hI : Ideal C) : ∀ (p : List (κ × σ)) (look : Look κ ν η σ τ)
    (store : κ → Option (Rec κ ν η σ τ)), (p.map Prod.fst).Nodup → WFLook C look →
    (∀ m r, store m = some r → Kept C r) →
    build (mute C) p look (build C p look store).2 = build C p look store
  | [], _, _, _, _, _ => rfl
  | (m, s) :: p, look, store, hn, hw, hk => by
      simp only [List.map_cons, List.nodup_cons] at hn
      cases h1 : step C look (store m) s with
      | none =>
          have e : build C ((m, s) :: p) look store = build C p look store := by
            simp only [build, h1]
          rw [e]
          simp only [build]
          rw [build_other p look store m hn.1, step_none h1]
          exact build_again hI p look store hn.2 hw hk
      | some r =>
          have hr := step_settled hI hw (hk m) h1
          have e : build C ((m, s) :: p) look store =
              build C p (fun x => if x = m then some r else look x)
                (fun x => if x = m then some r else store x) := by
            simp only [build, h1]
          rw [e]
          have e2 := build_other (C := C) p (fun x => if x = m then some r else look x)
            (fun x => if x = m then some r else store x) m hn.1
          simp only [if_true] at e2
          have ih := build_again hI p (fun x => if x = m then some r else look x)
            (fun x => if x = m then some r else store x) hn.2 (by
              intro x q hq
              by_cases hx : x = m
              · simp only [hx, if_true, Option.some.injEq] at hq; exact hq ▸ hr.1.wf
              · simp only [hx, if_false] at hq; exact hw x q hq) (by
              intro x q hq
              by_cases hx : x = m
              · simp only [hx, if_true, Option.some.injEq] at hq; exact hq ▸ hr.1
              · simp only [hx, if_false] at hq; exact hk x q hq)
          rw [build, e2, step_again hI hw hr]
          refine Eq.trans ?_ ih
          show build (mute C) p _ _ = _
          congr 1
          funext x
          by_cases hx : x = m
          · rw [hx, e2]; simp
          · simp [hx]

end

end Verif.Incr
