import Verif.Build.Spec
import Mathlib.Data.List.Nodup
import Mathlib.Data.List.Perm.Subperm

/-!
# `dependentClosure` finds exactly the tasks that depend on one
-/

namespace Verif.Build

variable {κ : Type} [DecidableEq κ]

theorem mem_deps {g : Graph κ} {t : Task κ} (ht : t ∈ g.order) (d : κ) :
    d ∈ g.deps t → Uses g t.key d := by
  intro h
  simp only [Graph.deps, depsOf, List.mem_dedup, List.mem_filter, List.any_eq_true, nonBuiltin,
    beq_iff_eq, Bool.not_eq_true'] at h
  obtain ⟨h1, u, ⟨hu, hb⟩, hk⟩ := h
  exact ⟨t, ht, rfl, h1, u, hu, hb, hk⟩

theorem order_keys {g : Graph κ} (ho : Ordered g) : (g.order.map Task.key).Nodup :=
  (ho.perm.map Task.key).nodup_iff.2 (List.Nodup.sublist (List.Sublist.map _ List.filter_sublist)
    ho.keys)

theorem task_unique {g : Graph κ} (ho : Ordered g) {t u : Task κ} (ht : t ∈ g.order)
    (hu : u ∈ g.order) (h : t.key = u.key) : t = u :=
  List.inj_on_of_nodup_map (order_keys ho) ht hu h

theorem deps_of_uses {g : Graph κ} (ho : Ordered g) {t : Task κ} (ht : t ∈ g.order) {d : κ}
    (h : Uses g t.key d) : d ∈ g.deps t := by
  obtain ⟨t', ht', hk, h1, u, hu, hb, hd⟩ := h
  obtain rfl := task_unique ho ht' ht hk
  simp only [Graph.deps, depsOf, List.mem_dedup, List.mem_filter, List.any_eq_true, nonBuiltin,
    beq_iff_eq, Bool.not_eq_true']
  exact ⟨h1, u, ⟨hu, hb⟩, hd⟩

theorem uses_mem {g : Graph κ} (ho : Ordered g) {k d : κ} (h : Uses g k d) :
    ∃ u ∈ g.order, u.key = d := by
  obtain ⟨t, ht, rfl, h1, u, hu, hb, hd⟩ := h
  exact ⟨u, ho.perm.mem_iff.2 (by simp [hu, hb]), hd⟩

theorem mem_rev {g : Graph κ} (ho : Ordered g) (k j : κ) : j ∈ g.rev k ↔ Uses g j k := by
  simp only [Graph.rev, List.mem_map, List.mem_filter, decide_eq_true_eq]
  constructor
  · rintro ⟨t, ⟨ht, hd⟩, rfl⟩; exact mem_deps ht k hd
  · intro h
    obtain ⟨t, ht, rfl, h'⟩ := id h
    exact ⟨t, ⟨ht, deps_of_uses ho ht h⟩, rfl⟩

theorem rev_nodup {g : Graph κ} (ho : Ordered g) (k : κ) : (g.rev k).Nodup :=
  List.Nodup.sublist (List.Sublist.map _ List.filter_sublist) (order_keys ho)

theorem rev_subset (g : Graph κ) (k : κ) : g.rev k ⊆ g.order.map Task.key := by
  intro j h
  simp only [Graph.rev, List.mem_map, List.mem_filter] at h ⊢
  obtain ⟨t, ⟨ht, _⟩, rfl⟩ := h
  exact ⟨t, ht, rfl⟩

theorem closeGo_spec (rev : κ → List κ) (univ : List κ) (hsub : ∀ k, rev k ⊆ univ)
    (hnd : ∀ k, (rev k).Nodup) (k : κ) :
    ∀ n seen work, seen.Nodup → seen ⊆ univ → work.length + univ.length ≤ n + seen.length →
      (∀ y, y = k ∨ y ∈ seen → y ∈ work ∨ rev y ⊆ seen) →
      (∀ y ∈ seen, Relation.TransGen (fun a b => a ∈ rev b) y k) →
      (∀ y ∈ work, y = k ∨ y ∈ seen) →
      ∀ j, j ∈ closeGo rev n seen work ↔ Relation.TransGen (fun a b => a ∈ rev b) j k := by
  intro n
  induction n with
  | zero =>
      intro seen work h1 h2 h3 h4 h5 h6 j
      have hle : seen.length ≤ univ.length := (List.Nodup.subperm h1 h2).length_le
      have hw : work = [] := List.length_eq_zero_iff.1 (by omega)
      subst hw
      have hcl : ∀ y, y = k ∨ y ∈ seen → rev y ⊆ seen := fun y hy => by
        rcases h4 y hy with h | h
        · simp at h
        · exact h
      simp only [closeGo]
      refine ⟨h5 j, fun h => ?_⟩
      induction h using Relation.TransGen.head_induction_on with
      | single h => exact hcl k (.inl rfl) h
      | head h _ ih => exact hcl _ (.inr ih) h
  | succ n ih =>
      intro seen work h1 h2 h3 h4 h5 h6 j
      cases work with
      | nil =>
          have hcl : ∀ y, y = k ∨ y ∈ seen → rev y ⊆ seen := fun y hy => by
            rcases h4 y hy with h | h
            · simp at h
            · exact h
          simp only [closeGo]
          refine ⟨h5 j, fun h => ?_⟩
          induction h using Relation.TransGen.head_induction_on with
          | single h => exact hcl k (.inl rfl) h
          | head h _ ih => exact hcl _ (.inr ih) h
      | cons x xs =>
          simp only [closeGo]
          have hx := h6 x List.mem_cons_self
          apply ih
          · refine List.Nodup.append (List.nodup_reverse.2 ((hnd x).filter _)) h1 ?_
            intro a ha hb
            simp [hb] at ha
          · intro a ha
            rcases List.mem_append.1 ha with ha | ha
            · simp only [List.mem_reverse, List.mem_filter] at ha
              exact hsub x ha.1
            · exact h2 ha
          · simp only [List.length_append, List.length_reverse, List.length_cons] at h3 ⊢
            omega
          · intro y hy
            by_cases hyx : y = x
            · subst hyx
              right
              intro a ha
              simp only [List.mem_append, List.mem_reverse, List.mem_filter]
              by_cases has : a ∈ seen
              · exact .inr has
              · exact .inl ⟨ha, by simpa using has⟩
            · by_cases hs : y = k ∨ y ∈ seen
              · rcases h4 y hs with h | h
                · rcases List.mem_cons.1 h with h | h
                  · exact absurd h hyx
                  · exact .inl (List.mem_append_right _ h)
                · exact .inr (fun a ha => List.mem_append_right _ (h ha))
              · rcases hy with hy | hy
                · exact absurd (.inl hy) hs
                · rcases List.mem_append.1 hy with hy | hy
                  · exact .inl (List.mem_append_left _ (List.mem_reverse.1 hy))
                  · exact absurd (.inr hy) hs
          · intro y hy
            rcases List.mem_append.1 hy with hy | hy
            · simp only [List.mem_reverse, List.mem_filter] at hy
              rcases hx with rfl | hx
              · exact .single hy.1
              · exact .head hy.1 (h5 x hx)
            · exact h5 y hy
          · intro y hy
            rcases List.mem_append.1 hy with hy | hy
            · exact .inr (List.mem_append_left _ (List.mem_reverse.2 hy))
            · rcases h6 y (List.mem_cons_of_mem _ hy) with h | h
              · exact .inl h
              · exact .inr (List.mem_append_right _ h)

theorem mem_closure {g : Graph κ} (ho : Ordered g) (k j : κ) :
    j ∈ g.closure k ↔ Depends g j k := by
  have h := closeGo_spec g.rev (g.order.map Task.key) (rev_subset g) (rev_nodup ho) k
    (g.order.length + 2) [] [k] List.nodup_nil (by simp) (by simp; omega) (by simp) (by simp) (by simp) j
  rw [Graph.closure, h, Depends]
  have : (fun a b => a ∈ g.rev b) = Uses g := by
    funext a b; exact propext (mem_rev ho b a)
  rw [this]

end Verif.Build
