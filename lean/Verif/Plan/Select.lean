import Verif.Plan.Lemmas
/-!
# Which tasks are selected (C143 to C145)
-/
namespace Verif.Plan

variable {ts : List Task}

theorem deps_out (hk : (ts.map (·.key)).Nodup) (k : Key) (h : k ∉ ts.map (·.key)) : deps ts k = [] := by
  rw [List.eq_nil_iff_forall_not_mem]
  intro b hb
  exact h ((mem_deps hk).1 hb).key

theorem load_keys (g : Key → List Key) : load g (ts.map (·.key)) [] = (ts.map fun t => 1 + (g t.key).length).sum := by
  rw [load_nil, List.map_map]; rfl

theorem mem_reachable (hk : (ts.map (·.key)).Nodup) (start : List Key) (x : Key) :
    x ∈ reachable ts start ↔ ∃ s ∈ start, Reach (Imports ts) s x := by
  have hR : (fun a b => b ∈ deps ts a) = Imports ts := by
    funext a b; exact propext (mem_deps hk)
  obtain ⟨_, h2, h3, h4⟩ := goReach_spec (deps ts) (ts.map (·.key)) (deps_out hk) (enough ts (deps ts) start.length) start []
    (by rw [load_keys, enough]; exact Nat.le_refl _) (by simp)
  rw [hR] at h4
  constructor
  · intro h
    rcases h4 x h with h | h
    · cases h
    · exact h
  · rintro ⟨s, hs, hr⟩
    exact h3.reach (h2 s hs) (by rw [hR]; exact hr)

/-! ## `selectNeededTasks` -/

section
variable {F : Type} (lookup : F → Option Key) (named : F → List Key) (builtin : List Key) (files : List F)

/-- **C143.** If one of the files at least is the source of a task, then the tasks selected are those that the tasks
of the files and `__builtin__` import, in any number of steps. -/
theorem C143_partial (hk : (ts.map (·.key)).Nodup) (hf : ∃ f ∈ files, ∃ k, lookup f = some k) (t : Task) :
    t ∈ selectNeeded ts lookup named builtin files ↔
      t ∈ ts ∧ ((∃ f ∈ files, ∃ k, lookup f = some k ∧ Reach (Imports ts) k t.key) ∨ ∃ k ∈ builtin, Reach (Imports ts) k t.key) := by
  obtain ⟨f, hf, k, hl⟩ := hf
  have hne : files.filterMap lookup ≠ [] := List.ne_nil_of_mem (List.mem_filterMap.2 ⟨f, hf, hl⟩)
  simp only [selectNeeded, if_neg hne, List.mem_filter, decide_eq_true_eq, mem_reachable hk, List.mem_append, List.mem_filterMap]
  refine and_congr_right fun _ => ⟨?_, ?_⟩
  · rintro ⟨s, ⟨f, hf, hs⟩ | hs, hr⟩
    · exact .inl ⟨f, hf, s, hs, hr⟩
    · exact .inr ⟨s, hs, hr⟩
  · rintro (⟨f, hf, s, hs, hr⟩ | ⟨s, hs, hr⟩)
    · exact ⟨s, .inl ⟨f, hf, hs⟩, hr⟩
    · exact ⟨s, .inr hs, hr⟩

/-- **C143.** If none is, but tasks have files with the names of the files, then these count. -/
theorem C143_named_partial (hk : (ts.map (·.key)).Nodup) (hf : ∀ f ∈ files, lookup f = none) (hn : ∃ f ∈ files, named f ≠ []) (t : Task) :
    t ∈ selectNeeded ts lookup named builtin files ↔
      t ∈ ts ∧ ((∃ f ∈ files, ∃ k ∈ named f, Reach (Imports ts) k t.key) ∨ ∃ k ∈ builtin, Reach (Imports ts) k t.key) := by
  obtain ⟨f, hff, hnf⟩ := hn
  have h1 : files.filterMap lookup = [] := List.filterMap_eq_nil_iff.2 hf
  have hne : files.flatMap named ≠ [] := fun h => hnf (List.flatMap_eq_nil_iff.1 h f hff)
  simp only [selectNeeded, h1, if_true, if_neg hne, List.mem_filter, decide_eq_true_eq, mem_reachable hk, List.mem_append, List.mem_flatMap]
  refine and_congr_right fun _ => ⟨?_, ?_⟩
  · rintro ⟨s, ⟨f, hf, hs⟩ | hs, hr⟩
    · exact .inl ⟨f, hf, s, hs, hr⟩
    · exact .inr ⟨s, hs, hr⟩
  · rintro (⟨f, hf, s, hs, hr⟩ | ⟨s, hs, hr⟩)
    · exact ⟨s, .inl ⟨f, hf, hs⟩, hr⟩
    · exact ⟨s, .inr hs, hr⟩

/-- Files that are no tasks' at all, not even by name, select all tasks. -/
theorem C143_nothing (hk : (ts.map (·.key)).Nodup) (hf : ∀ f ∈ files, lookup f = none ∧ named f = []) :
    selectNeeded ts lookup named builtin files = ts := by
  have h1 : files.filterMap lookup = [] := List.filterMap_eq_nil_iff.2 fun f h => (hf f h).1
  have h2 : files.flatMap named = [] := List.flatMap_eq_nil_iff.2 fun f h => (hf f h).2
  simp only [selectNeeded, h1, h2, if_true]
  rw [List.filter_eq_self]
  intro t ht
  rw [decide_eq_true_eq, mem_reachable hk]
  exact ⟨t.key, List.mem_map_of_mem (f := (·.key)) ht, .refl⟩

/-- **C143.** Whatever was asked for, what a selected task imports is selected if it is a task. -/
theorem C143_closed (hk : (ts.map (·.key)).Nodup) {t u : Task} (ht : t ∈ selectNeeded ts lookup named builtin files)
    (hu : u ∈ ts) (hd : u.key ∈ t.deps) : u ∈ selectNeeded ts lookup named builtin files := by
  simp only [selectNeeded, List.mem_filter, decide_eq_true_eq, mem_reachable hk] at ht ⊢
  obtain ⟨ht, s, hs, hr⟩ := ht
  exact ⟨hu, s, hs, hr.tail ⟨t, ht, rfl, hd⟩⟩

end

/-- A file that is no task's is dropped silently when another file is. -/
theorem C143_refuted_dropped :
    (selectNeeded [⟨1, []⟩] (fun f => if f = 1 then some 1 else none) (fun _ : Nat => []) [] [1, 2]).map (·.key) = [1] := by decide

/-- A file that is nobody's selects all tasks instead of none. -/
theorem C143_refuted_all :
    (selectNeeded [⟨1, []⟩, ⟨2, []⟩] (fun _ => none) (fun _ : Nat => []) [] [3]).map (·.key) = [1, 2] := by decide

/-- Two files of the same task, one that imports `1`. -/
example : (([⟨1, []⟩, ⟨2, [1]⟩, ⟨3, [1]⟩] : List Task).map (·.key)).Nodup ∧
    (selectNeeded [⟨1, []⟩, ⟨2, [1]⟩, ⟨3, [1]⟩] (fun f => if f = 20 then some 2 else none) (fun _ : Nat => []) [] [20]).map (·.key) = [1, 2] := by
  decide

/-- A file that is found by its name only. -/
example : (selectNeeded [⟨1, []⟩, ⟨2, [1]⟩, ⟨3, [1]⟩] (fun _ => none) (fun f : Nat => [f]) [] [2]).map (·.key) = [1, 2] := by
  decide

/-! ## `selectAffectedTasks` -/

theorem sum_le {l : List Task} {g : Key → List Key} {t : Task} (h : t ∈ l) : (g t.key).length ≤ (l.map fun t => (g t.key).length).sum := by
  induction l with
  | nil => cases h
  | cons u l ih =>
    rw [List.map_cons, List.sum_cons]
    rcases List.mem_cons.1 h with rfl | h
    · omega
    · have := ih h; omega

theorem length_le (g : Key → List Key) (hg : ∀ k, k ∉ ts.map (·.key) → g k = []) (k : Key) :
    (g k).length ≤ (ts.map fun t => (g t.key).length).sum := by
  by_cases h : k ∈ ts.map (·.key)
  · obtain ⟨t, ht, rfl⟩ := List.mem_map.1 h
    exact sum_le ht
  · rw [hg k h]; simp

theorem goMark_enough {g : Key → List Key} (h1 : ∀ k, k ∉ ts.map (·.key) → g k = []) (h2 : ∀ k, ∀ y ∈ g k, y ∈ ts.map (·.key))
    (ks S : List Key) (h : ∀ x ∈ S, x ∈ ks ∨ ∀ y ∈ g x, y ∈ S) :
    let r := goMark g (enough2 ts g ks.length) ks S
    (∀ x ∈ S, x ∈ r) ∧ (∀ x ∈ ks, ∀ y ∈ g x, y ∈ r) ∧ Closed g r ∧
    ∀ x ∈ r, x ∈ S ∨ ∃ k ∈ ks, Reach1 (fun a b => b ∈ g a) k x :=
  goMark_spec g (ts.map (·.key)) _ (length_le g h1) h2 _ ks S (by
    rw [enough2]
    have : rem (ts.map (·.key)) S ≤ ts.length := by
      have := rem_le (ts.map (·.key)) (S := []) (T := S) (by simp)
      rwa [rem_nil, List.length_map] at this
    have := Nat.mul_le_mul_right (ts.map fun t => (g t.key).length).sum this
    omega) h

theorem mem_rev_inner {a b : Key} : a ∈ rev (inner ts) b ↔ ImportsT ts a b := mem_rev.trans imports_inner

theorem ImportsT.key {a b : Key} (h : ImportsT ts a b) : a ∈ ts.map (·.key) := h.1.key

theorem ImportsT.key' {a b : Key} (h : ImportsT ts a b) : b ∈ ts.map (·.key) := by
  obtain ⟨_, t, ht, rfl⟩ := h
  exact List.mem_map_of_mem (f := (·.key)) ht

theorem mem_deps_inner (hk : (ts.map (·.key)).Nodup) {a b : Key} : b ∈ deps (inner ts) a ↔ ImportsT ts a b :=
  (mem_deps (by rw [inner_keys]; exact hk)).trans imports_inner

theorem rev_out (k : Key) (h : k ∉ ts.map (·.key)) : rev (inner ts) k = [] := by
  rw [List.eq_nil_iff_forall_not_mem]
  intro b hb
  exact h (mem_rev_inner.1 hb).key'

theorem rel_rev : (fun a b => b ∈ rev (inner ts) a) = Function.swap (ImportsT ts) := by
  funext a b; exact propext mem_rev_inner

/-- The tasks that import one of the changed ones, in any number of steps. -/
theorem mem_affected (changed : List Key) (x : Key) : x ∈ affected ts changed ↔ ∃ c ∈ changed, Reach (ImportsT ts) x c := by
  obtain ⟨h1, _, h3, h4⟩ := goMark_enough (ts := ts) (g := rev (inner ts)) rev_out (fun k y h => (mem_rev_inner.1 h).key)
    changed changed (fun x h => .inl h)
  rw [rel_rev] at h4
  rw [affected]
  constructor
  · intro h
    rcases h4 x h with h | ⟨c, hc, h⟩
    · exact ⟨x, h, .refl⟩
    · exact ⟨c, hc, Relation.reflTransGen_swap.1 h.to_reflTransGen⟩
  · rintro ⟨c, hc, h⟩
    exact h3.reach (h1 c hc) (by rw [rel_rev]; exact Relation.reflTransGen_swap.2 h)

theorem reaches_spec (g : Key → List Key) (dbp : Key → Bool) (U : List Key) (hU : ∀ k, k ∉ U → g k = []) :
    ∀ (f : Nat) (S : List Key) (k : Key), rem U S < f →
      (reaches g dbp f S k = true ↔ ∃ p, dbp p = true ∧ Avoid (fun a b => b ∈ g a) S k p)
  | 0, _, _, h => by omega
  | f + 1, S, k, hf => by
    rw [reaches]
    by_cases hS : k ∈ S
    · rw [if_pos hS]
      exact ⟨by simp, fun ⟨p, _, h⟩ => absurd hS h.not_mem⟩
    · rw [if_neg hS]
      by_cases hd : dbp k = true
      · rw [if_pos hd]
        exact ⟨fun _ => ⟨k, hd, .here hS⟩, fun _ => rfl⟩
      · rw [if_neg hd, List.any_eq_true]
        by_cases hkU : k ∈ U
        · have hf' : rem U (k :: S) < f := by
            have := rem_lt U (S := S) (T := k :: S) (fun x h => .tail _ h) hkU hS (by simp)
            omega
          constructor
          · rintro ⟨d, hdg, hr⟩
            obtain ⟨p, hp, ha⟩ := (reaches_spec g dbp U hU f (k :: S) d hf').1 hr
            exact ⟨p, hp, (avoid_iff hS).2 (.inr ⟨d, hdg, ha⟩)⟩
          · rintro ⟨p, hp, ha⟩
            rcases (avoid_iff hS).1 ha with rfl | ⟨d, hdg, ha⟩
            · exact absurd hp hd
            · exact ⟨d, hdg, (reaches_spec g dbp U hU f (k :: S) d hf').2 ⟨p, hp, ha⟩⟩
        · rw [hU k hkU]
          refine ⟨by simp, fun ⟨p, hp, ha⟩ => ?_⟩
          rcases (avoid_iff hS).1 ha with rfl | ⟨d, hdg, _⟩
          · exact absurd hp hd
          · rw [hU k hkU] at hdg; cases hdg

theorem mem_pathKeys (hk : (ts.map (·.key)).Nodup) (dbp : Key → Bool) (aff : List Key) (x : Key) :
    x ∈ pathKeys ts dbp aff ↔ ∃ a ∈ aff, Reach1 (ImportsT ts) a x ∧ ∃ p, dbp p = true ∧ Reach (ImportsT ts) x p := by
  have hout : ∀ k, k ∉ ts.map (·.key) → deps (inner ts) k = [] := by
    intro k h
    exact deps_out (by rw [inner_keys]; exact hk) k (by rw [inner_keys]; exact h)
  have hR : (fun a b => b ∈ deps (inner ts) a) = ImportsT ts := by
    funext a b; exact propext (mem_deps_inner hk)
  have hre : ∀ k, reaches (deps (inner ts)) dbp (ts.length + 1) [] k = true ↔ ∃ p, dbp p = true ∧ Reach (ImportsT ts) k p := by
    intro k
    rw [reaches_spec (deps (inner ts)) dbp (ts.map (·.key)) hout _ _ _ (by rw [rem_nil, List.length_map]; omega), hR]
    simp only [avoid_nil]
  have hg : ∀ a b, b ∈ (deps (inner ts) a).filter (reaches (deps (inner ts)) dbp (ts.length + 1) []) ↔
      ImportsT ts a b ∧ ∃ p, dbp p = true ∧ Reach (ImportsT ts) b p := by
    intro a b
    rw [List.mem_filter, mem_deps_inner hk, hre]
  obtain ⟨_, h2, h3, h4⟩ := goMark_enough (ts := ts)
    (g := fun k => (deps (inner ts) k).filter (reaches (deps (inner ts)) dbp (ts.length + 1) []))
    (fun k h => by rw [hout k h]; rfl) (fun k y h => ((hg k y).1 h).1.key') aff [] (by simp)
  rw [pathKeys]
  constructor
  · intro h
    rcases h4 x h with h | ⟨a, ha, h⟩
    · cases h
    · refine ⟨a, ha, ?_, ?_⟩
      · exact Relation.TransGen.mono (fun a b h => ((hg a b).1 h).1) _ _ h
      · cases h with
        | single h => exact ((hg _ _).1 h).2
        | tail _ h => exact ((hg _ _).1 h).2
  · rintro ⟨a, ha, h, p, hp, hr⟩
    induction h with
    | single h => exact h2 a ha _ ((hg _ _).2 ⟨h, p, hp, hr⟩)
    | tail _ h ih => exact h3 _ (ih (.head h hr)) _ ((hg _ _).2 ⟨h, p, hp, hr⟩)

/-- **C144.** The tasks selected are those that import a changed one, and those that import a late provider which
one of these imports, all in any number of steps. -/
theorem C144_partial (hk : (ts.map (·.key)).Nodup) (dbp : Key → Bool) (changed : List Key) (hc : changed ≠ []) (t : Task) :
    t ∈ selectAffected ts dbp changed ↔ t ∈ ts ∧ ((∃ c ∈ changed, Reach (ImportsT ts) t.key c) ∨
      ∃ p, dbp p = true ∧ Reach (ImportsT ts) t.key p ∧ ∃ a, Reach1 (ImportsT ts) a p ∧ ∃ c ∈ changed, Reach (ImportsT ts) a c) := by
  rw [selectAffected, if_neg hc, List.mem_filter, decide_eq_true_eq, List.mem_append, mem_affected]
  refine and_congr_right fun _ => or_congr_right ?_
  obtain ⟨_, h2, h3, h4⟩ := goRev_spec (rev (inner ts)) (ts.map (·.key)) rev_out
    (enough ts (rev (inner ts)) ((pathKeys ts dbp (affected ts changed)).filter dbp).length)
    ((pathKeys ts dbp (affected ts changed)).filter dbp) [] (by rw [load_keys, enough]; exact Nat.le_refl _) (by simp)
  rw [rel_rev] at h4
  simp only [pathClosure, List.mem_append]
  constructor
  · rintro (h | h)
    · obtain ⟨a, ha, h1, p, hp, hr⟩ := (mem_pathKeys hk dbp _ _).1 h
      exact ⟨p, hp, hr, a, Relation.TransGen.trans_left h1 hr, (mem_affected changed a).1 ha⟩
    · rcases h4 _ h with h | ⟨p, hp, h⟩
      · cases h
      · rw [List.mem_filter] at hp
        obtain ⟨a, ha, h1, _⟩ := (mem_pathKeys hk dbp _ _).1 hp.1
        exact ⟨p, hp.2, Relation.reflTransGen_swap.1 h, a, h1, (mem_affected changed a).1 ha⟩
  · rintro ⟨p, hp, hr, a, h1, ha⟩
    right
    have : p ∈ (pathKeys ts dbp (affected ts changed)).filter dbp := by
      rw [List.mem_filter]
      exact ⟨(mem_pathKeys hk dbp _ _).2 ⟨a, (mem_affected changed a).2 ha, h1, p, hp, .refl⟩, hp⟩
    exact h3.reach (h2 p this) (by rw [rel_rev]; exact Relation.reflTransGen_swap.2 hr)

/-- **C144.** The tasks that import a selected task are selected: a late provider hears all that is wanted of it. -/
theorem C144_consumers_partial (hk : (ts.map (·.key)).Nodup) (dbp : Key → Bool) (changed : List Key) {t u : Task}
    (ht : t ∈ selectAffected ts dbp changed) (hu : u ∈ ts) (hd : t.key ∈ u.deps) : u ∈ selectAffected ts dbp changed := by
  by_cases hc : changed = []
  · rw [selectAffected, if_pos hc]; exact hu
  · rw [C144_partial hk dbp changed hc] at ht ⊢
    have hi : ImportsT ts u.key t.key := ⟨⟨u, hu, rfl, hd⟩, t, ht.1, rfl⟩
    refine ⟨hu, ht.2.imp ?_ ?_⟩
    · rintro ⟨c, hc, h⟩; exact ⟨c, hc, .head hi h⟩
    · rintro ⟨p, hp, h, r⟩; exact ⟨p, hp, .head hi h, r⟩

/-- `1` has changed and imports the late provider `2`; `3` imports `2` too; `4` has nothing to do with them. -/
example : (selectAffected [⟨1, [2]⟩, ⟨2, []⟩, ⟨3, [2]⟩, ⟨4, []⟩] (· = 2) [1]).map (·.key) = [1, 2, 3] ∧
    (([⟨1, [2]⟩, ⟨2, []⟩, ⟨3, [2]⟩, ⟨4, []⟩] : List Task).map (·.key)).Nodup := by decide

/-! ## `expandBuildLibraryTasks` -/

theorem addLibs_cons (g : List Key) (gs : List (List Key)) (ks : List Key) :
    addLibs (g :: gs) ks = addLibs gs (if g.any (· ∈ ks) then ks ++ g else ks) := rfl

theorem addLibs_sub : ∀ (gs : List (List Key)) (ks : List Key), ∀ x ∈ ks, x ∈ addLibs gs ks
  | [], _, _, h => h
  | g :: gs, ks, x, h => by
    rw [addLibs_cons]
    refine addLibs_sub gs _ x ?_
    split
    · exact List.mem_append_left _ h
    · exact h

theorem addLibs_group : ∀ (gs : List (List Key)) (ks : List Key), ∀ g ∈ gs, ∀ a ∈ g, a ∈ ks → ∀ b ∈ g, b ∈ addLibs gs ks
  | g' :: gs, ks, g, hg, a, ha, hk, b, hb => by
    rw [addLibs_cons]
    rcases List.mem_cons.1 hg with rfl | hg
    · refine addLibs_sub gs _ b ?_
      rw [if_pos (List.any_eq_true.2 ⟨a, ha, by simpa using hk⟩)]
      exact List.mem_append_right _ hb
    · refine addLibs_group gs _ g hg a ha ?_ b hb
      split
      · exact List.mem_append_left _ hk
      · exact hk

theorem addLibs_needed {groups : List (List Key)} {sel : List Key} : ∀ (gs : List (List Key)) (ks : List Key), (∀ g ∈ gs, g ∈ groups) →
    (∀ k ∈ ks, Needed ts groups sel k) → ∀ x ∈ addLibs gs ks, Needed ts groups sel x
  | [], _, _, h, x, hx => h x hx
  | g :: gs, ks, hg, h, x, hx => by
    rw [addLibs_cons] at hx
    refine addLibs_needed gs _ (fun g' h' => hg g' (.tail _ h')) ?_ x hx
    by_cases hi : g.any (· ∈ ks) = true
    · rw [if_pos hi]
      obtain ⟨a, ha, hak⟩ := List.any_eq_true.1 hi
      rw [decide_eq_true_eq] at hak
      intro k hk
      rcases List.mem_append.1 hk with hk | hk
      · exact h k hk
      · exact .lib (hg g (by simp)) ha (h a hak) hk
    · rw [if_neg hi]; exact h

theorem turn_sub (hk : (ts.map (·.key)).Nodup) (groups : List (List Key)) (ks : List Key) : ∀ x ∈ ks, x ∈ turn ts groups ks := by
  intro x hx
  refine addLibs_sub _ _ _ ((mem_reachable (by rw [inner_keys]; exact hk) _ _).2 ⟨x, addLibs_sub _ _ _ hx, .refl⟩)

theorem turn_needed (hk : (ts.map (·.key)).Nodup) {groups : List (List Key)} {sel ks : List Key} (h : ∀ k ∈ ks, Needed ts groups sel k) :
    ∀ x ∈ turn ts groups ks, Needed ts groups sel x := by
  refine addLibs_needed _ _ (fun _ h => h) fun k hk' => ?_
  obtain ⟨s, hs, hr⟩ := (mem_reachable (by rw [inner_keys]; exact hk) _ _).1 hk'
  have hs := addLibs_needed groups ks (fun _ h => h) h s hs
  induction hr with
  | refl => exact hs
  | @tail b c hsb hbc ih =>
    exact .dep (ih ((mem_reachable (by rw [inner_keys]; exact hk) _ _).2 ⟨s, by assumption, hsb⟩)) (imports_inner.1 hbc)

theorem close_spec (hk : (ts.map (·.key)).Nodup) {groups : List (List Key)} {sel : List Key}
    (hn : ∀ x, Needed ts groups sel x → x ∈ ts.map (·.key)) : ∀ (f : Nat) (ks : List Key), rem (ts.map (·.key)) ks < f →
    (∀ k ∈ sel, k ∈ ks) → (∀ k ∈ ks, Needed ts groups sel k) → ∀ x, x ∈ close ts groups f ks ↔ Needed ts groups sel x
  | 0, _, h, _, _ => by omega
  | f + 1, ks, hf, hs, hne => by
    rw [close]
    by_cases hc : ((turn ts groups ks).all (· ∈ ks) && ks.all (· ∈ turn ts groups ks)) = true
    · rw [if_pos hc]
      rw [Bool.and_eq_true, List.all_eq_true] at hc
      have ht : ∀ x ∈ turn ts groups ks, x ∈ ks := fun x hx => by simpa using hc.1 x hx
      intro x
      refine ⟨hne x, fun h => ?_⟩
      induction h with
      | given h => exact hs _ h
      | dep _ hi ih =>
        exact ht _ (addLibs_sub _ _ _ ((mem_reachable (by rw [inner_keys]; exact hk) _ _).2
          ⟨_, addLibs_sub _ _ _ ih, .single (imports_inner.2 hi)⟩))
      | lib hg ha _ hb ih =>
        exact ht _ (addLibs_sub _ _ _ ((mem_reachable (by rw [inner_keys]; exact hk) _ _).2
          ⟨_, addLibs_group _ _ _ hg _ ha ih _ hb, .refl⟩))
    · rw [if_neg hc]
      have htn := turn_needed hk hne
      have : ∃ x ∈ turn ts groups ks, x ∉ ks := by
        by_contra hcon
        apply hc
        rw [Bool.and_eq_true, List.all_eq_true, List.all_eq_true]
        refine ⟨fun x hx => ?_, fun x hx => by simpa using turn_sub hk groups ks x hx⟩
        by_contra hx'
        exact hcon ⟨x, hx, by simpa using hx'⟩
      obtain ⟨x, hx, hxk⟩ := this
      have := rem_lt (ts.map (·.key)) (turn_sub hk groups ks) (hn x (htn x hx)) hxk hx
      exact close_spec hk hn f _ (by omega) (fun k h => turn_sub hk groups ks k (hs k h)) htn

/-- **C145.** The plan has the selected tasks, what its tasks import, and the libraries of its tasks; nothing else. -/
theorem C145 (hk : (ts.map (·.key)).Nodup) (groups : List (List Key)) (sel : List Key)
    (hs : ∀ k ∈ sel, ∃ t ∈ ts, t.key = k) (hg : ∀ g ∈ groups, ∀ k ∈ g, ∃ t ∈ ts, t.key = k) (t : Task) :
    t ∈ expand ts groups sel ↔ t ∈ ts ∧ Needed ts groups sel t.key := by
  have hn : ∀ x, Needed ts groups sel x → x ∈ ts.map (·.key) := by
    intro x h
    cases h with
    | given h => exact List.mem_map.2 (hs _ h)
    | dep _ h => exact h.key'
    | lib h1 _ _ h => exact List.mem_map.2 (hg _ h1 _ h)
  rw [expand, List.mem_filter, decide_eq_true_eq]
  refine and_congr_right fun _ => ?_
  refine close_spec hk hn _ _ ?_ (fun _ h => h) (fun _ h => .given h) _
  have := rem_le (ts.map (·.key)) (S := []) (T := sel) (by simp)
  rw [rem_nil, List.length_map] at this
  omega

/-- The library of `2` and `3`, of which `2` is selected; `3` imports `4`, which is in a library with `5`. -/
example : (expand [⟨1, []⟩, ⟨2, []⟩, ⟨3, [4]⟩, ⟨4, []⟩, ⟨5, []⟩] [[4, 5], [2, 3]] [2]).map (·.key) = [2, 3, 4, 5] := by decide

/-- What the plan of an incremental build has: the expansion of the affected tasks (Compile.hs:737-741). -/
def plan (ts : List Task) (groups : List (List Key)) (dbp : Key → Bool) (changed : List Key) : List Task :=
  expand ts groups ((selectAffected ts dbp changed).map (·.key))

/-- `1` has changed and imports the late provider `2`, so that `3`, which imports `2` as well, is selected. The
expansion adds the late provider `4` that `3` imports, but not `5`, which imports `4`: the code of `4` is made again
without what `5` uses. -/
theorem C144_refuted_expanded :
    let ts : List Task := [⟨1, [2]⟩, ⟨2, []⟩, ⟨3, [2, 4]⟩, ⟨4, []⟩, ⟨5, [4]⟩]
    (plan ts [] (fun k => k = 2 ∨ k = 4) [1]).map (·.key) = [1, 2, 3, 4] ∧
    (selectAffected ts (fun k => k = 2 ∨ k = 4) [1]).map (·.key) = [1, 2, 3] := by decide

/-- Building one file: the late provider `2` is in the plan, but not `3`, which imports it. -/
theorem C144_refuted_needed :
    (selectNeeded [⟨1, [2]⟩, ⟨2, []⟩, ⟨3, [2]⟩] (fun f : Nat => some f) (fun _ => []) [] [1]).map (·.key) = [1, 2] := by decide

end Verif.Plan
