import Verif.Build.Closure

/-!
# The stages, what each waits for, and how the counters change
-/

namespace Verif.Build

variable {κ : Type} [DecidableEq κ] {π η ι : Type}

/-- The stages a stage waits for. -/
def Graph.waits (g : Graph κ) (sk : Stage κ) : List (Stage κ) :=
  match g.stageDeps.find? (fun e => e.1 == sk) with
  | some e => e.2
  | none => []

theorem indeg_eq (g : Graph κ) (sk : Stage κ) : g.indeg sk = (g.waits sk).length := by
  simp only [Graph.indeg, Graph.waits]
  cases g.stageDeps.find? (fun e => e.1 == sk) <;> simp

theorem stages_eq (g : Graph κ) : g.stages =
    (g.order.filter Task.parse).map (fun t => Stage.parse t.key) ++
    g.order.map (fun t => Stage.front t.key) := by
  simp [Graph.stages, Graph.stageDeps, List.map_map, Function.comp_def]

theorem mem_stages_front {g : Graph κ} {k : κ} :
    Stage.front k ∈ g.stages ↔ ∃ t ∈ g.order, t.key = k := by
  rw [stages_eq]; simp

theorem mem_stages_parse {g : Graph κ} {k : κ} :
    Stage.parse k ∈ g.stages ↔ ∃ t ∈ g.order, t.parse = true ∧ t.key = k := by
  rw [stages_eq]; simp [and_assoc]

theorem stages_nodup {g : Graph κ} (ho : Ordered g) : g.stages.Nodup := by
  rw [stages_eq]
  have h := order_keys ho
  refine List.Nodup.append ?_ ?_ ?_
  · have : ((g.order.filter Task.parse).map Task.key).Nodup :=
      h.sublist (List.Sublist.map _ List.filter_sublist)
    have := this.map (f := Stage.parse) (fun a b hab => by simpa using hab)
    simpa [List.map_map, Function.comp_def] using this
  · have := h.map (f := Stage.front) (fun a b hab => by simpa using hab)
    simpa [List.map_map, Function.comp_def] using this
  · intro a h1 h2
    simp only [List.mem_map] at h1 h2
    obtain ⟨t, _, rfl⟩ := h1
    obtain ⟨u, _, hu⟩ := h2
    simp at hu

theorem waits_of_mem {g : Graph κ} (ho : Ordered g) {e : Stage κ × List (Stage κ)}
    (he : e ∈ g.stageDeps) : g.waits e.1 = e.2 := by
  have hn : (g.stageDeps.map Prod.fst).Nodup := stages_nodup ho
  simp only [Graph.waits]
  cases hf : g.stageDeps.find? (fun x => x.1 == e.1) with
  | none => exact absurd (List.find?_eq_none.1 hf e he) (by simp)
  | some e' =>
      have h1 := List.mem_of_find?_eq_some hf
      have h2 : e'.1 = e.1 := by simpa using List.find?_some hf
      have : e' = e := List.inj_on_of_nodup_map hn h1 he h2
      rw [this]

theorem waits_parse {g : Graph κ} (ho : Ordered g) {t : Task κ} (ht : t ∈ g.order)
    (hp : t.parse = true) : g.waits (.parse t.key) = [] :=
  waits_of_mem ho (e := (.parse t.key, [])) (by
    simp only [Graph.stageDeps, List.mem_append, List.mem_map, List.mem_filter]
    exact .inl ⟨t, ⟨ht, hp⟩, rfl⟩)

theorem waits_front {g : Graph κ} (ho : Ordered g) {t : Task κ} (ht : t ∈ g.order) :
    g.waits (.front t.key) =
      (if t.parse then [.parse t.key] else []) ++ (g.deps t).map .front :=
  waits_of_mem ho (e := (.front t.key, _)) (by
    simp only [Graph.stageDeps, List.mem_append, List.mem_map]
    exact .inr ⟨t, ht, rfl⟩)

theorem waits_stage {g : Graph κ} (ho : Ordered g) {sk x : Stage κ} (hs : sk ∈ g.stages)
    (hx : x ∈ g.waits sk) : x ∈ g.stages := by
  cases sk with
  | parse k =>
      obtain ⟨t, ht, hp, rfl⟩ := mem_stages_parse.1 hs
      rw [waits_parse ho ht hp] at hx; simp at hx
  | front k =>
      obtain ⟨t, ht, rfl⟩ := mem_stages_front.1 hs
      rw [waits_front ho ht] at hx
      rcases List.mem_append.1 hx with hx | hx
      · cases hp : t.parse with
        | false => simp [hp] at hx
        | true =>
            simp [hp] at hx; subst hx
            exact mem_stages_parse.2 ⟨t, ht, hp, rfl⟩
      · obtain ⟨d, hd, rfl⟩ := List.mem_map.1 hx
        exact mem_stages_front.2 (uses_mem ho (mem_deps ht d hd))

theorem count_stageRev {g : Graph κ} (ho : Ordered g) (x : Stage κ) {sk : Stage κ}
    (hs : sk ∈ g.stages) : (g.stageRev x).count sk = (g.waits sk).count x := by
  obtain ⟨e, he, rfl⟩ := List.mem_map.1 hs
  rw [waits_of_mem ho he]
  have hn : (g.stageDeps.map Prod.fst).Nodup := stages_nodup ho
  simp only [Graph.stageRev]
  generalize g.stageDeps = L at he hn
  clear hs
  have hzero : ∀ (M : List (Stage κ × List (Stage κ))), e.1 ∉ M.map Prod.fst →
      (M.flatMap (fun e => (e.2.filter (fun d => d == x)).map (fun _ => e.1))).count e.1 = 0 := by
    intro M hM
    rw [List.count_eq_zero]
    intro h
    simp only [List.mem_flatMap, List.mem_map] at h
    obtain ⟨a, ha, b, _, hb⟩ := h
    exact hM (List.mem_map.2 ⟨a, ha, hb⟩)
  induction L with
  | nil => simp at he
  | cons a L ih =>
      simp only [List.map_cons, List.nodup_cons] at hn
      rw [List.flatMap_cons, List.count_append]
      rcases List.mem_cons.1 he with rfl | he
      · rw [hzero L hn.1]
        simp only [List.map_const', Nat.add_zero]
        rw [List.count_replicate_self, List.count_eq_length_filter]
      · rw [ih he hn.2]
        have : a.1 ≠ e.1 := fun h => hn.1 (h ▸ List.mem_map.2 ⟨e, he, rfl⟩)
        rw [List.map_const', List.count_replicate, if_neg (by simpa using this), Nat.zero_add]

/-- Position of a task in the order of compilation. -/
theorem uses_lt {g : Graph κ} (ho : Ordered g) :
    ∃ rk : κ → Nat, ∀ k d, Uses g k d → rk d < rk k := by
  refine ⟨fun k => (g.order.map Task.key).idxOf k, fun k d h => ?_⟩
  obtain ⟨t, ht, rfl, h'⟩ := id h
  obtain ⟨pre, post, hsp⟩ := List.append_of_mem ht
  obtain ⟨u, hu, rfl⟩ := ho.after pre t post hsp d h
  have hn := order_keys ho
  show (g.order.map Task.key).idxOf u.key < (g.order.map Task.key).idxOf t.key
  rw [hsp] at hn ⊢
  simp only [List.map_append, List.map_cons] at hn ⊢
  have hu' : u.key ∈ pre.map Task.key := List.mem_map.2 ⟨u, hu, rfl⟩
  have ht' : t.key ∉ pre.map Task.key := fun hm =>
    (List.nodup_append.1 hn).2.2 _ hm _ List.mem_cons_self rfl
  rw [List.idxOf_append_of_mem hu', List.idxOf_append_of_notMem ht']
  have := List.idxOf_lt_length_of_mem hu'
  omega

theorem not_depends_self {g : Graph κ} (ho : Ordered g) {k d : κ} (h : Depends g k d) : k ≠ d := by
  obtain ⟨rk, hrk⟩ := uses_lt ho
  have : rk d < rk k := by
    induction h with
    | single h => exact hrk _ _ h
    | tail _ h ih => exact Nat.lt_trans (hrk _ _ h) ih
  rintro rfl; omega

end Verif.Build
