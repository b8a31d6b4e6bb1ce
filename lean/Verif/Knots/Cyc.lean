import Verif.Knots.Model
/-!
# The search for cycles finds every cycle without repetition
-/
namespace Verif.Knots

/-- The classes that have dependencies. -/
def keys (deps : Deps) : List Nat := deps.map Prod.fst

theorem mem_keys {deps : Deps} {w : Nat} : w ∈ keys deps ↔ deps.filter (fun d => d.1 = w) ≠ [] := by
  constructor
  · intro h
    obtain ⟨d, hd, rfl⟩ := List.mem_map.1 h
    exact List.ne_nil_of_mem (List.mem_filter.2 ⟨hd, by simp⟩)
  · intro h
    obtain ⟨d, l, hl⟩ := List.exists_cons_of_ne_nil h
    have : d ∈ deps.filter (fun d => d.1 = w) := by rw [hl]; exact List.mem_cons_self
    have := List.mem_filter.1 this
    exact List.mem_map.2 ⟨d, this.1, by simpa using this.2⟩

theorem mem_keys_rest {deps : Deps} {w a : Nat} : a ∈ keys (rest deps w) ↔ a ∈ keys deps ∧ a ≠ w := by
  unfold keys rest
  simp only [List.mem_map, List.mem_filter]
  constructor
  · rintro ⟨d, ⟨hd, hw⟩, rfl⟩
    exact ⟨⟨d, hd, rfl⟩, by simpa using hw⟩
  · rintro ⟨⟨d, hd, rfl⟩, hw⟩
    exact ⟨d, ⟨hd, by simpa using hw⟩, rfl⟩

theorem next_rest {deps : Deps} {w a : Nat} (h : a ≠ w) : next (rest deps w) a = next deps a := by
  have : (rest deps w).filter (fun d => d.1 = a) = deps.filter (fun d => d.1 = a) := by
    unfold rest
    rw [List.filter_filter]
    apply List.filter_congr
    intro d _
    by_cases hd : d.1 = a
    · simp [hd, h]
    · simp [hd]
  unfold next
  rw [this]

theorem mem_chains_nil {deps : Deps} {w : Nat} (h : w ∉ keys deps) : [w] ∈ chains deps w := by
  have h : deps.filter (fun d => d.1 = w) = [] := Classical.byContradiction fun hn => h (mem_keys.2 hn)
  rw [chains]
  split
  · simp
  · rename_i d l hd
    rw [h] at hd; cases hd

theorem mem_chains_cons {deps : Deps} {w a : Nat} {p : List Nat} (he : a ∈ next deps w)
    (hp : p ∈ chains (rest deps w) a) : w :: p ∈ chains deps w := by
  rw [chains]
  split
  · rename_i hn
    unfold next at he
    rw [hn] at he; cases he
  · rename_i d l hd
    unfold next at he
    rw [hd] at he
    exact List.mem_flatMap.2 ⟨a, he, List.mem_map.2 ⟨p, hp, rfl⟩⟩

/-- Each class of the list calls the next one. -/
def Calls (deps : Deps) : List Nat → Prop
  | [] => True
  | [_] => True
  | a :: b :: l => b ∈ next deps a ∧ Calls deps (b :: l)

theorem calls_rest {deps : Deps} {w : Nat} : ∀ {l : List Nat}, w ∉ l → Calls deps l → Calls (rest deps w) l
  | [], _, _ => trivial
  | [_], _, _ => trivial
  | a :: b :: l, hw, h => by
    refine ⟨?_, calls_rest (fun hm => hw (List.mem_cons_of_mem _ hm)) h.2⟩
    have hne : a ≠ w := fun ha => hw (ha ▸ List.mem_cons_self)
    rw [next_rest hne]
    exact h.1

theorem next_keys {deps : Deps} {a b : Nat} (h : b ∈ next deps a) : a ∈ keys deps := by
  apply mem_keys.2
  intro hn
  unfold next at h
  rw [hn] at h; cases h

/-- A list of calls without repetition that ends outside of the classes is a chain. -/
theorem mem_chains {l : List Nat} {last : Nat} : ∀ {deps : Deps} {w : Nat}, Calls deps (w :: l ++ [last]) →
    (w :: l ++ [last]).Nodup → last ∉ keys deps → w :: l ++ [last] ∈ chains deps w := by
  induction l with
  | nil =>
    intro deps w hc hn hl
    have hne : last ≠ w := fun h => by simp [h] at hn
    exact mem_chains_cons hc.1 (mem_chains_nil (fun h => hl (mem_keys_rest.1 h).1))
  | cons a l ih =>
    intro deps w hc hn hl
    have hw : w ∉ a :: l ++ [last] := (List.nodup_cons.1 hn).1
    exact mem_chains_cons hc.1 (ih (calls_rest hw hc.2) (List.nodup_cons.1 hn).2 (fun h => hl (mem_keys_rest.1 h).1))

theorem calls_tail {deps : Deps} {a : Nat} {l : List Nat} (h : Calls deps (a :: l)) : Calls deps l := by
  cases l with
  | nil => trivial
  | cons b l => exact h.2

/-- A cycle without repetition is found, starting at each of its classes. -/
theorem mem_cycles {deps : Deps} {y : Nat} {l : List Nat} (hc : Calls deps (y :: l ++ [y])) (hn : (y :: l).Nodup) :
    y :: l ++ [y] ∈ cycles deps := by
  have hy : y ∉ l := (List.nodup_cons.1 hn).1
  have hk : y ∈ keys deps := by
    cases l with
    | nil => exact next_keys hc.1
    | cons a l => exact next_keys hc.1
  have hch : y :: l ++ [y] ∈ chains deps y := by
    have hr : y ∉ keys (rest deps y) := fun h => (mem_keys_rest.1 h).2 rfl
    cases l with
    | nil => exact mem_chains_cons hc.1 (mem_chains_nil hr)
    | cons a l =>
      refine mem_chains_cons (a := a) hc.1 (mem_chains ?_ ?_ hr)
      · have h2 := calls_tail hc
        have : ∀ (l : List Nat), y ∉ l → Calls deps (l ++ [y]) → Calls (rest deps y) (l ++ [y]) := by
          intro l
          induction l with
          | nil => intro _ _; trivial
          | cons b l ih =>
            intro hb h
            have ht := ih (fun hm => hb (List.mem_cons_of_mem _ hm)) (calls_tail h)
            have hne : b ≠ y := fun e => hb (e ▸ List.mem_cons_self)
            cases l with
            | nil => exact ⟨by rw [next_rest hne]; exact h.1, trivial⟩
            | cons c l => exact ⟨by rw [next_rest hne]; exact h.1, ht⟩
        exact this (a :: l) hy h2
      · have := (List.nodup_cons.1 hn).2
        rw [List.nodup_append]
        refine ⟨this, by simp, ?_⟩
        intro b hb c hcm hbc
        rw [List.mem_singleton.1 hcm] at hbc
        exact hy (hbc ▸ hb)
  refine List.mem_filter.2 ⟨?_, ?_⟩
  · obtain ⟨d, hd, rfl⟩ := List.mem_map.1 hk
    exact List.mem_flatMap.2 ⟨d, hd, hch⟩
  · have hg : (y :: l ++ [y]).getLast? = some y := List.getLast?_concat
    have hh : (y :: l ++ [y]).head? = some y := rfl
    simp only [isCycle, hg, hh]
    simp

theorem find_map {deps : Deps} {f : Nat → List Nat} {w : Nat} (h : w ∈ keys deps) :
    (deps.map (fun d => (d.1, f d.1))).find? (fun d => d.1 = w) = some (w, f w) := by
  induction deps with
  | nil => cases h
  | cons d deps ih =>
    rw [List.map_cons, List.find?_cons]
    by_cases hd : d.1 = w
    · simp [hd]
    · simp only [hd, decide_false]
      apply ih
      rcases List.mem_cons.1 h with h | h
      · exact absurd h.symm hd
      · exact h

/-- The classes of a cycle are parameters of one another. -/
theorem mem_depsof {deps : Deps} {y z : Nat} {l : List Nat} (hc : Calls deps (y :: l ++ [y])) (hn : (y :: l).Nodup)
    (hz : z ∈ l) (hk : z ∈ keys deps) : y ∈ depsof (cycledeps deps) z := by
  have hm := mem_cycles hc hn
  have hne : cycles deps ≠ [] := List.ne_nil_of_mem hm
  unfold depsof cycledeps
  rw [if_neg hne, find_map hk]
  show y ∈ origins (cycles deps) z
  unfold origins
  rw [List.mem_dedup, List.mem_filterMap]
  refine ⟨_, hm, ?_⟩
  have hyz : y ≠ z := fun h => (List.nodup_cons.1 hn).1 (h ▸ hz)
  show (if y ≠ z ∧ z ∈ l ++ [y] then some y else none) = some y
  rw [if_pos ⟨hyz, List.mem_append_left _ hz⟩]

/-- A class that calls itself is in `cycledeps`. -/
theorem mem_dom {deps : Deps} {y : Nat} (hc : y ∈ next deps y) : y ∈ (cycledeps deps).map Prod.fst := by
  have hm := mem_cycles (deps := deps) (y := y) (l := []) ⟨hc, trivial⟩ (by simp)
  have hne : cycles deps ≠ [] := List.ne_nil_of_mem hm
  unfold cycledeps
  rw [if_neg hne]
  have := next_keys hc
  unfold keys at this
  simpa [List.map_map] using this

end Verif.Knots
