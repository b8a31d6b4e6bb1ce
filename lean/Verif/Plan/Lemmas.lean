import Verif.Plan.Spec
/-!
# Work lists and searches
-/
namespace Verif.Plan

/-! ## What is left to see -/

/-- How many elements of `U` have not been seen. -/
def rem (U S : List Nat) : Nat := (U.filter (· ∉ S)).length

theorem rem_le (U : List Nat) {S T : List Nat} (h : ∀ x ∈ S, x ∈ T) : rem U T ≤ rem U S := by
  induction U with
  | nil => simp [rem]
  | cons u U ih =>
    unfold rem at *
    rw [List.filter_cons, List.filter_cons]
    by_cases hS : u ∈ S
    · rw [if_neg (by simp [h u hS]), if_neg (by simp [hS])]; exact ih
    · rw [if_pos (by simp [hS] : decide (u ∉ S) = true)]
      split
      · simp only [List.length_cons]; omega
      · simp only [List.length_cons]; omega

theorem rem_lt (U : List Nat) {S T : List Nat} (h : ∀ x ∈ S, x ∈ T) {a : Nat} (ha : a ∈ U) (hS : a ∉ S) (hT : a ∈ T) :
    rem U T < rem U S := by
  induction U with
  | nil => simp at ha
  | cons u U ih =>
    have hle := rem_le U h
    unfold rem at *
    rw [List.filter_cons, List.filter_cons]
    by_cases hu : u = a
    · subst hu
      rw [if_neg (by simp [hT]), if_pos (by simp [hS])]
      simp only [List.length_cons]; omega
    · have ih := ih (by simpa [Ne.symm hu] using ha)
      by_cases hS' : u ∈ S
      · rw [if_neg (by simp [h u hS']), if_neg (by simp [hS'])]; exact ih
      · rw [if_pos (by simp [hS'] : decide (u ∉ S) = true)]
        split
        · simp only [List.length_cons]; omega
        · simp only [List.length_cons]; omega

theorem rem_nil (U : List Nat) : rem U [] = U.length := by simp [rem]

/-! ## Paths that avoid some nodes -/

inductive Avoid (R : Nat → Nat → Prop) (S : List Nat) : Nat → Nat → Prop
  | here {a} : a ∉ S → Avoid R S a a
  | step {a b c} : a ∉ S → R a b → Avoid R S b c → Avoid R S a c

theorem Avoid.reach {R : Nat → Nat → Prop} {S : List Nat} {a c : Nat} (h : Avoid R S a c) : Reach R a c := by
  induction h with
  | here _ => exact .refl
  | step _ h _ ih => exact .head h ih

theorem avoid_nil {R : Nat → Nat → Prop} {a c : Nat} : Avoid R [] a c ↔ Reach R a c := by
  refine ⟨Avoid.reach, fun h => ?_⟩
  induction h using Relation.ReflTransGen.head_induction_on with
  | refl => exact .here (by simp)
  | head h _ ih => exact .step (by simp) h ih

theorem Avoid.mono {R : Nat → Nat → Prop} {S T : List Nat} (hs : ∀ x ∈ S, x ∈ T) {a c : Nat} (h : Avoid R T a c) : Avoid R S a c := by
  induction h with
  | here h => exact .here fun h' => h (hs _ h')
  | step h1 h2 _ ih => exact .step (fun h' => h1 (hs _ h')) h2 ih

theorem Avoid.not_mem {R : Nat → Nat → Prop} {S : List Nat} {a c : Nat} (h : Avoid R S a c) : a ∉ S := by
  cases h <;> assumption

/-- A path avoids `x`, or it ends with a path from `x` that does not come back to `x`. -/
theorem Avoid.cut {R : Nat → Nat → Prop} {S : List Nat} (x : Nat) {a c : Nat} (h : Avoid R S a c) :
    Avoid R (x :: S) a c ∨ c = x ∨ ∃ d, R x d ∧ Avoid R (x :: S) d c := by
  induction h with
  | @here a h =>
    by_cases hx : a = x
    · exact .inr (.inl hx)
    · exact .inl (.here (by simp [h, hx]))
  | @step a b c h1 h2 _ ih =>
    rcases ih with ih | ih
    · by_cases hx : a = x
      · subst hx; exact .inr (.inr ⟨b, h2, ih⟩)
      · exact .inl (.step (by simp [h1, hx]) h2 ih)
    · exact .inr ih

theorem avoid_iff {R : Nat → Nat → Prop} {S : List Nat} {a c : Nat} (ha : a ∉ S) :
    Avoid R S a c ↔ c = a ∨ ∃ d, R a d ∧ Avoid R (a :: S) d c := by
  constructor
  · intro h
    rcases h.cut a with h | h
    · exact absurd h.not_mem (by simp)
    · exact h
  · rintro (rfl | ⟨d, h1, h2⟩)
    · exact .here ha
    · exact .step ha h1 (h2.mono (by simp +contextual))

/-! ## Lookups -/

def keys (ctxs : Ctxs) : List Nat := ctxs.map (·.1)

theorem find_some {ctxs : Ctxs} {d : Nat} {ds : List Nat} (h : find ctxs d = some ds) : (d, ds) ∈ ctxs := by
  unfold find at h
  cases hf : ctxs.find? (·.1 = d) with
  | none => rw [hf] at h; cases h
  | some p =>
    rw [hf] at h
    cases h
    have h1 := List.find?_some hf
    have h2 := List.mem_of_find?_eq_some hf
    simp only [decide_eq_true_eq] at h1
    subst h1
    exact h2

theorem find_none {ctxs : Ctxs} {d : Nat} : find ctxs d = none ↔ d ∉ keys ctxs := by
  unfold find keys
  rw [Option.map_eq_none_iff, List.find?_eq_none]
  simp only [decide_eq_true_eq, List.mem_map, not_exists, not_and]

theorem find_of_mem {ctxs : Ctxs} (hk : (keys ctxs).Nodup) {d : Nat} {ds : List Nat} (h : (d, ds) ∈ ctxs) : find ctxs d = some ds := by
  induction ctxs with
  | nil => cases h
  | cons c ctxs ih =>
    rw [keys, List.map_cons, List.nodup_cons] at hk
    unfold find
    rw [List.find?_cons]
    rcases List.mem_cons.1 h with rfl | h
    · simp
    · have : c.1 ≠ d := by
        rintro rfl
        exact hk.1 (List.mem_map_of_mem (f := (·.1)) h)
      simp only [this, decide_false]
      exact ih hk.2 h

theorem mem_depsOf {ctxs : Ctxs} (hk : (keys ctxs).Nodup) {a b : Nat} : b ∈ depsOf ctxs a ↔ Dep ctxs a b := by
  unfold depsOf Dep
  constructor
  · intro h
    cases hf : find ctxs a with
    | none => rw [hf] at h; cases h
    | some ds => rw [hf] at h; exact ⟨ds, find_some hf, h⟩
  · rintro ⟨ds, h1, h2⟩
    rw [find_of_mem hk h1]
    exact h2

theorem Dep.key {ctxs : Ctxs} {a b : Nat} (h : Dep ctxs a b) : a ∈ keys ctxs := by
  obtain ⟨ds, h, _⟩ := h
  exact List.mem_map_of_mem (f := (·.1)) h

theorem mem_deps {ts : List Task} (hk : (ts.map (·.key)).Nodup) {a b : Key} : b ∈ deps ts a ↔ Imports ts a b := by
  induction ts with
  | nil => simp [deps, Imports]
  | cons t ts ih =>
    rw [List.map_cons, List.nodup_cons] at hk
    have ih := ih hk.2
    unfold deps Imports at *
    rw [List.find?_cons]
    by_cases ht : t.key = a
    · simp only [ht, decide_true, Option.map_some, Option.getD_some, List.mem_cons]
      constructor
      · intro h; exact ⟨t, .inl rfl, ht, h⟩
      · rintro ⟨u, rfl | hu, h1, h2⟩
        · exact h2
        · exact absurd (List.mem_map.2 ⟨u, hu, h1.trans ht.symm⟩) hk.1
    · simp only [ht, decide_false]
      rw [ih]
      constructor
      · rintro ⟨u, hu, h⟩; exact ⟨u, .tail _ hu, h⟩
      · rintro ⟨u, hu, h1, h2⟩
        rcases List.mem_cons.1 hu with rfl | hu
        · exact absurd h1 ht
        · exact ⟨u, hu, h1, h2⟩

theorem inner_keys (ts : List Task) : (inner ts).map (·.key) = ts.map (·.key) := by
  simp [inner]

theorem imports_inner {ts : List Task} {a b : Key} : Imports (inner ts) a b ↔ ImportsT ts a b := by
  unfold ImportsT Imports inner
  constructor
  · rintro ⟨u, hu, h1, h2⟩
    obtain ⟨t, ht, rfl⟩ := List.mem_map.1 hu
    simp only [List.mem_filter, decide_eq_true_eq] at h2
    obtain ⟨v, hv, h3⟩ := List.mem_map.1 h2.2
    exact ⟨⟨t, ht, h1, h2.1⟩, v, hv, h3⟩
  · rintro ⟨⟨t, ht, h1, h2⟩, v, hv, rfl⟩
    refine ⟨_, List.mem_map.2 ⟨t, ht, rfl⟩, h1, ?_⟩
    simp only [List.mem_filter, decide_eq_true_eq]
    exact ⟨h2, List.mem_map_of_mem (f := (·.key)) hv⟩

theorem mem_rev {ts : List Task} {a b : Key} : a ∈ rev ts b ↔ Imports ts a b := by
  unfold rev Imports
  simp only [List.mem_reverse, List.mem_flatMap, List.mem_map, List.mem_filter, decide_eq_true_eq]
  constructor
  · rintro ⟨t, ht, x, ⟨hx, rfl⟩, rfl⟩; exact ⟨t, ht, rfl, hx⟩
  · rintro ⟨t, ht, rfl, h⟩; exact ⟨t, ht, b, ⟨h, rfl⟩, rfl⟩

theorem Imports.key {ts : List Task} {a b : Key} (h : Imports ts a b) : a ∈ ts.map (·.key) := by
  obtain ⟨t, ht, rfl, _⟩ := h
  exact List.mem_map_of_mem (f := (·.key)) ht

/-! ## Work lists -/

/-- The work that the elements of `U` not seen still bring. -/
def load (g : Nat → List Nat) (U S : List Nat) : Nat := ((U.filter (· ∉ S)).map fun u => 1 + (g u).length).sum

theorem load_le (g : Nat → List Nat) (U S : List Nat) (a : Nat) : load g U (a :: S) ≤ load g U S := by
  induction U with
  | nil => simp [load]
  | cons u U ih =>
    unfold load at *
    rw [List.filter_cons, List.filter_cons]
    by_cases hS : u ∈ S
    · rw [if_neg (by simp [hS]), if_neg (by simp [hS])]; exact ih
    · rw [if_pos (by simp [hS] : decide (u ∉ S) = true)]
      split
      · simp only [List.map_cons, List.sum_cons]; omega
      · simp only [List.map_cons, List.sum_cons]; omega

theorem load_lt (g : Nat → List Nat) (U S : List Nat) {a : Nat} (ha : a ∈ U) (hS : a ∉ S) :
    load g U (a :: S) + (1 + (g a).length) ≤ load g U S := by
  induction U with
  | nil => cases ha
  | cons u U ih =>
    have hle := load_le g U S a
    by_cases hu : u = a
    · subst hu
      unfold load at *
      rw [List.filter_cons, List.filter_cons, if_neg (by simp), if_pos (by simp [hS])]
      simp only [List.map_cons, List.sum_cons]; omega
    · have ih := ih (by simpa [Ne.symm hu] using ha)
      unfold load at *
      rw [List.filter_cons, List.filter_cons]
      by_cases hS' : u ∈ S
      · rw [if_neg (by simp [hS']), if_neg (by simp [hS'])]; exact ih
      · rw [if_pos (by simp [hS', hu]), if_pos (by simp [hS'])]
        simp only [List.map_cons, List.sum_cons]; omega

theorem load_nil (g : Nat → List Nat) (U : List Nat) : load g U [] = (U.map fun u => 1 + (g u).length).sum := by simp [load]

/-- Closed under `g`. -/
def Closed (g : Nat → List Nat) (R : List Nat) : Prop := ∀ x ∈ R, ∀ y ∈ g x, y ∈ R

theorem Closed.reach {g : Nat → List Nat} {R : List Nat} (h : Closed g R) {a b : Nat} (ha : a ∈ R)
    (hr : Reach (fun x y => y ∈ g x) a b) : b ∈ R := by
  induction hr with
  | refl => exact ha
  | tail _ h1 ih => exact h _ ih _ h1

theorem goReach_spec (g : Nat → List Nat) (U : List Nat) (hU : ∀ k, k ∉ U → g k = []) : ∀ (f : Nat) (ks S : List Nat),
    ks.length + load g U S ≤ f → (∀ x ∈ S, ∀ y ∈ g x, y ∈ S ∨ y ∈ ks) →
    (∀ x ∈ S, x ∈ goReach g f ks S) ∧ (∀ x ∈ ks, x ∈ goReach g f ks S) ∧ Closed g (goReach g f ks S) ∧
    ∀ x ∈ goReach g f ks S, x ∈ S ∨ ∃ k ∈ ks, Reach (fun a b => b ∈ g a) k x
  | 0, ks, S, hf, hi => by
    have : ks = [] := by
      cases ks with
      | nil => rfl
      | cons k ks => simp only [List.length_cons] at hf; omega
    subst this
    rw [goReach]
    exact ⟨fun _ h => h, by simp, fun x hx y hy => by simpa using hi x hx y hy, fun x hx => .inl hx⟩
  | f + 1, [], S, hf, hi => by
    rw [goReach]
    exact ⟨fun _ h => h, by simp, fun x hx y hy => by simpa using hi x hx y hy, fun x hx => .inl hx⟩
  | f + 1, k :: ks, S, hf, hi => by
    rw [goReach]
    simp only [List.length_cons] at hf
    by_cases hk : k ∈ S
    · rw [if_pos hk]
      obtain ⟨h1, h2, h3, h4⟩ := goReach_spec g U hU f ks S (by omega) (by
        intro x hx y hy
        rcases hi x hx y hy with h | h
        · exact .inl h
        · rcases List.mem_cons.1 h with rfl | h
          · exact .inl hk
          · exact .inr h)
      refine ⟨h1, ?_, h3, ?_⟩
      · intro x hx
        rcases List.mem_cons.1 hx with rfl | hx
        · exact h1 _ hk
        · exact h2 x hx
      · intro x hx
        rcases h4 x hx with h | ⟨k', hk', h⟩
        · exact .inl h
        · exact .inr ⟨k', .tail _ hk', h⟩
    · rw [if_neg hk]
      obtain ⟨h1, h2, h3, h4⟩ := goReach_spec g U hU f (g k ++ ks) (k :: S) (by
        rw [List.length_append]
        by_cases hu : k ∈ U
        · have := load_lt g U S hu hk; omega
        · have := load_le g U S k; rw [hU k hu, List.length_nil]; omega) (by
        intro x hx y hy
        rcases List.mem_cons.1 hx with rfl | hx
        · exact .inr (List.mem_append_left _ hy)
        · rcases hi x hx y hy with h | h
          · exact .inl (.tail _ h)
          · rcases List.mem_cons.1 h with rfl | h
            · exact .inl (by simp)
            · exact .inr (List.mem_append_right _ h))
      refine ⟨fun x hx => h1 x (.tail _ hx), ?_, h3, ?_⟩
      · intro x hx
        rcases List.mem_cons.1 hx with rfl | hx
        · exact h1 _ (by simp)
        · exact h2 x (List.mem_append_right _ hx)
      · intro x hx
        rcases h4 x hx with h | ⟨k', hk', h⟩
        · rcases List.mem_cons.1 h with rfl | h
          · exact .inr ⟨x, by simp, .refl⟩
          · exact .inl h
        · rcases List.mem_append.1 hk' with hk' | hk'
          · exact .inr ⟨k, by simp, .head hk' h⟩
          · exact .inr ⟨k', .tail _ hk', h⟩

theorem goRev_spec (g : Nat → List Nat) (U : List Nat) (hU : ∀ k, k ∉ U → g k = []) : ∀ (f : Nat) (ks S : List Nat),
    ks.length + load g U S ≤ f → (∀ x ∈ S, ∀ y ∈ g x, y ∈ S ∨ y ∈ ks) →
    (∀ x ∈ S, x ∈ goRev g f ks S) ∧ (∀ x ∈ ks, x ∈ goRev g f ks S) ∧ Closed g (goRev g f ks S) ∧
    ∀ x ∈ goRev g f ks S, x ∈ S ∨ ∃ k ∈ ks, Reach (fun a b => b ∈ g a) k x
  | 0, ks, S, hf, hi => by
    have : ks = [] := by
      cases ks with
      | nil => rfl
      | cons k ks => simp only [List.length_cons] at hf; omega
    subst this
    rw [goRev]
    exact ⟨fun _ h => h, by simp, fun x hx y hy => by simpa using hi x hx y hy, fun x hx => .inl hx⟩
  | f + 1, [], S, hf, hi => by
    rw [goRev]
    exact ⟨fun _ h => h, by simp, fun x hx y hy => by simpa using hi x hx y hy, fun x hx => .inl hx⟩
  | f + 1, k :: ks, S, hf, hi => by
    rw [goRev]
    simp only [List.length_cons] at hf
    by_cases hk : k ∈ S
    · rw [if_pos hk]
      obtain ⟨h1, h2, h3, h4⟩ := goRev_spec g U hU f ks S (by omega) (by
        intro x hx y hy
        rcases hi x hx y hy with h | h
        · exact .inl h
        · rcases List.mem_cons.1 h with rfl | h
          · exact .inl hk
          · exact .inr h)
      refine ⟨h1, ?_, h3, ?_⟩
      · intro x hx
        rcases List.mem_cons.1 hx with rfl | hx
        · exact h1 _ hk
        · exact h2 x hx
      · intro x hx
        rcases h4 x hx with h | ⟨k', hk', h⟩
        · exact .inl h
        · exact .inr ⟨k', .tail _ hk', h⟩
    · rw [if_neg hk]
      obtain ⟨h1, h2, h3, h4⟩ := goRev_spec g U hU f (ks ++ g k) (k :: S) (by
        rw [List.length_append]
        by_cases hu : k ∈ U
        · have := load_lt g U S hu hk; omega
        · have := load_le g U S k; rw [hU k hu, List.length_nil]; omega) (by
        intro x hx y hy
        rcases List.mem_cons.1 hx with rfl | hx
        · exact .inr (List.mem_append_right _ hy)
        · rcases hi x hx y hy with h | h
          · exact .inl (.tail _ h)
          · rcases List.mem_cons.1 h with rfl | h
            · exact .inl (by simp)
            · exact .inr (List.mem_append_left _ h))
      refine ⟨fun x hx => h1 x (.tail _ hx), ?_, h3, ?_⟩
      · intro x hx
        rcases List.mem_cons.1 hx with rfl | hx
        · exact h1 _ (by simp)
        · exact h2 x (List.mem_append_left _ hx)
      · intro x hx
        rcases h4 x hx with h | ⟨k', hk', h⟩
        · rcases List.mem_cons.1 h with rfl | h
          · exact .inr ⟨x, by simp, .refl⟩
          · exact .inl h
        · rcases List.mem_append.1 hk' with hk' | hk'
          · exact .inr ⟨k', .tail _ hk', h⟩
          · exact .inr ⟨k, by simp, .head hk' h⟩

theorem goMark_spec (g : Nat → List Nat) (U : List Nat) (E : Nat) (hE : ∀ k, (g k).length ≤ E) (hg : ∀ k, ∀ y ∈ g k, y ∈ U) :
    ∀ (f : Nat) (ks S : List Nat), ks.length + rem U S * E ≤ f → (∀ x ∈ S, x ∈ ks ∨ ∀ y ∈ g x, y ∈ S) →
    (∀ x ∈ S, x ∈ goMark g f ks S) ∧ (∀ x ∈ ks, ∀ y ∈ g x, y ∈ goMark g f ks S) ∧ Closed g (goMark g f ks S) ∧
    ∀ x ∈ goMark g f ks S, x ∈ S ∨ ∃ k ∈ ks, Reach1 (fun a b => b ∈ g a) k x
  | 0, ks, S, hf, hi => by
    have : ks = [] := by
      cases ks with
      | nil => rfl
      | cons k ks => simp only [List.length_cons] at hf; omega
    subst this
    rw [goMark]
    exact ⟨fun _ h => h, by simp, fun x hx y hy => (hi x hx).resolve_left (by simp) y hy, fun x hx => .inl hx⟩
  | f + 1, [], S, hf, hi => by
    rw [goMark]
    exact ⟨fun _ h => h, by simp, fun x hx y hy => (hi x hx).resolve_left (by simp) y hy, fun x hx => .inl hx⟩
  | f + 1, k :: ks, S, hf, hi => by
    rw [goMark]
    simp only [List.length_cons] at hf
    have hk : ∀ y ∈ g k, y ∈ (g k).filter (· ∉ S) ++ S := by
      intro y hy
      by_cases hS : y ∈ S
      · exact List.mem_append_right _ hS
      · exact List.mem_append_left _ (by simp [hy, hS])
    obtain ⟨h1, h2, h3, h4⟩ := goMark_spec g U E hE hg f (ks ++ (g k).filter (· ∉ S)) ((g k).filter (· ∉ S) ++ S) (by
      rw [List.length_append]
      cases hn : (g k).filter (· ∉ S) with
      | nil => simp only [List.length_nil, List.nil_append]; omega
      | cons y ys =>
        have hl : (y :: ys).length ≤ E := by rw [← hn]; exact Nat.le_trans (List.length_filter_le _ _) (hE k)
        have hy : y ∈ (g k).filter (· ∉ S) := by rw [hn]; simp
        simp only [List.mem_filter, decide_eq_true_eq] at hy
        have := rem_lt U (S := S) (T := y :: ys ++ S) (fun x hx => List.mem_append_right _ hx) (hg k y hy.1) hy.2 (by simp)
        have : (rem U (y :: ys ++ S) + 1) * E ≤ rem U S * E := Nat.mul_le_mul_right _ this
        rw [Nat.add_mul] at this
        omega) (by
      intro x hx
      rcases List.mem_append.1 hx with hx | hx
      · exact .inl (List.mem_append_right _ hx)
      · rcases hi x hx with h | h
        · rcases List.mem_cons.1 h with rfl | h
          · exact .inr hk
          · exact .inl (List.mem_append_left _ h)
        · exact .inr fun y hy => List.mem_append_right _ (h y hy))
    refine ⟨fun x hx => h1 x (List.mem_append_right _ hx), ?_, h3, ?_⟩
    · intro x hx y hy
      rcases List.mem_cons.1 hx with rfl | hx
      · exact h1 y (hk y hy)
      · exact h2 x (List.mem_append_left _ hx) y hy
    · intro x hx
      rcases h4 x hx with h | ⟨k', hk', h⟩
      · rcases List.mem_append.1 h with h | h
        · exact .inr ⟨k, by simp, .single (List.mem_filter.1 h).1⟩
        · exact .inl h
      · rcases List.mem_append.1 hk' with hk' | hk'
        · exact .inr ⟨k', .tail _ hk', h⟩
        · exact .inr ⟨k, by simp, .head (List.mem_filter.1 hk').1 h⟩

end Verif.Plan
