import Verif.Dict.Spec
/-!
# Association list facts
-/
namespace Verif.Dict
variable {K V : Type} {W : HashW K}

theorem alookup_none_iff {l : List (K × V)} {k : K} :
    alookup W.eq l k = none ↔ ∀ p ∈ l, W.eq k p.1 = false := by
  induction l with
  | nil => simp [alookup]
  | cons p l ih =>
    obtain ⟨k', v⟩ := p
    unfold alookup
    cases h : W.eq k k' <;> simp [h, ih]

theorem HashW.Ok.eq_false (ok : W.Ok) {a b c : K} (h : W.eq a b = false) (h' : W.eq c b = true) : W.eq c a = false := by
  cases e : W.eq c a with
  | false => rfl
  | true => rw [ok.trans a c b (ok.symm _ _ e) h'] at h; exact absurd h (by simp)

theorem HashW.Ok.symm_false (ok : W.Ok) {a b : K} (h : W.eq a b = false) : W.eq b a = false := by
  cases e : W.eq b a with
  | false => rfl
  | true => rw [ok.symm _ _ e] at h; exact absurd h (by simp)

/-- The other keys around a matching binding do not match. -/
theorem Distinct.mid (ok : W.Ok) {A B : List (K × V)} {k k' : K} {v : V} (h : Distinct W.eq (A ++ (k', v) :: B))
    (hk : W.eq k k' = true) : (∀ p ∈ A, W.eq k p.1 = false) ∧ (∀ p ∈ B, W.eq k p.1 = false) := by
  unfold Distinct at h
  rw [List.pairwise_append] at h
  obtain ⟨_, h2, h3⟩ := h
  rw [List.pairwise_cons] at h2
  constructor
  · intro p hp
    exact ok.eq_false (h3 p hp (k', v) (by simp)) hk
  · intro p hp
    exact ok.eq_false (ok.symm_false (h2.1 p hp)) hk

theorem alookup_mid {A B : List (K × V)} {k k' : K} {v : V} (hA : ∀ p ∈ A, W.eq k p.1 = false)
    (hk : W.eq k k' = true) : alookup W.eq (A ++ (k', v) :: B) k = some v := by
  induction A with
  | nil => simp [alookup, hk]
  | cons p A ih =>
    obtain ⟨a, b⟩ := p
    rw [List.cons_append]
    unfold alookup
    rw [hA (a, b) (by simp), if_neg (by simp)]
    exact ih (fun p hp => hA p (List.mem_cons_of_mem _ hp))

theorem aset_none {l : List (K × V)} {k : K} (v : V) (h : ∀ p ∈ l, W.eq k p.1 = false) :
    aset W.eq l k v = l ++ [(k, v)] := by
  induction l with
  | nil => rfl
  | cons p l ih =>
    obtain ⟨a, b⟩ := p
    unfold aset
    rw [h (a, b) (by simp), if_neg (by simp), ih (fun p hp => h p (List.mem_cons_of_mem _ hp))]
    rfl

theorem aset_mid {A B : List (K × V)} {k k' : K} {v v' : V} (hA : ∀ p ∈ A, W.eq k p.1 = false)
    (hk : W.eq k k' = true) : aset W.eq (A ++ (k', v) :: B) k v' = A ++ (k', v') :: B := by
  induction A with
  | nil => simp [aset, hk]
  | cons p A ih =>
    obtain ⟨a, b⟩ := p
    rw [List.cons_append]
    unfold aset
    rw [hA (a, b) (by simp), if_neg (by simp), ih (fun p hp => hA p (List.mem_cons_of_mem _ hp))]
    rfl

theorem aerase_none {l : List (K × V)} {k : K} (h : ∀ p ∈ l, W.eq k p.1 = false) : aerase W.eq l k = l := by
  unfold aerase
  rw [List.filter_eq_self]
  intro p hp
  rw [h p hp]; rfl

theorem aerase_mid {A B : List (K × V)} {k k' : K} {v : V} (hA : ∀ p ∈ A, W.eq k p.1 = false)
    (hB : ∀ p ∈ B, W.eq k p.1 = false) (hk : W.eq k k' = true) : aerase W.eq (A ++ (k', v) :: B) k = A ++ B := by
  have h1 := aerase_none hA
  have h2 := aerase_none hB
  unfold aerase at *
  rw [List.filter_append, h1, List.filter_cons, h2, hk]; rfl

/-- The bindings of a list of entries. -/
def live (es : List (Entry K V)) : List (K × V) := es.filterMap (fun e => e.value.map (Prod.mk e.key))

theorem live_append (a b : List (Entry K V)) : live (a ++ b) = live a ++ live b := List.filterMap_append

theorem live_cons_some {e : Entry K V} {v : V} (h : e.value = some v) (es : List (Entry K V)) :
    live (e :: es) = (e.key, v) :: live es := by unfold live; simp [h]

theorem live_cons_none {e : Entry K V} (h : e.value = none) (es : List (Entry K V)) : live (e :: es) = live es := by
  unfold live; simp [h]

theorem mem_live {es : List (Entry K V)} {p : K × V} :
    p ∈ live es ↔ ∃ (j : Nat) (e : Entry K V), es[j]? = some e ∧ e.key = p.1 ∧ e.value = some p.2 := by
  unfold live
  rw [List.mem_filterMap]
  constructor
  · rintro ⟨e, he, h⟩
    obtain ⟨j, hj⟩ := List.mem_iff_getElem?.1 he
    cases hv : e.value with
    | none => rw [hv] at h; simp at h
    | some v =>
      rw [hv] at h
      simp at h
      exact ⟨j, e, hj, by rw [← h], by rw [hv, ← h]⟩
  · rintro ⟨j, e, hj, h1, h2⟩
    exact ⟨e, List.mem_iff_getElem?.2 ⟨j, hj⟩, by rw [h2, Option.map_some, h1]⟩

theorem live_length_le (es : List (Entry K V)) : (live es).length ≤ es.length := List.length_filterMap_le _ _

/-- Splitting at an entry. -/
theorem split_at {α} {l : List α} {j : Nat} {e : α} (h : l[j]? = some e) :
    ∃ A B, l = A ++ e :: B ∧ A.length = j := by
  obtain ⟨hj, rfl⟩ := List.getElem?_eq_some_iff.1 h
  refine ⟨l.take j, l.drop (j + 1), ?_, by rw [List.length_take]; omega⟩
  rw [← List.drop_eq_getElem_cons hj, List.take_append_drop]

theorem modify_mid {α} (A : List α) (e : α) (B : List α) (f : α → α) :
    (A ++ e :: B).modify A.length f = A ++ f e :: B := by
  induction A with
  | nil => rfl
  | cons a A ih => simpa using ih

end Verif.Dict
