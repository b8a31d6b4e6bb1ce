import Verif.Names.Model

/-!
C87: `isKeyword`, Syntax.hs:843-852, recognises the reserved words.

`Data.Set` is not part of the repository. It is specified by what its documentation says:
`fromDistinctAscList` makes a balanced search tree that has the elements of the list in the
order of the list (and requires that this be ascending), and `member` searches the tree by
comparison.
-/
namespace Verif.Names

/-- The order of strings. -/
def cmp : Txt → Txt → Ordering
  | [], [] => .eq
  | [], _ :: _ => .lt
  | _ :: _, [] => .gt
  | a :: s, b :: t => if a < b then .lt else if b < a then .gt else cmp s t

/-- Search trees. -/
inductive Tree
  | tip
  | bin (l : Tree) (x : Txt) (r : Tree)

/-- The elements of a tree, from left to right. -/
def Tree.elems : Tree → List Txt
  | .tip => []
  | .bin l x r => l.elems ++ x :: r.elems

/-- `member`: search by comparison. -/
def Tree.member (w : Txt) : Tree → Bool
  | .tip => false
  | .bin l x r =>
    match cmp w x with
    | .lt => l.member w
    | .gt => r.member w
    | .eq => true

/-- The balance of `Data.Set`: no side is more than three times the other, unless there is at
most one element in both. -/
def Tree.Balanced : Tree → Prop
  | .tip => True
  | .bin l _ r => l.Balanced ∧ r.Balanced ∧ (l.elems.length + r.elems.length ≤ 1 ∨
      (l.elems.length ≤ 3 * r.elems.length ∧ r.elems.length ≤ 3 * l.elems.length))

/-- The last element, which is furthest to the right, has no subtree. -/
def Tree.LastLeaf : Tree → Prop
  | .tip => True
  | .bin l _ .tip => l = .tip
  | .bin _ _ r => r.LastLeaf

theorem cmp_eq {s t : Txt} : cmp s t = .eq ↔ s = t := by
  induction s generalizing t with
  | nil => cases t <;> simp [cmp]
  | cons a s ih =>
    cases t with
    | nil => simp [cmp]
    | cons b t =>
      simp only [cmp]
      by_cases h1 : a < b
      · rw [if_pos h1]; simp; omega
      · rw [if_neg h1]
        by_cases h2 : b < a
        · rw [if_pos h2]; simp; omega
        · rw [if_neg h2, ih]
          have : a = b := by omega
          simp [this]

theorem cmp_swap {s t : Txt} : cmp s t = .lt ↔ cmp t s = .gt := by
  induction s generalizing t with
  | nil => cases t <;> simp [cmp]
  | cons a s ih =>
    cases t with
    | nil => simp [cmp]
    | cons b t =>
      simp only [cmp]
      by_cases h1 : a < b
      · rw [if_pos h1, if_neg (by omega), if_pos h1]; simp
      · rw [if_neg h1]
        by_cases h2 : b < a
        · rw [if_pos h2, if_pos h2]; simp
        · rw [if_neg h2, if_neg h2, if_neg h1]; exact ih

/-- What is found is in the tree. -/
theorem member_mem {w : Txt} {t : Tree} (h : t.member w = true) : w ∈ t.elems := by
  induction t with
  | tip => simp [Tree.member] at h
  | bin l x r ihl ihr =>
    simp only [Tree.member] at h
    simp only [Tree.elems, List.mem_append, List.mem_cons]
    cases hc : cmp w x with
    | lt => rw [hc] at h; exact Or.inl (ihl h)
    | gt => rw [hc] at h; exact Or.inr (Or.inr (ihr h))
    | eq => exact Or.inr (Or.inl (cmp_eq.mp hc))

/-- A strictly ascending list. -/
def Asc (l : List Txt) : Prop := l.Pairwise (fun a b => cmp a b = .lt)

instance (l : List Txt) : Decidable (Asc l) := by unfold Asc; infer_instance

/-- In a tree of an ascending list, everything is found. -/
theorem mem_member {w : Txt} {t : Tree} (ht : Asc t.elems) (h : w ∈ t.elems) :
    t.member w = true := by
  induction t with
  | tip => simp [Tree.elems] at h
  | bin l x r ihl ihr =>
    simp only [Tree.elems, Asc, List.pairwise_append, List.pairwise_cons] at ht
    obtain ⟨h1, ⟨h2, h3⟩, h4⟩ := ht
    simp only [Tree.elems, List.mem_append, List.mem_cons] at h
    simp only [Tree.member]
    rcases h with h | rfl | h
    · rw [h4 w h x (by simp)]; exact ihl h1 h
    · rw [cmp_eq.mpr rfl]
    · have : cmp w x = .gt := cmp_swap.mp (h2 w h)
      rw [this]; exact ihr h3 h

/-- The same, if only the last element is out of order, and has no subtree. -/
theorem mem_member_last {w z : Txt} {t : Tree} {pre : List Txt} (he : t.elems = pre ++ [z])
    (ht : Asc pre) (hl : t.LastLeaf) (h : w ∈ pre) : t.member w = true := by
  induction t generalizing pre with
  | tip => simp [Tree.elems] at he
  | bin l x r ihl ihr =>
    cases r with
    | tip =>
      simp only [Tree.LastLeaf] at hl
      subst hl
      simp only [Tree.elems, List.nil_append] at he
      exfalso
      have := congrArg List.length he
      simp at this
      subst this
      cases h
    | bin l' x' r' =>
      simp only [Tree.LastLeaf] at hl
      have hne : (Tree.bin l' x' r').elems ≠ [] := by simp [Tree.elems]
      obtain ⟨pr, y, hy⟩ : ∃ pr y, (Tree.bin l' x' r').elems = pr ++ [y] :=
        ⟨_, _, (List.dropLast_concat_getLast hne).symm⟩
      have he' : pre ++ [z] = (l.elems ++ x :: pr) ++ [y] := by
        rw [← he, Tree.elems, hy]; simp
      obtain ⟨e1, e2⟩ := List.append_inj' he' rfl
      simp only [List.cons.injEq, and_true] at e2
      subst e2
      subst e1
      simp only [Asc, List.pairwise_append, List.pairwise_cons] at ht
      obtain ⟨h1, ⟨h2, h3⟩, h4⟩ := ht
      simp only [List.mem_append, List.mem_cons] at h
      rw [Tree.member]
      rcases h with h | rfl | h
      · rw [h4 w h x (by simp)]
        exact mem_member h1 h
      · rw [cmp_eq.mpr rfl]
      · have : cmp w x = .gt := cmp_swap.mp (h2 w h)
        rw [this]; exact ihr hy h3 hl h

theorem keywords_last : keywords = keywords.dropLast ++ [[95]] := by decide +kernel

/-- **C87**, all words but `_`: nothing else is taken for a reserved word, and (in every tree
in which `_` has no subtree) every other reserved word is recognised. -/
theorem C87_keywords_partial {t : Tree} (h : t.elems = keywords) :
    (∀ w, t.member w = true → w ∈ keywords) ∧
    (t.LastLeaf → ∀ w ∈ keywords, w ≠ [95] → t.member w = true) := by
  refine ⟨fun w hw => h ▸ member_mem hw, ?_⟩
  intro hl w hw hne
  rw [keywords_last] at h
  refine mem_member_last h (by decide +kernel) hl ?_
  rw [keywords_last] at hw
  rcases List.mem_append.mp hw with hw | hw
  · exact hw
  · rw [List.mem_singleton] at hw; exact absurd hw hne

/-- C87 does not hold for `_`: it is the last word of the table although it precedes the
words in lower case, so that `fromDistinctAscList` makes a tree in which it is not found,
whatever the balanced tree. -/
theorem C87_refuted_underscore : [95] ∈ keywords ∧ ¬ Asc keywords ∧
    ∀ t : Tree, t.elems = keywords → t.Balanced → t.member [95] = false := by
  refine ⟨by decide +kernel, by decide +kernel, ?_⟩
  intro t he hb
  cases t with
  | tip => simp [Tree.elems, keywords] at he
  | bin l x r =>
    simp only [Tree.Balanced] at hb
    simp only [Tree.elems] at he
    have hlen := congrArg List.length he
    simp only [List.length_append, List.length_cons] at hlen
    have h40 : keywords.length = 40 := by decide +kernel
    rw [h40] at hlen
    generalize hi : l.elems.length = i at *
    have hi1 : 10 ≤ i ∧ i ≤ 29 := by omega
    have hx : keywords[i]? = some x := by
      rw [← he, List.getElem?_append_right (by omega), hi]
      simp
    have hl : l.elems = keywords.take i := by
      rw [← he, ← hi]; simp
    have hall : ∀ j ∈ List.range 40, 10 ≤ j → j ≤ 29 →
        keywords[j]?.map (cmp [95]) = some .lt := by decide +kernel
    have := hall i (by simp; omega) hi1.1 hi1.2
    rw [hx] at this
    simp only [Option.map_some, Option.some.injEq] at this
    rw [Tree.member, this]
    simp only
    cases hm : l.member [95] with
    | false => rfl
    | true =>
      exfalso
      have hmem := member_mem hm
      rw [hl] at hmem
      have hno : ∀ j ∈ List.range 40, j ≤ 29 → [95] ∉ keywords.take j := by decide +kernel
      exact hno i (by simp; omega) hi1.2 hmem

/-- A tree of the table made by halving. -/
def halves : Nat → List Txt → Tree
  | 0, _ => .tip
  | f + 1, l =>
    match l.drop (l.length / 2) with
    | [] => .tip
    | x :: r => .bin (halves f (l.take (l.length / 2))) x (halves f r)

/-- Whether the balance holds. -/
def Tree.balanced : Tree → Bool
  | .tip => true
  | .bin l _ r => l.balanced && r.balanced && (decide (l.elems.length + r.elems.length ≤ 1) ||
      (decide (l.elems.length ≤ 3 * r.elems.length) && decide (r.elems.length ≤ 3 * l.elems.length)))

theorem balanced_iff (t : Tree) : t.balanced = true → t.Balanced := by
  induction t with
  | tip => intro _; trivial
  | bin l x r ihl ihr =>
    intro h
    simp only [Tree.balanced, Bool.and_eq_true, Bool.or_eq_true, decide_eq_true_eq] at h
    exact ⟨ihl h.1.1, ihr h.1.2, h.2⟩

/-- There are such trees. -/
example : ∃ t : Tree, t.elems = keywords ∧ t.Balanced :=
  ⟨halves 8 keywords, by decide +kernel, balanced_iff _ (by decide +kernel)⟩

/-- And such with a last element that has no subtree: put `_` to the right of the rest. -/
def addLast (z : Txt) : Tree → Tree
  | .tip => .bin .tip z .tip
  | .bin l x r => .bin l x (addLast z r)

theorem addLast_leaf (z : Txt) (t : Tree) : (addLast z t).LastLeaf := by
  induction t with
  | tip => rfl
  | bin l x r ihl ihr =>
    simp only [addLast]
    cases r with
    | tip => rfl
    | bin l' x' r' => exact ihr

example : ∃ t : Tree, t.elems = keywords ∧ t.LastLeaf :=
  ⟨addLast [95] (halves 8 keywords.dropLast), by decide +kernel, addLast_leaf _ _⟩

end Verif.Names
