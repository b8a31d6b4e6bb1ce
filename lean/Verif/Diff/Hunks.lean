import Verif.Diff.Props
/-!
# C40: the hunks can be applied
-/
namespace Verif.Diff
open Verif

set_option linter.unusedSectionVars false

variable {α : Type} [DecidableEq α]

/-! ### Specification -/

/-- The lines of a hunk that must be found in the old text. -/
def oldSide (l : List (Op α)) : List α := (oldOf l).map Prod.fst

/-- The lines that replace them. -/
def newSide (l : List (Op α)) : List α := (newOf l).map Prod.fst

/-- Start of a range in the unified format: the number of its first line, counted from one, or, if it is
empty, of the line before it. -/
def startOf (pos count : Nat) : Int := if count = 0 then pos else pos + 1

/-- Applying hunks to a text of which `a` lines have been read, with `b` lines written so far: between the
hunks lines are copied; a hunk replaces its old side by its new side, at the place given by its header. -/
inductive Patch : Nat → Nat → List α → List (Header × List (Op α)) → List α → Prop
  | done {a b} : Patch a b [] [] []
  | copy {a b x l hs r} : Patch (a + 1) (b + 1) l hs r → Patch a b (x :: l) hs (x :: r)
  | hunk {a b h ops l hs r} : h.oldStart = startOf a (oldSide ops).length → h.oldCount = (oldSide ops).length →
      h.newStart = startOf b (newSide ops).length → h.newCount = (newSide ops).length →
      Patch (a + (oldSide ops).length) (b + (newSide ops).length) l hs r →
      Patch a b (oldSide ops ++ l) ((h, ops) :: hs) (newSide ops ++ r)

/-- A script for two texts. -/
structure Script (e f : List α) (ops : List (Op α)) : Prop where
  old : oldOf ops = e.zipIdx
  new : newOf ops = f.zipIdx
  ng : Op.gap ∉ ops

/-! ### Runs -/

/-- Maximal runs of marked operations. -/
def runs : List (Op α × Bool) → List (Op α) → List (List (Op α))
  | [], cur => if cur.length > 0 then [cur] else []
  | (op, true) :: r, cur => runs r (cur ++ [op])
  | (_, false) :: r, cur => (if cur.length > 0 then [cur] else []) ++ runs r []

/-- The operations, marked. -/
def marked (ch : List Nat) (c : Nat) : List (Op α) → Nat → List (Op α × Bool)
  | [], _ => []
  | op :: r, i => (op, included ch c i) :: marked ch c r (i + 1)

theorem chunkLoop_op {op : Op α} (h : op ≠ .gap) (r cur : List (Op α)) : chunkLoop (op :: r) cur = chunkLoop r (cur ++ [op]) := by
  cases op with
  | gap => exact absurd rfl h
  | keep | del | ins => rfl

theorem chunks_runs (ch : List Nat) (c : Nat) (l : List (Op α)) (hg : Op.gap ∉ l) : ∀ i cur,
    chunkLoop (filterLoop ch c l i true true) cur = runs (marked ch c l i) cur ∧
    (0 < i → chunkLoop (filterLoop ch c l i false true) cur = (if cur.length > 0 then [cur] else []) ++ runs (marked ch c l i) []) ∧
    chunkLoop (filterLoop ch c l i false false) [] = runs (marked ch c l i) [] := by
  induction l with
  | nil =>
    intro i cur
    refine ⟨rfl, fun _ => ?_, rfl⟩
    simp [filterLoop, marked, runs, chunkLoop]
  | cons op l ih =>
    intro i cur
    simp only [List.mem_cons, not_or] at hg
    have ih := ih hg.2
    have hne : op ≠ .gap := Ne.symm hg.1
    simp only [filterLoop, marked]
    by_cases h : included ch c i = true
    · rw [h]
      simp only [if_true, Bool.not_true, Bool.false_and, Bool.false_eq_true, if_false, Bool.not_false, Bool.true_and, Bool.and_false,
        Bool.and_true, List.cons_append, List.nil_append, chunkLoop_op hne, runs]
      refine ⟨(ih (i + 1) _).1, fun hi => ?_, (ih (i + 1) _).1⟩
      rw [if_pos (by simpa using hi)]
      simp only [chunkLoop, List.cons_append, List.nil_append, chunkLoop_op hne]
      by_cases hc : cur.length > 0
      · rw [if_pos hc, if_pos hc, (ih (i + 1) _).1]
        rfl
      · rw [if_neg hc, if_neg hc, (ih (i + 1) _).1]
        have : cur = [] := List.length_eq_zero_iff.1 (by omega)
        subst this
        rfl
    · have h' : included ch c i = false := by simpa using h
      rw [h']
      simp only [Bool.false_eq_true, if_false, runs]
      refine ⟨(ih (i + 1) _).2.1 (by omega), fun _ => ?_, ?_⟩
      · rw [(ih (i + 1) _).2.1 (by omega)]
        simp
      · rw [(ih (i + 1) []).2.2]
        simp

/-! ### Marks -/

/-- The marks of a context of at least one line: changes and their neighbours are marked. -/
def Marks : List (Op α × Bool) → Prop
  | [] => True
  | [(op, b)] => isChange op → b = true
  | (op, b) :: (op', b') :: r => (isChange op → b = true ∧ b' = true) ∧ (isChange op' → b = true) ∧ Marks ((op', b') :: r)

theorem mem_changes {l : List (Op α)} {i k : Nat} {op : Op α} (h : l[k]? = some op) (hc : isChange op) : i + k ∈ changes l i := by
  induction l generalizing i k with
  | nil => simp at h
  | cons x l ih =>
    rw [changes]
    cases k with
    | zero =>
      simp only [List.getElem?_cons_zero, Option.some.injEq] at h
      subst h
      rw [if_pos hc]; simp
    | succ k =>
      rw [List.getElem?_cons_succ] at h
      have := ih (i := i + 1) h
      rw [show i + 1 + k = i + (k + 1) by omega] at this
      split
      · exact List.mem_cons_of_mem _ this
      · exact this

theorem included_of {ch : List Nat} {c i k : Nat} (h : k ∈ ch) (h1 : i ≤ k + c) (h2 : k ≤ i + c) : included ch c i = true := by
  unfold included
  rw [List.any_eq_true]
  exact ⟨k, h, by simp only [decide_eq_true_eq]; omega⟩

theorem marks_marked {ch : List Nat} {c : Nat} (hc : 1 ≤ c) (l : List (Op α)) : ∀ i,
    (∀ k op, l[k]? = some op → isChange op → i + k ∈ ch) → Marks (marked ch c l i) := by
  induction l with
  | nil => intro i _; trivial
  | cons op l ih =>
    intro i h
    have h0 : isChange op → i ∈ ch := fun hop => by simpa using h 0 op rfl hop
    have ih := ih (i + 1) fun k op' hk hop => by
      have := h (k + 1) op' (by simpa using hk) hop
      rwa [show i + 1 + k = i + (k + 1) by omega]
    cases l with
    | nil => exact fun hop => included_of (h0 hop) (by omega) (by omega)
    | cons op' l =>
      have h1 : isChange op' → i + 1 ∈ ch := fun hop => by simpa using h 1 op' rfl hop
      exact ⟨fun hop => ⟨included_of (h0 hop) (by omega) (by omega), included_of (h0 hop) (by omega) (by omega)⟩,
        fun hop => included_of (h1 hop) (by omega) (by omega), ih⟩

/-! ### Headers -/

theorem setStart_of {s : Int} (h : s ≠ -1) (k : Nat) : setStart s k = s := if_neg h

/-- The first number of a list of numbered lines. -/
def firstIdx (l : List (α × Nat)) : Int := match l with | [] => -1 | p :: _ => p.2

theorem headerLoop_spec (ops : List (Op α)) (h : Header) :
    headerLoop ops h = ⟨if h.oldStart = -1 then firstIdx (oldOf ops) else h.oldStart, h.oldCount + (oldOf ops).length,
      if h.newStart = -1 then firstIdx (newOf ops) else h.newStart, h.newCount + (newOf ops).length⟩ := by
  have hne : ∀ k : Nat, (k : Int) ≠ -1 := fun k => by omega
  induction ops generalizing h with
  | nil =>
    obtain ⟨a, b, c, d⟩ := h
    simp only [headerLoop, oldOf, newOf, firstIdx, List.length_nil, Nat.add_zero, Header.mk.injEq]
    refine ⟨?_, trivial, ?_, trivial⟩
    · by_cases h : a = -1
      · rw [if_pos h, h]
      · rw [if_neg h]
    · by_cases h : c = -1
      · rw [if_pos h, h]
      · rw [if_neg h]
  | cons op ops ih =>
    obtain ⟨a, b, c, d⟩ := h
    cases op with
    | gap => simp only [headerLoop, ih, oldOf, newOf]
    | keep x i j =>
      simp only [headerLoop, ih, oldOf, newOf, List.length_cons, setStart, firstIdx, Header.mk.injEq]
      refine ⟨?_, by omega, ?_, by omega⟩
      · by_cases h : a = -1
        · simp only [if_pos h, if_neg (hne i)]
        · simp only [if_neg h]
      · by_cases h : c = -1
        · simp only [if_pos h, if_neg (hne j)]
        · simp only [if_neg h]
    | del x i =>
      simp only [headerLoop, ih, oldOf, newOf, List.length_cons, setStart, firstIdx, Header.mk.injEq]
      refine ⟨?_, by omega, trivial, trivial⟩
      by_cases h : a = -1
      · simp only [if_pos h, if_neg (hne i)]
      · simp only [if_neg h]
    | ins x j =>
      simp only [headerLoop, ih, oldOf, newOf, List.length_cons, setStart, firstIdx, Header.mk.injEq]
      refine ⟨trivial, trivial, ?_, by omega⟩
      by_cases h : c = -1
      · simp only [if_pos h, if_neg (hne j)]
      · simp only [if_neg h]

theorem header_spec {ops : List (Op α)} {u v : List α} {a b : Nat} (hu : oldOf ops = u.zipIdx a) (hv : newOf ops = v.zipIdx b)
    (h1 : u ≠ []) (h2 : v ≠ []) : header ops = ⟨startOf a u.length, u.length, startOf b v.length, v.length⟩ := by
  obtain ⟨x, u, rfl⟩ := List.exists_cons_of_ne_nil h1
  obtain ⟨y, v, rfl⟩ := List.exists_cons_of_ne_nil h2
  unfold header
  rw [headerLoop_spec, hu, hv]
  simp only [List.zipIdx_cons, firstIdx, if_true, List.length_cons, List.length_zipIdx, startOf, Nat.add_eq_zero_iff, Nat.succ_ne_self,
    and_false, if_false, Nat.zero_add]
  rw [if_neg (by omega), if_neg (by omega)]

/-! ### Applying -/

theorem sides_of {ops : List (Op α)} {u v : List α} {a b : Nat} (hu : oldOf ops = u.zipIdx a) (hv : newOf ops = v.zipIdx b) :
    oldSide ops = u ∧ newSide ops = v := by
  unfold oldSide newSide
  rw [hu, hv]
  simp [List.zipIdx_map_fst]

/-- A run that has a kept line has lines on both sides. -/
def HasKeep (l : List (Op α)) : Prop := ∃ x i j, Op.keep x i j ∈ l

theorem sides_ne_of_keep {l : List (Op α)} (h : HasKeep l) : oldOf l ≠ [] ∧ newOf l ≠ [] := by
  obtain ⟨x, i, j, h⟩ := h
  obtain ⟨a, b, rfl⟩ := List.append_of_mem h
  simp [oldOf, newOf]

theorem keep_of {op : Op α} (h : ¬ isChange op = true) (hg : op ≠ .gap) : ∃ x i j, op = .keep x i j := by
  cases op with
  | keep x i j => exact ⟨x, i, j, rfl⟩
  | del | ins => exact absurd rfl h
  | gap => exact absurd rfl hg

theorem zipIdx_cons_inv {x : α} {i : Nat} {r : List (α × Nat)} {u : List α} {a : Nat} (h : (x, i) :: r = u.zipIdx a) :
    ∃ u', u = x :: u' ∧ i = a ∧ r = u'.zipIdx (a + 1) := by
  cases u with
  | nil => simp at h
  | cons y u =>
    simp only [List.zipIdx_cons, List.cons.injEq, Prod.mk.injEq] at h
    obtain ⟨⟨rfl, rfl⟩, rfl⟩ := h
    exact ⟨u, rfl, rfl, rfl⟩

theorem zipIdx_nil_inv {u : List α} {a : Nat} (h : [] = u.zipIdx a) : u = [] := by
  cases u with
  | nil => rfl
  | cons y u => simp at h

theorem Marks.tail {p : Op α × Bool} {l : List (Op α × Bool)} (h : Marks (p :: l)) : Marks l := by
  obtain ⟨op, b⟩ := p
  cases l with
  | nil => trivial
  | cons q l => exact h.2.2

theorem Marks.head {op : Op α} {b : Bool} {l : List (Op α × Bool)} (h : Marks ((op, b) :: l)) (hc : isChange op = true) : b = true := by
  cases l with
  | nil => exact h hc
  | cons q l => exact (h.1 hc).1

/-- One side of the script, split at an operation. -/
theorem side_step {x : α} {i k : Nat} {r : List (α × Nat)} {e e0 : List α} {a : Nat} (h : (x, i) :: r = e.zipIdx (a + e0.length)) (hk : k = a + e0.length) :
    ∃ e', e = x :: e' ∧ i = k ∧ r = e'.zipIdx (a + (e0 ++ [x]).length) := by
  obtain ⟨e', h1, h2, h3⟩ := zipIdx_cons_inv h
  refine ⟨e', h1, by omega, ?_⟩
  rw [h3, List.length_append]; rfl

theorem side_snoc {x : α} {i : Nat} {r : List (α × Nat)} {e0 : List α} {a : Nat} (h : r = e0.zipIdx a) (hi : i = a + e0.length) :
    r ++ [(x, i)] = (e0 ++ [x]).zipIdx a := by
  rw [h, List.zipIdx_append, hi]; rfl

/-- The run so far, `cur`, and the rest, `l`. `e0`, `f0` are the sides of `cur`, which starts at line `a` of the
old and `b` of the new text. -/
theorem patch_runs : ∀ (l : List (Op α × Bool)) (cur : List (Op α)) (a b : Nat) (e0 f0 e f : List α),
    (∀ p ∈ l, p.1 ≠ .gap) → .gap ∉ cur → oldOf cur = e0.zipIdx a → newOf cur = f0.zipIdx b →
    oldOf (l.map Prod.fst) = e.zipIdx (a + e0.length) → newOf (l.map Prod.fst) = f.zipIdx (b + f0.length) → Marks l →
    (HasKeep cur ∨ (e0 ++ e ≠ [] ∧ f0 ++ f ≠ []) ∨ (cur = [] ∧ ∀ op b r, l = (op, b) :: r → ¬ isChange op = true)) →
    (∀ l' op op' b' r, cur = l' ++ [op] → l = (op', b') :: r → isChange op = true → b' = true) →
    Patch a b (e0 ++ e) ((runs l cur).map fun c => (header c, c)) (f0 ++ f) := by
  intro l
  induction l with
  | nil =>
    intro cur a b e0 f0 e f _ _ h1 h2 h3 h4 _ h5 _
    have he := zipIdx_nil_inv h3
    have hf := zipIdx_nil_inv h4
    subst he hf
    simp only [List.append_nil] at h5 ⊢
    rw [runs]
    by_cases hc : cur.length > 0
    · rw [if_pos hc]
      have hne : e0 ≠ [] ∧ f0 ≠ [] := by
        rcases h5 with h5 | h5 | h5
        · obtain ⟨g1, g2⟩ := sides_ne_of_keep h5
          rw [h1] at g1
          rw [h2] at g2
          exact ⟨by rintro rfl; exact g1 rfl, by rintro rfl; exact g2 rfl⟩
        · exact h5
        · rw [h5.1] at hc; simp at hc
      obtain ⟨s1, s2⟩ := sides_of h1 h2
      have hp : Patch (a + (oldSide cur).length) (b + (newSide cur).length) ([] : List α) [] [] := .done
      have := Patch.hunk (h := header cur) (ops := cur) (a := a) (b := b) (by rw [header_spec h1 h2 hne.1 hne.2, s1])
        (by rw [header_spec h1 h2 hne.1 hne.2, s1]) (by rw [header_spec h1 h2 hne.1 hne.2, s2])
        (by rw [header_spec h1 h2 hne.1 hne.2, s2]) hp
      rw [s1, s2, List.append_nil, List.append_nil] at this
      exact this
    · rw [if_neg hc]
      have : cur = [] := List.length_eq_zero_iff.1 (by omega)
      subst this
      have he := zipIdx_nil_inv h1
      have hf := zipIdx_nil_inv h2
      subst he hf
      exact .done
  | cons p l ih =>
    intro cur a b e0 f0 e f hg hgc h1 h2 h3 h4 hm h5 h6
    obtain ⟨op, mk⟩ := p
    have hg' : ∀ p ∈ l, p.1 ≠ .gap := fun p hp => hg p (List.mem_cons_of_mem _ hp)
    have hop : op ≠ .gap := hg (op, mk) (by simp)
    cases mk with
    | true =>
      rw [runs]
      have hgc' : .gap ∉ cur ++ [op] := by
        rw [List.mem_append, List.mem_singleton]
        exact not_or.2 ⟨hgc, Ne.symm hop⟩
      have h6' : ∀ l' o op' b' r, cur ++ [op] = l' ++ [o] → l = (op', b') :: r → isChange o = true → b' = true := by
        intro l' o op' b' r e1 e2 e3
        have := List.append_inj' e1 rfl
        simp only [List.cons.injEq, and_true] at this
        rw [← this.2] at e3
        subst e2
        exact (hm.1 e3).2
      have h5' : ∀ {e0' e' f0' f' : List α}, e0' ++ e' = e0 ++ e → f0' ++ f' = f0 ++ f →
          HasKeep (cur ++ [op]) ∨ (e0' ++ e' ≠ [] ∧ f0' ++ f' ≠ []) ∨ (cur ++ [op] = [] ∧ ∀ op b r, l = (op, b) :: r → ¬ isChange op = true) := by
        intro e0' e' f0' f' g1 g2
        rw [g1, g2]
        rcases h5 with ⟨x, i, j, h5⟩ | h5 | ⟨_, h5⟩
        · exact .inl ⟨x, i, j, by simp [h5]⟩
        · exact .inr (.inl h5)
        · obtain ⟨x, i, j, hk⟩ := keep_of (h5 op true l rfl) hop
          exact .inl ⟨x, i, j, by simp [hk]⟩
      cases op with
      | gap => exact absurd rfl hop
      | keep x i j =>
        simp only [List.map_cons, oldOf, newOf] at h3 h4
        obtain ⟨e', rfl, hi, h3⟩ := side_step h3 rfl
        obtain ⟨f', rfl, hj, h4⟩ := side_step h4 rfl
        have := ih (cur ++ [.keep x i j]) a b (e0 ++ [x]) (f0 ++ [x]) e' f' hg' hgc'
          (by rw [oldOf_append]; exact side_snoc h1 hi) (by rw [newOf_append]; exact side_snoc h2 hj) h3 h4 hm.tail (h5' (by simp) (by simp)) h6'
        simpa using this
      | del x i =>
        simp only [List.map_cons, oldOf, newOf] at h3 h4
        obtain ⟨e', rfl, hi, h3⟩ := side_step h3 rfl
        have := ih (cur ++ [.del x i]) a b (e0 ++ [x]) f0 e' f hg' hgc'
          (by rw [oldOf_append]; exact side_snoc h1 hi) (by rw [newOf_append]; simpa [newOf] using h2) h3 h4 hm.tail (h5' (by simp) rfl) h6'
        simpa using this
      | ins x j =>
        simp only [List.map_cons, oldOf, newOf] at h3 h4
        obtain ⟨f', rfl, hj, h4⟩ := side_step h4 rfl
        have := ih (cur ++ [.ins x j]) a b e0 (f0 ++ [x]) e f' hg' hgc'
          (by rw [oldOf_append]; simpa [oldOf] using h1) (by rw [newOf_append]; exact side_snoc h2 hj) h3 h4 hm.tail (h5' rfl (by simp)) h6'
        simpa using this
    | false =>
      have hnc : ¬ isChange op = true := fun hc => by have := hm.head hc; simp at this
      obtain ⟨x, i, j, rfl⟩ := keep_of hnc hop
      simp only [List.map_cons, oldOf, newOf] at h3 h4
      obtain ⟨e', rfl, _, h3'⟩ := zipIdx_cons_inv h3
      obtain ⟨f', rfl, _, h4'⟩ := zipIdx_cons_inv h4
      have hrest := ih [] (a + e0.length + 1) (b + f0.length + 1) [] [] e' f' hg' (by simp) rfl rfl h3' h4' hm.tail
        (.inr (.inr ⟨rfl, by
          intro op' b' r e2 hc
          subst e2
          have := hm.2.1 hc
          simp at this⟩)) (by intro l' op op' b' r e1; simp at e1)
      simp only [List.nil_append] at hrest
      have hcopy := Patch.copy (x := x) hrest
      rw [runs]
      by_cases hc : cur.length > 0
      · rw [if_pos hc]
        have hk : HasKeep cur := by
          have hne : cur ≠ [] := by rintro rfl; simp at hc
          obtain ⟨l', o, rfl⟩ : ∃ l' o, cur = l' ++ [o] := ⟨cur.dropLast, cur.getLast hne, (List.dropLast_append_getLast hne).symm⟩
          have ho : ¬ isChange o = true := fun h => by have := h6 l' o _ _ _ rfl rfl h; simp at this
          obtain ⟨x, i, j, rfl⟩ := keep_of ho (by rintro rfl; simp at hgc)
          exact ⟨x, i, j, by simp⟩
        obtain ⟨g1, g2⟩ := sides_ne_of_keep hk
        rw [h1] at g1
        rw [h2] at g2
        have n1 : e0 ≠ [] := by rintro rfl; exact g1 rfl
        have n2 : f0 ≠ [] := by rintro rfl; exact g2 rfl
        obtain ⟨s1, s2⟩ := sides_of h1 h2
        have := Patch.hunk (h := header cur) (ops := cur) (a := a) (b := b) (l := x :: e') (r := x :: f')
          (hs := (runs l []).map fun c => (header c, c)) (by rw [header_spec h1 h2 n1 n2, s1])
          (by rw [header_spec h1 h2 n1 n2, s1]) (by rw [header_spec h1 h2 n1 n2, s2])
          (by rw [header_spec h1 h2 n1 n2, s2]) (by rw [s1, s2]; exact hcopy)
        rw [s1, s2] at this
        exact this
      · rw [if_neg hc]
        have : cur = [] := List.length_eq_zero_iff.1 (by omega)
        subst this
        have he := zipIdx_nil_inv h1
        have hf := zipIdx_nil_inv h2
        subst he hf
        exact hcopy

theorem marked_fst (ch : List Nat) (c : Nat) (l : List (Op α)) (i : Nat) : (marked ch c l i).map Prod.fst = l := by
  induction l generalizing i with
  | nil => rfl
  | cons op l ih => rw [marked, List.map_cons, ih]

theorem patch_refl (l : List α) (a b : Nat) : Patch a b l [] l := by
  induction l generalizing a b with
  | nil => exact .done
  | cons x l ih => exact .copy (ih _ _)

theorem no_changes {ops : List (Op α)} {k : Nat} (h : changes ops k = []) (hg : .gap ∉ ops) {e f : List α} {a b : Nat}
    (h1 : oldOf ops = e.zipIdx a) (h2 : newOf ops = f.zipIdx b) : e = f := by
  induction ops generalizing k e f a b with
  | nil => rw [zipIdx_nil_inv h1, zipIdx_nil_inv h2]
  | cons op ops ih =>
    simp only [List.mem_cons, not_or] at hg
    cases op with
    | gap => exact absurd rfl hg.1
    | del | ins => simp [changes, isChange] at h
    | keep x i j =>
      simp only [changes, isChange, Bool.false_eq_true, if_false] at h
      simp only [oldOf, newOf] at h1 h2
      obtain ⟨e', rfl, _, h1⟩ := zipIdx_cons_inv h1
      obtain ⟨f', rfl, _, h2⟩ := zipIdx_cons_inv h2
      rw [ih h hg.2 h1 h2]

/-- Applying the hunks with at least one line of context to the old text gives the new text. Missing for
the full claim: empty texts (`C40_refuted_empty`) and hunks without context (`C40_refuted_context`). -/
theorem C40_apply_partial {e f : List α} {ops : List (Op α)} (h : Script e f ops) (he : e ≠ []) (hf : f ≠ []) {c : Int} (hc : 1 ≤ c) :
    Patch 0 0 e (hunks ops c) f := by
  unfold hunks filterOps findChunks
  rw [if_neg (by omega)]
  by_cases h0 : (changes ops 0).length = 0
  · rw [if_pos h0]
    have := no_changes (List.length_eq_zero_iff.1 h0) h.ng h.old h.new
    subst this
    exact patch_refl _ _ _
  · rw [if_neg h0, (chunks_runs _ _ ops h.ng 0 []).2.2]
    have := patch_runs (marked (changes ops 0) c.toNat ops 0) [] 0 0 [] [] e f
      (by
        intro p hp
        have : p.1 ∈ (marked (changes ops 0) c.toNat ops 0).map Prod.fst := List.mem_map_of_mem hp
        rw [marked_fst] at this
        rintro hc
        rw [hc] at this
        exact h.ng this)
      (by simp) rfl rfl (by rw [marked_fst]; exact h.old) (by rw [marked_fst]; exact h.new)
      (marks_marked (by omega) ops 0 fun k op hk hop => mem_changes hk hop) (.inr (.inl ⟨he, hf⟩)) (by intro l' op op' b' r e1; simp at e1)
    simpa using this

example : ∃ ops : List (Op Nat), Script [1, 2, 3, 4, 5, 6] [1, 2, 4, 5, 6, 7] ops ∧ hunks ops 1 =
    [(⟨2, 3, 2, 2⟩, [.keep 2 1 1, .del 3 2, .keep 4 3 2]), (⟨6, 1, 5, 2⟩, [.keep 6 5 4, .ins 7 5])] :=
  ⟨[.keep 1 0 0, .keep 2 1 1, .del 3 2, .keep 4 3 2, .keep 5 4 3, .keep 6 5 4, .ins 7 5], ⟨by decide, by decide, by decide⟩, by decide⟩

/-- The scripts of `myers_diff`. -/
theorem C40_diff_partial {e f : List α} (hs : SameOrder e f) (he : e ≠ []) (hf : f ≠ []) {c : Int} (hc : 1 ≤ c) :
    ∃ ops, diff e f = .ok ops ∧ Patch 0 0 e (hunks ops c) f := by
  obtain ⟨ops, h, g⟩ := myers_good (e.length + 1) e f 0 0 (by omega)
  exact ⟨ops, h, C40_apply_partial ⟨g.old, g.new hs, g.ng⟩ he hf hc⟩

/-- A patch of an empty text: the header is `@@ -1,0 +1,1 @@` instead of `@@ -0,0 +1,1 @@`. -/
theorem C40_refuted_empty : ∃ ops : List (Op Nat), diff [] [7] = .ok ops ∧ Script [] [7] ops ∧
    hunks ops 3 = [(⟨1, 0, 1, 1⟩, [.ins 7 0])] ∧ ¬ Patch 0 0 [] (hunks ops 3) [7] := by
  refine ⟨[.ins 7 0], by decide +kernel, ⟨by decide, by decide, by decide⟩, by decide, ?_⟩
  rw [show hunks [Op.ins 7 0] 3 = [(⟨1, 0, 1, 1⟩, [.ins 7 0])] by decide]
  intro h
  generalize hl : ([] : List Nat) = l at h
  cases h with
  | copy => cases hl
  | hunk h => revert h; decide

/-- Without context, the header of an insertion after line 2 is `@@ -1,0 +3,1 @@`. -/
theorem C40_refuted_context : ∃ ops : List (Op Nat), diff [1, 2] [1, 2, 7] = .ok ops ∧ Script [1, 2] [1, 2, 7] ops ∧
    hunks ops 0 = [(⟨1, 0, 3, 1⟩, [.ins 7 2])] ∧ ¬ Patch 0 0 [1, 2] (hunks ops 0) [1, 2, 7] := by
  refine ⟨[.keep 1 0 0, .keep 2 1 1, .ins 7 2], by decide +kernel, ⟨by decide, by decide, by decide⟩, by decide, ?_⟩
  rw [show hunks [Op.keep 1 0 0, .keep 2 1 1, .ins 7 2] 0 = [(⟨1, 0, 3, 1⟩, [.ins 7 2])] by decide]
  have key : ∀ a b (l r : List Nat), Patch a b l [(⟨1, 0, 3, 1⟩, [Op.ins 7 2])] r → a = b → False := by
    intro a b l r h
    generalize hh : [((⟨1, 0, 3, 1⟩ : Header), [Op.ins 7 2])] = hs at h
    induction h with
    | done => cases hh
    | copy _ ih =>
      intro h1
      exact ih hh (by omega)
    | @hunk a b h ops l hs r h1 h2 h3 h4 _ _ =>
      rintro rfl
      simp only [List.cons.injEq, Prod.mk.injEq] at hh
      obtain ⟨⟨rfl, rfl⟩, _⟩ := hh
      have e1 : (oldSide [(Op.ins 7 2 : Op Nat)]).length = 0 := rfl
      have e2 : (newSide [(Op.ins 7 2 : Op Nat)]).length = 1 := rfl
      rw [e1] at h1
      rw [e2] at h3
      unfold startOf at h1 h3
      simp only [if_true] at h1
      rw [if_neg (by omega)] at h3
      simp only at h1 h3
      omega
  exact fun h => key 0 0 _ _ h rfl

end Verif.Diff
