import Verif.Diff.Model
import Mathlib.Data.List.Infix
import Mathlib.Data.List.Sort
/-!
# C34: the edit script is faithful
-/
namespace Verif.Diff
open Verif

set_option linter.unusedSectionVars false

variable {α : Type} [DecidableEq α]

/-! ### Specification -/

/-- The kept and deleted lines with their numbers. -/
def oldOf : List (Op α) → List (α × Nat)
  | [] => []
  | .keep x i _ :: r => (x, i) :: oldOf r
  | .del x i :: r => (x, i) :: oldOf r
  | _ :: r => oldOf r

/-- The kept and inserted lines with their numbers. -/
def newOf : List (Op α) → List (α × Nat)
  | [] => []
  | .keep x _ j :: r => (x, j) :: newOf r
  | .ins x j :: r => (x, j) :: newOf r
  | _ :: r => newOf r

/-- `x` comes before `y`. -/
def Before (x y : α) (l : List α) : Prop := ∃ a b c, l = a ++ x :: b ++ y :: c

/-- `x` occurs exactly once. -/
def Once (x : α) (l : List α) : Prop := l.count x = 1

/-- In each pair of blocks, the lines that occur exactly once in both have the same order. -/
def SameOrder (e f : List α) : Prop :=
  ∀ e' f', e' <:+: e → f' <:+: f → ∀ x y, Once x e' → Once x f' → Once y e' → Once y f' → Before x y e' → Before x y f'

/-! ### Lists of operations -/

@[simp] theorem oldOf_append (a b : List (Op α)) : oldOf (a ++ b) = oldOf a ++ oldOf b := by
  induction a with
  | nil => rfl
  | cons o a ih => cases o <;> simp [oldOf, ih]

@[simp] theorem newOf_append (a b : List (Op α)) : newOf (a ++ b) = newOf a ++ newOf b := by
  induction a with
  | nil => rfl
  | cons o a ih => cases o <;> simp [newOf, ih]

@[simp] theorem oldOf_ins (l : List α) (j : Nat) : oldOf (insFrom j l) = [] := by
  induction l generalizing j with
  | nil => rfl
  | cons x l ih => simp [insFrom, oldOf, ih]

@[simp] theorem newOf_ins (l : List α) (j : Nat) : newOf (insFrom j l) = l.zipIdx j := by
  induction l generalizing j with
  | nil => rfl
  | cons x l ih => simp [insFrom, newOf, ih]

@[simp] theorem oldOf_del (l : List α) (j : Nat) : oldOf (delFrom j l) = l.zipIdx j := by
  induction l generalizing j with
  | nil => rfl
  | cons x l ih => simp [delFrom, oldOf, ih]

@[simp] theorem newOf_del (l : List α) (j : Nat) : newOf (delFrom j l) = [] := by
  induction l generalizing j with
  | nil => rfl
  | cons x l ih => simp [delFrom, newOf, ih]

@[simp] theorem oldOf_keep (l : List α) (i j : Nat) : oldOf (keepFrom i j l) = l.zipIdx i := by
  induction l generalizing i j with
  | nil => rfl
  | cons x l ih => simp [keepFrom, oldOf, ih]

@[simp] theorem newOf_keep (l : List α) (i j : Nat) : newOf (keepFrom i j l) = l.zipIdx j := by
  induction l generalizing i j with
  | nil => rfl
  | cons x l ih => simp [keepFrom, newOf, ih]

@[simp] theorem gap_ins (l : List α) (j : Nat) : .gap ∉ insFrom j l := by
  induction l generalizing j with
  | nil => simp [insFrom]
  | cons x l ih => simp [insFrom, ih]

@[simp] theorem gap_del (l : List α) (j : Nat) : .gap ∉ delFrom j l := by
  induction l generalizing j with
  | nil => simp [delFrom]
  | cons x l ih => simp [delFrom, ih]

@[simp] theorem gap_keep (l : List α) (i j : Nat) : .gap ∉ keepFrom i j l := by
  induction l generalizing i j with
  | nil => simp [keepFrom]
  | cons x l ih => simp [keepFrom, ih]

/-! ### Loops -/

theorem take_succ' {l : List α} {a m : Nat} (h : a + m < l.length) : (l.drop a).take (m + 1) = (l.drop a).take m ++ [l[a + m]] := by
  rw [List.take_succ, List.getElem?_drop, List.getElem?_eq_getElem h]
  rfl

theorem matchLoop_spec (e f : List α) (a b : Nat) (n m : Nat) (h1 : m = 0 ∨ a + m ≤ e.length ∧ b + m ≤ f.length)
    (h2 : (e.drop a).take m = (f.drop b).take m) :
    (matchLoop e f a b n m = 0 ∨ a + matchLoop e f a b n m ≤ e.length ∧ b + matchLoop e f a b n m ≤ f.length) ∧
    (e.drop a).take (matchLoop e f a b n m) = (f.drop b).take (matchLoop e f a b n m) := by
  induction n generalizing m with
  | zero => exact ⟨h1, h2⟩
  | succ n ih =>
    rw [matchLoop]
    by_cases h : a + m < e.length ∧ b + m < f.length ∧ e[a + m]? = f[b + m]?
    · rw [if_pos h]
      refine ih (m + 1) (by omega) ?_
      obtain ⟨h3, h4, h5⟩ := h
      rw [take_succ' h3, take_succ' h4, h2]
      rw [List.getElem?_eq_getElem h3, List.getElem?_eq_getElem h4] at h5
      simp only [Option.some.injEq] at h5
      rw [h5]
    · rw [if_neg h]; exact ⟨h1, h2⟩

/-- The common segment found. -/
theorem match_spec (e f : List α) (a b n : Nat) (m : Nat) (hm : m = matchLoop e f a b n 0) :
    (m = 0 ∨ a + m ≤ e.length ∧ b + m ≤ f.length) ∧ (e.drop a).take m = (f.drop b).take m := by
  subst hm
  exact matchLoop_spec e f a b n 0 (by simp) (by simp)

theorem suffixLoop_spec (e f : List α) (p n s : Nat) (h1 : s ≤ e.length - p ∧ s ≤ f.length - p)
    (h2 : e.drop (e.length - s) = f.drop (f.length - s)) :
    (suffixLoop e f p n s ≤ e.length - p ∧ suffixLoop e f p n s ≤ f.length - p) ∧
    e.drop (e.length - suffixLoop e f p n s) = f.drop (f.length - suffixLoop e f p n s) := by
  induction n generalizing s with
  | zero => exact ⟨h1, h2⟩
  | succ n ih =>
    rw [suffixLoop]
    by_cases h : s < e.length - p ∧ s < f.length - p ∧ e[e.length - 1 - s]? = f[f.length - 1 - s]?
    · rw [if_pos h]
      refine ih (s + 1) (by omega) ?_
      obtain ⟨h3, h4, h5⟩ := h
      have he : e.length - 1 - s < e.length := by omega
      have hf : f.length - 1 - s < f.length := by omega
      rw [List.getElem?_eq_getElem he, List.getElem?_eq_getElem hf] at h5
      simp only [Option.some.injEq] at h5
      rw [show e.length - (s + 1) = e.length - 1 - s by omega, show f.length - (s + 1) = f.length - 1 - s by omega,
        List.drop_eq_getElem_cons he, List.drop_eq_getElem_cons hf, h5,
        show e.length - 1 - s + 1 = e.length - s by omega, show f.length - 1 - s + 1 = f.length - s by omega, h2]
    · rw [if_neg h]; exact ⟨h1, h2⟩

/-- The best match is a match. -/
theorem bestLoop_spec (e f : List α) (mid : Nat) (l : List Nat) (hl : ∀ p ∈ l, p < f.length) (b : Int × Int)
    (hb : b.2 > 0 → ∃ p m : Nat, b = (↑p, ↑m) ∧ p < f.length ∧ m = matchLoop e f mid p e.length 0)
    (h : (bestLoop e f mid l b).2 > 0) :
    ∃ p m : Nat, bestLoop e f mid l b = (↑p, ↑m) ∧ p < f.length ∧ m = matchLoop e f mid p e.length 0 := by
  induction l generalizing b with
  | nil => exact hb h
  | cons p l ih =>
    rw [bestLoop] at h ⊢
    refine ih (fun q hq => hl q (List.mem_cons_of_mem _ hq)) _ ?_ h
    intro h'
    by_cases h2 : ((matchLoop e f mid p e.length 0 : Nat) : Int) > b.2
    · simp only [if_pos h2]
      exact ⟨p, _, rfl, hl p (by simp), rfl⟩
    · simp only [if_neg h2] at h' ⊢
      exact hb h'

/-! ### Unique lines -/

/-- The positions of `x`. -/
def positions (x : α) : List α → Nat → List Nat
  | [], _ => []
  | y :: l, k => if y = x then k :: positions x l (k + 1) else positions x l (k + 1)

theorem lookup_addLine (d : List (α × List Nat)) (line x : α) (idx : Nat) :
    lookup (addLine d line idx) x = if x = line then some ((lookup d x).getD [] ++ [idx]) else lookup d x := by
  induction d with
  | nil =>
    simp only [addLine, lookup]
    by_cases h : x = line
    · subst h; simp
    · rw [if_neg h, if_neg (Ne.symm h)]
  | cons p d ih =>
    obtain ⟨y, l⟩ := p
    simp only [addLine]
    by_cases hy : y = line
    · subst hy
      rw [if_pos rfl]
      simp only [lookup]
      by_cases h : x = y
      · subst h; simp
      · rw [if_neg h, if_neg (Ne.symm h), if_neg (Ne.symm h)]
    · rw [if_neg hy]
      simp only [lookup]
      by_cases h : y = x
      · subst h; rw [if_pos rfl, if_neg hy, if_pos rfl]
      · rw [if_neg h, if_neg h, ih]

theorem lookup_lineDict (l : List α) (k : Nat) (d : List (α × List Nat)) (x : α) :
    (lookup (lineDict l k d) x).getD [] = (lookup d x).getD [] ++ positions x l k := by
  induction l generalizing k d with
  | nil => simp [lineDict, positions]
  | cons y l ih =>
    rw [lineDict, ih, lookup_addLine, positions]
    by_cases h : y = x
    · subst h; simp
    · rw [if_neg (Ne.symm h), if_neg h]

theorem keys_addLine (d : List (α × List Nat)) (line : α) (idx : Nat) :
    (addLine d line idx).map Prod.fst = if line ∈ d.map Prod.fst then d.map Prod.fst else d.map Prod.fst ++ [line] := by
  induction d with
  | nil => simp [addLine]
  | cons p d ih =>
    obtain ⟨y, l⟩ := p
    simp only [addLine]
    by_cases hy : y = line
    · subst hy; simp
    · rw [if_neg hy, List.map_cons, ih]
      simp only [List.map_cons, List.mem_cons, Ne.symm hy, false_or]
      split <;> simp

theorem nodup_lineDict (l : List α) (k : Nat) (d : List (α × List Nat)) (h : (d.map Prod.fst).Nodup) :
    ((lineDict l k d).map Prod.fst).Nodup := by
  induction l generalizing k d with
  | nil => exact h
  | cons y l ih =>
    rw [lineDict]
    refine ih _ _ ?_
    rw [keys_addLine]
    split
    · exact h
    · next hn =>
      rw [List.nodup_append]
      exact ⟨h, by simp, by intro a ha b hb; simp only [List.mem_singleton] at hb; rintro rfl; subst hb; exact hn ha⟩

theorem lookup_mem {d : List (α × List Nat)} (h : (d.map Prod.fst).Nodup) {x : α} {l : List Nat} (hm : (x, l) ∈ d) :
    lookup d x = some l := by
  induction d with
  | nil => simp at hm
  | cons p d ih =>
    obtain ⟨y, l'⟩ := p
    simp only [List.map_cons, List.nodup_cons] at h
    simp only [List.mem_cons, Prod.mk.injEq] at hm
    simp only [lookup]
    rcases hm with ⟨rfl, rfl⟩ | hm
    · rw [if_pos rfl]
    · rw [if_neg (fun hc => h.1 (by subst hc; exact List.mem_map_of_mem hm)), ih h.2 hm]

theorem positions_of_item {e : List α} {x : α} {l : List Nat} (h : (x, l) ∈ lineDict e 0 []) : l = positions x e 0 := by
  have h1 := lookup_mem (nodup_lineDict e 0 [] (by simp)) h
  have h2 := lookup_lineDict e 0 [] x
  rw [h1] at h2
  simpa [lookup] using h2

theorem positions_of_lookup {e : List α} {x : α} {l : List Nat} (h : lookup (lineDict e 0 []) x = some l) : l = positions x e 0 := by
  have h2 := lookup_lineDict e 0 [] x
  rw [h] at h2
  simpa [lookup] using h2

theorem positions_length (x : α) (l : List α) (k : Nat) : (positions x l k).length = l.count x := by
  induction l generalizing k with
  | nil => rfl
  | cons y l ih =>
    rw [positions, List.count_cons]
    by_cases h : y = x
    · subst h; simp [ih]
    · rw [if_neg h, ih]; simp [h]

theorem positions_mem {x : α} {l : List α} {k p : Nat} (h : p ∈ positions x l k) : k ≤ p ∧ l[p - k]? = some x := by
  induction l generalizing k with
  | nil => simp [positions] at h
  | cons y l ih =>
    rw [positions] at h
    by_cases hy : y = x
    · rw [if_pos hy, List.mem_cons] at h
      rcases h with rfl | h
      · simp [hy]
      · obtain ⟨h1, h2⟩ := ih h
        refine ⟨by omega, ?_⟩
        rw [show p - k = (p - (k + 1)) + 1 by omega, List.getElem?_cons_succ, h2]
    · rw [if_neg hy] at h
      obtain ⟨h1, h2⟩ := ih h
      refine ⟨by omega, ?_⟩
      rw [show p - k = (p - (k + 1)) + 1 by omega, List.getElem?_cons_succ, h2]

/-- A line that occurs once in `e`, at `p`, and once in `f`, at `q`. -/
def Anchor (e f : List α) (p q : Nat) : Prop := ∃ x, e[p]? = some x ∧ f[q]? = some x ∧ Once x e ∧ Once x f

theorem mem_anchors {df d : List (α × List Nat)} {p q : Nat} (h : (p, q) ∈ anchors df d) :
    ∃ x, (x, [p]) ∈ d ∧ lookup df x = some [q] := by
  fun_induction anchors df d with
  | case1 => simp at h
  | case2 line e r f hl ih =>
    simp only [List.mem_cons, Prod.mk.injEq] at h
    rcases h with ⟨rfl, rfl⟩ | h
    · exact ⟨line, by simp, hl⟩
    · obtain ⟨x, h1, h2⟩ := ih h
      exact ⟨x, List.mem_cons_of_mem _ h1, h2⟩
  | case3 line e r _ ih =>
    obtain ⟨x, h1, h2⟩ := ih h
    exact ⟨x, List.mem_cons_of_mem _ h1, h2⟩
  | case4 p' r _ ih =>
    obtain ⟨x, h1, h2⟩ := ih h
    exact ⟨x, List.mem_cons_of_mem _ h1, h2⟩

theorem anchor_of_mem {e f : List α} {p q : Nat} (h : (p, q) ∈ anchors (lineDict f 0 []) (lineDict e 0 [])) : Anchor e f p q := by
  obtain ⟨x, h1, h2⟩ := mem_anchors h
  have h3 := positions_of_item h1
  have h4 := positions_of_lookup h2
  have h5 := (positions_mem (x := x) (l := e) (k := 0) (p := p) (by rw [← h3]; simp)).2
  have h6 := (positions_mem (x := x) (l := f) (k := 0) (p := q) (by rw [← h4]; simp)).2
  refine ⟨x, by simpa using h5, by simpa using h6, ?_, ?_⟩
  · unfold Once; rw [← positions_length x e 0, ← h3]; rfl
  · unfold Once; rw [← positions_length x f 0, ← h4]; rfl

theorem anchors_nodup {df d : List (α × List Nat)} (hd : (d.map Prod.fst).Nodup)
    (hp : ∀ x y p, (x, [p]) ∈ d → (y, [p]) ∈ d → x = y) : ((anchors df d).map Prod.fst).Nodup := by
  fun_induction anchors df d with
  | case1 => simp
  | case2 line e r f hl ih =>
    simp only [List.map_cons, List.nodup_cons] at hd ⊢
    refine ⟨?_, ih hd.2 fun x y p h1 h2 => hp x y p (List.mem_cons_of_mem _ h1) (List.mem_cons_of_mem _ h2)⟩
    intro hm
    obtain ⟨⟨p', q⟩, h1, h2⟩ := List.mem_map.1 hm
    simp only at h2
    subst h2
    obtain ⟨x, h3, -⟩ := mem_anchors h1
    have := hp x line p' (List.mem_cons_of_mem _ h3) (by simp)
    subst this
    exact hd.1 (List.mem_map_of_mem h3)
  | case3 line e r _ ih =>
    simp only [List.map_cons, List.nodup_cons] at hd
    exact ih hd.2 fun x y p h1 h2 => hp x y p (List.mem_cons_of_mem _ h1) (List.mem_cons_of_mem _ h2)
  | case4 p' r _ ih =>
    simp only [List.map_cons, List.nodup_cons] at hd
    exact ih hd.2 fun x y p h1 h2 => hp x y p (List.mem_cons_of_mem _ h1) (List.mem_cons_of_mem _ h2)

theorem insertPair_perm (p : Nat × Nat) (l : List (Nat × Nat)) : (insertPair p l).Perm (p :: l) := by
  induction l with
  | nil => exact List.Perm.refl _
  | cons q l ih =>
    rw [insertPair]
    split
    · exact List.Perm.refl _
    · exact (List.Perm.cons q ih).trans (List.Perm.swap p q l)

theorem sortPairs_perm (l : List (Nat × Nat)) : (sortPairs l).Perm l := by
  induction l with
  | nil => exact List.Perm.refl _
  | cons p l ih => exact (insertPair_perm p _).trans (List.Perm.cons p ih)

theorem insertPair_sorted {p : Nat × Nat} {l : List (Nat × Nat)} (h : l.Pairwise fun a b => a.1 ≤ b.1) :
    (insertPair p l).Pairwise fun a b => a.1 ≤ b.1 := by
  induction l with
  | nil => simp [insertPair]
  | cons q l ih =>
    rw [insertPair]
    have h' := List.pairwise_cons.1 h
    split
    · next hle =>
      unfold pairLe at hle
      simp only [Bool.or_eq_true, Bool.and_eq_true, decide_eq_true_eq] at hle
      refine List.pairwise_cons.2 ⟨?_, h⟩
      intro a ha
      rcases List.mem_cons.1 ha with rfl | ha
      · omega
      · have := h'.1 a ha; omega
    · next hle =>
      unfold pairLe at hle
      simp only [Bool.or_eq_true, Bool.and_eq_true, decide_eq_true_eq, not_or, not_and] at hle
      refine List.pairwise_cons.2 ⟨?_, ih h'.2⟩
      intro a ha
      rcases List.mem_cons.1 ((insertPair_perm p l).mem_iff.1 ha) with rfl | ha
      · omega
      · exact h'.1 a ha

theorem sortPairs_sorted (l : List (Nat × Nat)) : (sortPairs l).Pairwise fun a b => a.1 ≤ b.1 := by
  induction l with
  | nil => simp [sortPairs]
  | cons p l ih => exact insertPair_sorted ih

/-- The anchors are unique lines, in the order of `e`. -/
theorem sortedAnchors_spec (e f : List α) : (sortedAnchors e f).Pairwise (fun a b => a.1 < b.1) ∧
    ∀ p q, (p, q) ∈ sortedAnchors e f → Anchor e f p q := by
  have hperm := sortPairs_perm (anchors (lineDict f 0 []) (lineDict e 0 []))
  constructor
  · have h1 := sortPairs_sorted (anchors (lineDict f 0 []) (lineDict e 0 []))
    have h2 : ((sortedAnchors e f).map Prod.fst).Nodup := by
      unfold sortedAnchors
      rw [(hperm.map Prod.fst).nodup_iff]
      refine anchors_nodup (nodup_lineDict e 0 [] (by simp)) ?_
      intro x y p hx hy
      have h3 := (positions_mem (x := x) (l := e) (k := 0) (p := p) (by rw [← positions_of_item hx]; simp)).2
      have h4 := (positions_mem (x := y) (l := e) (k := 0) (p := p) (by rw [← positions_of_item hy]; simp)).2
      rw [h3] at h4
      exact Option.some.inj h4
    have h3 : (sortedAnchors e f).Pairwise fun a b => a.1 ≠ b.1 := List.pairwise_map.1 h2
    exact (List.Pairwise.and h1 h3).imp fun h => by omega
  · intro p q h
    exact anchor_of_mem (hperm.mem_iff.1 h)

/-! ### The script -/

/-- What is true of the script for all inputs, and for those in the same order. -/
structure Good (e f : List α) (i j : Nat) (ops : List (Op α)) : Prop where
  old : oldOf ops = e.zipIdx i
  sound : ∀ p ∈ newOf ops, p ∈ f.zipIdx j
  new : SameOrder e f → newOf ops = f.zipIdx j
  ng : .gap ∉ ops

theorem SameOrder.infix {e f e' f' : List α} (h : SameOrder e f) (he : e' <:+: e) (hf : f' <:+: f) : SameOrder e' f' :=
  fun a b ha hb => h a b (ha.trans he) (hb.trans hf)

theorem slice_infix (e : List α) (a b : Nat) : slice e a b <:+: e :=
  (List.drop_suffix _ _).isInfix.trans (List.take_prefix _ _).isInfix

theorem drop_infix (e : List α) (a : Nat) : e.drop a <:+: e := (List.drop_suffix _ _).isInfix

theorem take_infix (e : List α) (a : Nat) : e.take a <:+: e := (List.take_prefix _ _).isInfix

/-- `l[a:b]` numbered, and what follows. -/
theorem zipIdx_drop_split (l : List α) (k a b : Nat) (h : a ≤ b) (hb : b ≤ l.length) :
    (l.drop a).zipIdx (k + a) = (slice l a b).zipIdx (k + a) ++ (l.drop b).zipIdx (k + b) := by
  have h1 : l.drop a = slice l a b ++ l.drop b := by
    unfold slice
    conv => lhs; rw [← List.take_append_drop b l]
    rw [List.drop_append_of_le_length (by rw [List.length_take]; omega)]
  conv => lhs; rw [h1]
  rw [List.zipIdx_append]
  congr 2
  unfold slice
  rw [List.length_drop, List.length_take]
  omega

theorem zipIdx_drop_cons (l : List α) (k a : Nat) {x : α} (h : l[a]? = some x) :
    (l.drop a).zipIdx (k + a) = (x, k + a) :: (l.drop (a + 1)).zipIdx (k + (a + 1)) := by
  obtain ⟨ha, hx⟩ := List.getElem?_eq_some_iff.1 h
  rw [List.drop_eq_getElem_cons ha, hx, List.zipIdx_cons]
  rfl

theorem mem_drop_zipIdx {l : List α} {k a : Nat} {p : α × Nat} (h : p ∈ (l.drop a).zipIdx (k + a)) : p ∈ l.zipIdx k := by
  by_cases ha : a ≤ l.length
  · have := zipIdx_drop_split l k 0 a (by omega) ha
    simp only [List.drop_zero, Nat.add_zero] at this
    rw [this]
    exact List.mem_append_right _ h
  · rw [List.drop_eq_nil_of_le (by omega)] at h
    simp at h

theorem mem_slice_zipIdx {l : List α} {k a b : Nat} {p : α × Nat} (h : p ∈ (slice l a b).zipIdx (k + a)) : p ∈ l.zipIdx k := by
  by_cases hb : b ≤ l.length
  · by_cases hab : a ≤ b
    · apply mem_drop_zipIdx (a := a)
      rw [zipIdx_drop_split l k a b hab hb]
      exact List.mem_append_left _ h
    · unfold slice at h
      rw [List.drop_eq_nil_of_le (by rw [List.length_take]; omega)] at h
      simp at h
  · unfold slice at h
    rw [List.take_of_length_le (by omega)] at h
    exact mem_drop_zipIdx h

/-- The loop over the anchors. -/
theorem anchorLoop_spec {call : List α → List α → Nat → Nat → Res (List (Op α))} {e f : List α} {i j : Nat}
    (hcall : ∀ e' f' i' j', e' <:+: e → f' <:+: f → e'.length < e.length → ∃ ops, call e' f' i' j' = .ok ops ∧ Good e' f' i' j' ops)
    (he : 0 < e.length) (l : List (Nat × Nat)) (hl : l.Pairwise fun a b => a.1 < b.1) (hm : ∀ p q, (p, q) ∈ l → Anchor e f p q) :
    ∀ le lf, (∀ p q, (p, q) ∈ l → le ≤ p) → le ≤ e.length → (l = [] → 0 < le) →
    ∃ ops, anchorLoop call e f i j l le lf = .ok ops ∧ oldOf ops = (e.drop le).zipIdx (i + le) ∧
      (∀ p ∈ newOf ops, p ∈ f.zipIdx j) ∧ .gap ∉ ops ∧
      (SameOrder e f → (∀ p q, (p, q) ∈ l → lf ≤ q) → l.Pairwise (fun a b => a.2 < b.2) → newOf ops = (f.drop lf).zipIdx (j + lf)) := by
  induction l with
  | nil =>
    intro le lf _ hle hpos
    have hpos := hpos rfl
    rw [anchorLoop]
    by_cases h : le < e.length ∨ lf < f.length
    · rw [if_pos h]
      obtain ⟨ops, h1, h2⟩ := hcall (e.drop le) (f.drop lf) (i + le) (j + lf) (drop_infix _ _) (drop_infix _ _)
        (by rw [List.length_drop]; omega)
      exact ⟨ops, h1, h2.old, fun p hp => mem_drop_zipIdx (h2.sound p hp), h2.ng,
        fun hs _ _ => h2.new (hs.infix (drop_infix _ _) (drop_infix _ _))⟩
    · rw [if_neg h]
      rw [List.drop_eq_nil_of_le (by omega), List.drop_eq_nil_of_le (by omega)]
      exact ⟨[], rfl, rfl, by simp [newOf], by simp, fun _ _ _ => rfl⟩
  | cons a l ih =>
    obtain ⟨ei, fi⟩ := a
    intro le lf hge hle _
    obtain ⟨x, hx1, hx2, hx3, hx4⟩ := hm ei fi (by simp)
    have hei := (List.getElem?_eq_some_iff.1 hx1).1
    have hfi := (List.getElem?_eq_some_iff.1 hx2).1
    have hlei := hge ei fi (by simp)
    obtain ⟨hl1, hl2⟩ := List.pairwise_cons.1 hl
    obtain ⟨after, ha1, ha2, ha3, ha5, ha4⟩ := ih hl2 (fun p q h => hm p q (List.mem_cons_of_mem _ h)) (ei + 1) (fi + 1)
      (fun p q h => hl1 _ h) (by omega) (by intro; omega)
    have hbefore : ∃ before, beforeOps call e f i j le lf ei fi = .ok before ∧
        oldOf before = (slice e le ei).zipIdx (i + le) ∧ (∀ p ∈ newOf before, p ∈ f.zipIdx j) ∧ .gap ∉ before ∧
        (SameOrder e f → newOf before = (slice f lf fi).zipIdx (j + lf)) := by
      unfold beforeOps
      by_cases h : ei > le ∨ fi > lf
      · rw [if_pos h]
        obtain ⟨ops, h1, h2⟩ := hcall (slice e le ei) (slice f lf fi) (i + le) (j + lf) (slice_infix _ _ _) (slice_infix _ _ _)
          (by unfold slice; rw [List.length_drop, List.length_take]; omega)
        exact ⟨ops, h1, h2.old, fun p hp => mem_slice_zipIdx (h2.sound p hp), h2.ng,
          fun hs => h2.new (hs.infix (slice_infix _ _ _) (slice_infix _ _ _))⟩
      · rw [if_neg h]
        have h1 : slice e le ei = [] := by
          unfold slice; rw [List.drop_eq_nil_of_le (by rw [List.length_take]; omega)]
        have h2 : slice f lf fi = [] := by
          unfold slice; rw [List.drop_eq_nil_of_le (by rw [List.length_take]; omega)]
        rw [h1, h2]
        exact ⟨[], rfl, rfl, by simp [newOf], by simp, fun _ => rfl⟩
    obtain ⟨before, hb1, hb2, hb3, hb5, hb4⟩ := hbefore
    have hanc : anchorOp e i j ei fi = .ok [.keep x (i + ei) (j + fi)] := by unfold anchorOp; rw [hx1]
    rw [anchorLoop, hb1, Res.ok_bind, hanc, Res.ok_bind, ha1, Res.ok_bind]
    refine ⟨_, rfl, ?_, ?_, by simp [ha5, hb5], ?_⟩
    · simp only [oldOf_append, hb2, oldOf, ha2]
      rw [zipIdx_drop_split e i le ei hlei (by omega), zipIdx_drop_cons e i ei hx1]
      simp
    · intro p hp
      simp only [newOf_append, newOf, List.mem_append, List.mem_singleton, List.append_assoc, List.mem_cons, List.not_mem_nil, or_false] at hp
      rcases hp with hp | hp | hp
      · exact hb3 p hp
      · apply mem_drop_zipIdx (a := fi)
        rw [zipIdx_drop_cons f j fi hx2, hp]
        simp
      · exact ha3 p hp
    · intro hs hq hpw
      obtain ⟨hpw1, hpw2⟩ := List.pairwise_cons.1 hpw
      simp only [newOf_append, newOf, hb4 hs, ha4 hs (fun p q h => hpw1 _ h) hpw2]
      rw [zipIdx_drop_split f j lf fi (hq ei fi (by simp)) (by omega), zipIdx_drop_cons f j fi hx2]
      simp

theorem before_of_lt {l : List α} {p q : Nat} {x y : α} (h : p < q) (hx : l[p]? = some x) (hy : l[q]? = some y) : Before x y l := by
  obtain ⟨hp, rfl⟩ := List.getElem?_eq_some_iff.1 hx
  obtain ⟨hq, rfl⟩ := List.getElem?_eq_some_iff.1 hy
  refine ⟨l.take p, slice l (p + 1) q, l.drop (q + 1), ?_⟩
  have h1 : l.drop (p + 1) = slice l (p + 1) q ++ l.drop q := by
    unfold slice
    conv => lhs; rw [← List.take_append_drop q l]
    rw [List.drop_append_of_le_length (by rw [List.length_take]; omega)]
  conv => lhs; rw [← List.take_append_drop p l, List.drop_eq_getElem_cons hp, h1, List.drop_eq_getElem_cons hq]
  simp

theorem once_pos {l : List α} {p q : Nat} {x : α} (h : Once x l) (hp : l[p]? = some x) (hq : l[q]? = some x) : p = q := by
  rcases Nat.lt_trichotomy p q with h' | h' | h'
  · obtain ⟨a, b, c, rfl⟩ := before_of_lt h' hp hq
    unfold Once at h
    simp [List.count_append] at h
    omega
  · exact h'
  · obtain ⟨a, b, c, rfl⟩ := before_of_lt h' hq hp
    unfold Once at h
    simp [List.count_append] at h
    omega

theorem lt_of_before {l : List α} {p q : Nat} {x y : α} (hx : Once x l) (hy : Once y l) (hp : l[p]? = some x) (hq : l[q]? = some y)
    (h : Before x y l) : p < q := by
  obtain ⟨a, b, c, rfl⟩ := h
  have h1 : p = a.length := once_pos hx hp (by simp)
  have h2 : q = a.length + b.length + 1 := once_pos hy hq (by
    rw [List.getElem?_append_right (by simp; omega)]
    simp
    rw [show a.length + b.length + 1 - (a.length + (b.length + 1)) = 0 by omega]
    rfl)
  omega

/-- Anchors in the same order. -/
theorem anchors_order {e f : List α} (hs : SameOrder e f) {l : List (Nat × Nat)} (hl : l.Pairwise fun a b => a.1 < b.1)
    (hm : ∀ p q, (p, q) ∈ l → Anchor e f p q) : l.Pairwise fun a b => a.2 < b.2 := by
  induction l with
  | nil => simp
  | cons a l ih =>
    obtain ⟨h1, h2⟩ := List.pairwise_cons.1 hl
    refine List.pairwise_cons.2 ⟨?_, ih h2 fun p q h => hm p q (List.mem_cons_of_mem _ h)⟩
    intro b hb
    obtain ⟨x, hx1, hx2, hx3, hx4⟩ := hm a.1 a.2 (by simp)
    obtain ⟨y, hy1, hy2, hy3, hy4⟩ := hm b.1 b.2 (List.mem_cons_of_mem _ hb)
    exact lt_of_before hx4 hy4 hx2 hy2 (hs e f (List.infix_refl _) (List.infix_refl _) x y hx3 hx4 hy3 hy4 (before_of_lt (h1 b hb) hx1 hy1))

theorem good_replace (e f : List α) (i j : Nat) : Good e f i j (delFrom i e ++ insFrom j f) :=
  ⟨by simp, by simp, fun _ => by simp, by simp⟩

/-- Three parts, the middle one kept. -/
theorem split3 (l : List α) (k a b : Nat) (h : a ≤ b) (hb : b ≤ l.length) :
    l.zipIdx k = (l.take a).zipIdx k ++ (slice l a b).zipIdx (k + a) ++ (l.drop b).zipIdx (k + b) := by
  have h1 := zipIdx_drop_split l k a b h hb
  have h2 := zipIdx_drop_split l k 0 a (by omega) (by omega)
  simp only [List.drop_zero, Nat.add_zero] at h2
  rw [h2, h1, List.append_assoc]
  rfl

theorem myers_good : ∀ n (e f : List α) (i j : Nat), e.length < n → ∃ ops, myers n e f i j = .ok ops ∧ Good e f i j ops := by
  intro n
  induction n with
  | zero => intro e f i j h; omega
  | succ n ih =>
    intro e f i j hn
    rw [myers]
    by_cases h1 : e.length = 0
    · rw [if_pos h1]
      have := List.length_eq_zero_iff.1 h1
      subst this
      exact ⟨_, rfl, by simp, by simp, fun _ => by simp, by simp⟩
    rw [if_neg h1]
    by_cases h2 : f.length = 0
    · rw [if_pos h2]
      have := List.length_eq_zero_iff.1 h2
      subst this
      exact ⟨_, rfl, by simp, by simp, fun _ => by simp, by simp⟩
    rw [if_neg h2]
    simp only
    generalize hp : matchLoop e f 0 0 e.length 0 = p
    generalize hs : suffixLoop e f p e.length 0 = s
    obtain ⟨hp1, hp2⟩ := match_spec e f 0 0 e.length p hp.symm
    have hs' := suffixLoop_spec e f p e.length 0 (by omega) (by simp)
    rw [hs] at hs'
    obtain ⟨hs1, hs2⟩ := hs'
    simp only [List.drop_zero] at hp2
    have hpe : p ≤ e.length := by omega
    have hpf : p ≤ f.length := by omega
    by_cases h3 : p > 0 ∨ s > 0
    · rw [if_pos h3]
      obtain ⟨ops, e1, g⟩ := ih (slice e p (e.length - s)) (slice f p (f.length - s)) (i + p) (j + p)
        (by unfold slice; rw [List.length_drop, List.length_take]; omega)
      rw [e1, Res.ok_bind]
      refine ⟨_, rfl, ?_, ?_, ?_, by simp [g.ng]⟩
      · simp only [oldOf_append, oldOf_keep, g.old]
        rw [split3 e i p (e.length - s) (by omega) (by omega)]
      · have := split3 f j p (f.length - s) (by omega) (by omega)
        intro x hx
        simp only [newOf_append, newOf_keep, List.mem_append] at hx
        rw [this, List.mem_append, List.mem_append]
        rcases hx with (hx | hx) | hx
        · left; left; rwa [hp2] at hx
        · left; right; exact g.sound x hx
        · right; rwa [hs2] at hx
      · intro hso
        simp only [newOf_append, newOf_keep, g.new (hso.infix (slice_infix _ _ _) (slice_infix _ _ _))]
        rw [split3 f j p (f.length - s) (by omega) (by omega), hp2, hs2]
    rw [if_neg h3]
    by_cases h4 : e.length = 1 ∧ f.length > 1
    · rw [if_pos h4]; exact ⟨_, rfl, good_replace e f i j⟩
    rw [if_neg h4]
    by_cases h5 : f.length = 1 ∧ e.length > 1
    · rw [if_pos h5]; exact ⟨_, rfl, good_replace e f i j⟩
    rw [if_neg h5]
    by_cases h6 : e.length = 1 ∧ f.length = 1
    · rw [if_pos h6]
      by_cases h7 : e[0]? = f[0]?
      · rw [if_pos h7]
        have : e = f := by
          obtain ⟨x, rfl⟩ := List.length_eq_one_iff.1 h6.1
          obtain ⟨y, rfl⟩ := List.length_eq_one_iff.1 h6.2
          simp at h7; rw [h7]
        subst this
        exact ⟨_, rfl, by simp, by simp, fun _ => by simp, by simp⟩
      · rw [if_neg h7]; exact ⟨_, rfl, good_replace e f i j⟩
    rw [if_neg h6]
    generalize hb : bestLoop e f (e.length / 2) (List.range f.length) (-1, -1) = best
    by_cases h7 : best.2 > 0
    · rw [if_pos h7]
      obtain ⟨pos, m, hb1, hb2, hb3⟩ := bestLoop_spec e f (e.length / 2) (List.range f.length) (by simp) (-1, -1)
        (by intro h; simp at h) (by rw [hb]; exact h7)
      rw [hb] at hb1
      subst hb1
      simp only [Int.toNat_natCast] at h7 ⊢
      obtain ⟨hm1, hm2⟩ := match_spec e f (e.length / 2) pos e.length m hb3
      have hm0 : 0 < m := by omega
      have hmid : e.length / 2 + m ≤ e.length ∧ pos + m ≤ f.length := by omega
      obtain ⟨o1, e1, g1⟩ := ih (e.take (e.length / 2)) (f.take pos) i j (by rw [List.length_take]; omega)
      obtain ⟨o2, e2, g2⟩ := ih (e.drop (e.length / 2 + m)) (f.drop (pos + m)) (i + e.length / 2 + m) (j + pos + m)
        (by rw [List.length_drop]; omega)
      rw [e1, Res.ok_bind, e2, Res.ok_bind]
      have sl : ∀ (l : List α) a, slice l a (a + m) = (l.drop a).take m := by
        intro l a; unfold slice; rw [List.drop_take]; congr 1; omega
      have se := split3 e i (e.length / 2) (e.length / 2 + m) (by omega) (by omega)
      have sf := split3 f j pos (pos + m) (by omega) (by omega)
      rw [sl, ← Nat.add_assoc] at se sf
      refine ⟨_, rfl, ?_, ?_, ?_, by simp [g1.ng, g2.ng]⟩
      · simp only [oldOf_append, oldOf_keep, g1.old, g2.old]
        exact se.symm
      · intro x hx
        simp only [newOf_append, newOf_keep, List.mem_append] at hx
        rw [sf, List.mem_append, List.mem_append]
        rcases hx with (hx | hx) | hx
        · left; left; exact g1.sound x hx
        · left; right; rwa [hm2] at hx
        · right; exact g2.sound x hx
      · intro hso
        simp only [newOf_append, newOf_keep, g1.new (hso.infix (take_infix _ _) (take_infix _ _)),
          g2.new (hso.infix (drop_infix _ _) (drop_infix _ _)), hm2]
        exact sf.symm
    rw [if_neg h7]
    by_cases h8 : (sortedAnchors e f).length > 0
    · rw [if_pos h8]
      obtain ⟨ha1, ha2⟩ := sortedAnchors_spec e f
      obtain ⟨ops, e1, g1, g2, g4, g3⟩ := anchorLoop_spec (call := myers n) (e := e) (f := f) (i := i) (j := j)
        (fun e' f' i' j' _ _ hl => ih e' f' i' j' (by omega)) (by omega) (sortedAnchors e f) ha1 ha2 0 0
        (fun _ _ _ => Nat.zero_le _) (Nat.zero_le _) (by intro h; rw [h] at h8; simp at h8)
      refine ⟨ops, e1, by simpa using g1, g2, fun hso => ?_, g4⟩
      have := g3 hso (fun _ _ _ => Nat.zero_le _) (anchors_order hso ha1 ha2)
      simpa using this
    · rw [if_neg h8]; exact ⟨_, rfl, good_replace e f i j⟩

/-! ### The claims -/

/-- The recursion ends. The kept and deleted lines are exactly the old lines, with their numbers; each
kept or inserted line is the line of the new text with this number. -/
theorem C34_old (e f : List α) : ∃ ops, diff e f = .ok ops ∧ oldOf ops = e.zipIdx ∧ ∀ p ∈ newOf ops, p ∈ f.zipIdx := by
  obtain ⟨ops, h, g⟩ := myers_good (e.length + 1) e f 0 0 (by omega)
  exact ⟨ops, h, g.old, g.sound⟩

/-- The kept and inserted lines are exactly the new lines, with their numbers. Missing for the full
claim: texts with blocks in which unique lines have changed order (`C34_refuted_order`). -/
theorem C34_new_partial {e f : List α} (hs : SameOrder e f) :
    ∃ ops, diff e f = .ok ops ∧ oldOf ops = e.zipIdx ∧ newOf ops = f.zipIdx := by
  obtain ⟨ops, h, g⟩ := myers_good (e.length + 1) e f 0 0 (by omega)
  exact ⟨ops, h, g.old, g.new hs⟩

theorem before_infix {x y : α} {l' l : List α} (h : l' <:+: l) (hb : Before x y l') : Before x y l := by
  obtain ⟨a, b, c, rfl⟩ := hb
  obtain ⟨s, t, rfl⟩ := h
  exact ⟨s ++ a, b, c ++ t, by simp⟩

theorem before_total {x y : α} {l : List α} (hx : x ∈ l) (hy : y ∈ l) (hne : x ≠ y) : Before x y l ∨ Before y x l := by
  obtain ⟨p, hp⟩ := List.getElem?_of_mem hx
  obtain ⟨q, hq⟩ := List.getElem?_of_mem hy
  rcases Nat.lt_trichotomy p q with h | h | h
  · exact .inl (before_of_lt h hp hq)
  · subst h; rw [hp] at hq; exact absurd (Option.some.inj hq) hne
  · exact .inr (before_of_lt h hq hp)

theorem before_asymm {x y : α} {l : List α} (hl : l.Nodup) (h : Before x y l) (h' : Before y x l) : False := by
  have hx : x ∈ l := by obtain ⟨a, b, c, rfl⟩ := h; simp
  have hy : y ∈ l := by obtain ⟨a, b, c, rfl⟩ := h; simp
  obtain ⟨p, hp⟩ := List.getElem?_of_mem hx
  obtain ⟨q, hq⟩ := List.getElem?_of_mem hy
  have ox : Once x l := List.count_eq_one_of_mem hl hx
  have oy : Once y l := List.count_eq_one_of_mem hl hy
  have := lt_of_before ox oy hp hq h
  have := lt_of_before oy ox hq hp h'
  omega

/-- A condition that is easy to check: no line occurs twice in a text, and the common lines have the same
order. -/
theorem sameOrder_of_nodup {e f : List α} (hf : f.Nodup) (h : ∀ x y, x ∈ f → y ∈ f → Before x y e → Before x y f) :
    SameOrder e f := by
  intro e' f' he' hf' x y _ hx _ hy hb
  have hx' : x ∈ f' := List.count_pos_iff.1 (by unfold Once at hx; omega)
  have hy' : y ∈ f' := List.count_pos_iff.1 (by unfold Once at hy; omega)
  have hxy := h x y (hf'.subset hx') (hf'.subset hy') (before_infix he' hb)
  by_cases hne : x = y
  · subst hne
    exact absurd hxy (fun hc => before_asymm hf hc hc)
  rcases before_total hx' hy' hne with h1 | h1
  · exact h1
  · exact absurd hxy (fun hc => before_asymm hf hc (before_infix hf' h1))

theorem lt_of_before_sorted {l : List Nat} (hl : l.Pairwise (· < ·)) {x y : Nat} (h : Before x y l) : x < y := by
  obtain ⟨a, b, c, rfl⟩ := h
  rw [List.append_assoc, List.pairwise_append] at hl
  exact (List.pairwise_cons.1 hl.2.1).1 y (by simp)

example : SameOrder [1, 3, 5, 7, 8, 9] [1, 2, 5, 6, 9] ∧
    diff [1, 3, 5, 7, 8, 9] [1, 2, 5, 6, 9] =
      .ok [.keep 1 0 0, .del 3 1, .ins 2 1, .keep 5 2 2, .del 7 3, .del 8 4, .ins 6 3, .keep 9 5 4] := by
  refine ⟨sameOrder_of_nodup (by decide) ?_, by decide +kernel⟩
  intro x y hx hy hb
  have h1 := lt_of_before_sorted (by decide) hb
  rcases before_total hx hy (by omega) with h | h
  · exact h
  · have := lt_of_before_sorted (by decide) h
    omega

/-- Lines that have changed places: the script for `[a, x, b]` and `[b, y, a]` inserts all new lines twice. -/
theorem C34_refuted_order : diff [0, 1, 2] [2, 3, 0] =
      .ok [.ins 2 0, .ins 3 1, .keep 0 0 2, .del 1 1, .keep 2 2 0, .ins 3 1, .ins 0 2] ∧
    ∃ ops, diff [0, 1, 2] [2, 3, 0] = .ok ops ∧ (newOf ops).map Prod.fst = [2, 3, 0, 2, 3, 0] := by
  have h : diff [0, 1, 2] [2, 3, 0] =
      .ok [.ins 2 0, .ins 3 1, .keep 0 0 2, .del 1 1, .keep 2 2 0, .ins 3 1, .ins 0 2] := by decide +kernel
  exact ⟨h, _, h, rfl⟩

theorem matchLoop_self (e : List α) (n m : Nat) (h : m + n = e.length) : matchLoop e e 0 0 n m = e.length := by
  induction n generalizing m with
  | zero => exact h
  | succ n ih =>
    rw [matchLoop, if_pos ⟨by omega, by omega, rfl⟩]
    exact ih (m + 1) (by omega)

/-- The script for equal texts only keeps. -/
theorem C34_same (e : List α) : diff e e = .ok (keepFrom 0 0 e) := by
  unfold diff
  rw [myers]
  by_cases h1 : e.length = 0
  · rw [if_pos h1]
    have := List.length_eq_zero_iff.1 h1
    subst this
    rfl
  rw [if_neg h1, if_neg h1, matchLoop_self e e.length 0 (by omega)]
  obtain ⟨n, hn⟩ : ∃ n, e.length = n + 1 := ⟨e.length - 1, by omega⟩
  have hs : ∀ n, suffixLoop e e e.length n 0 = 0 := by
    intro n
    cases n with
    | zero => rfl
    | succ n => rw [suffixLoop, if_neg (by omega)]
  have hsl : slice e e.length (e.length - 0) = [] := by unfold slice; simp
  simp only [hs]
  rw [if_pos (by omega), hsl, hn, myers, if_pos (by simp), Res.ok_bind, ← hn]
  simp [insFrom, keepFrom]

end Verif.Diff
