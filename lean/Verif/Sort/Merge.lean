import Verif.Sort.Lemmas
/-!
# Merging two adjacent runs

Both loops compute a functional merge (`List.merge`), the right merge that of the reversed runs.
-/
namespace Verif.Sort
open Verif
variable {α : Type} {w : OrdW α}

/-! ## The functional merge -/

theorem merge_filter (ok : w.Ok) {le : α → α → Bool} (hle : ∀ x y, le x y = true ↔ Le w x y) (k : α) : ∀ (xs ys : List α),
    Sorted w xs → Sorted w ys → (List.merge xs ys le).filter (w.eq k) = xs.filter (w.eq k) ++ ys.filter (w.eq k) := by
  intro xs
  induction xs with
  | nil => intro ys _ _; simp
  | cons x xs ihx =>
    intro ys
    induction ys with
    | nil => intro _ _; simp
    | cons y ys ihy =>
      intro hx hy
      rw [List.cons_merge_cons]
      by_cases hl : le x y = true
      · rw [if_pos hl, List.filter_cons, ihx (y :: ys) (List.pairwise_cons.1 hx).2 hy]
        conv_rhs => rw [List.filter_cons]
        split <;> rfl
      · rw [if_neg hl, List.filter_cons, ihy hx (List.pairwise_cons.1 hy).2, List.filter_cons (x := y)]
        by_cases hk : w.eq k y = true
        · have hlt : w.lt y x = true := by
            rcases le_or_lt ok x y with h | h
            · exact absurd ((hle x y).2 h) hl
            · exact h
          have : (x :: xs).filter (w.eq k) = [] := by
            rw [List.filter_eq_nil_iff]
            intro z hz hkz
            have h1 : w.lt y z = true := by
              rcases List.mem_cons.1 hz with rfl | hz
              · exact hlt
              · exact lt_of_lt_of_le ok hlt ((List.pairwise_cons.1 hx).1 z hz)
            have h2 : Le w z y := le_trans ok (Or.inr (ok.symm _ _ hkz)) (Or.inr hk)
            rw [not_lt_of_le ok h2] at h1
            simp at h1
          rw [if_pos hk, if_pos hk, this]
          rfl
        · rw [if_neg hk, if_neg hk]

theorem merge_sorted (ok : w.Ok) {le : α → α → Bool} (hle : ∀ x y, le x y = true ↔ Le w x y) : ∀ (xs ys : List α),
    Sorted w xs → Sorted w ys → Sorted w (List.merge xs ys le) := by
  intro xs
  induction xs with
  | nil => intro ys _ h; simpa using h
  | cons x xs ihx =>
    intro ys
    induction ys with
    | nil => intro h _; simpa using h
    | cons y ys ihy =>
      intro hx hy
      rw [List.cons_merge_cons]
      by_cases hl : le x y = true
      · rw [if_pos hl]
        refine List.pairwise_cons.2 ⟨fun z hz => ?_, ihx (y :: ys) (List.pairwise_cons.1 hx).2 hy⟩
        rcases List.mem_merge.1 hz with h | h
        · exact (List.pairwise_cons.1 hx).1 z h
        · rcases List.mem_cons.1 h with rfl | h
          · exact (hle _ _).1 hl
          · exact le_trans ok ((hle _ _).1 hl) ((List.pairwise_cons.1 hy).1 z h)
      · rw [if_neg hl]
        have hlt : Le w y x := by
          rcases le_or_lt ok x y with h | h
          · exact absurd ((hle x y).2 h) hl
          · exact Or.inl h
        refine List.pairwise_cons.2 ⟨fun z hz => ?_, ihy hx (List.pairwise_cons.1 hy).2⟩
        rcases List.mem_merge.1 hz with h | h
        · rcases List.mem_cons.1 h with rfl | h
          · exact hlt
          · exact le_trans ok hlt ((List.pairwise_cons.1 hx).1 z h)
        · exact (List.pairwise_cons.1 hy).1 z h

/-- The reversed order. -/
def flip (w : OrdW α) : OrdW α := ⟨fun x y => w.lt y x, w.eq⟩

theorem le_flip (ok : w.Ok) {x y : α} : Le (flip w) x y ↔ Le w y x := by
  constructor
  · rintro (h | h)
    · exact Or.inl h
    · exact Or.inr (ok.symm _ _ h)
  · rintro (h | h)
    · exact Or.inl h
    · exact Or.inr (ok.symm _ _ h)

theorem flip_ok (ok : w.Ok) : (flip w).Ok where
  total x y := by
    rcases ok.total x y with h | h | h
    · exact Or.inr (Or.inr h)
    · exact Or.inr (Or.inl h)
    · exact Or.inl h
  lt_eq x y h := by
    cases hc : w.eq x y with
    | false => exact hc
    | true =>
      have := ok.lt_eq y x h
      rw [ok.symm _ _ hc] at this
      simp at this
  asymm x y h := ok.asymm y x h
  symm x y h := ok.symm x y h
  trans x y z h1 h2 := (le_flip ok).2 (le_trans ok ((le_flip ok).1 h2) ((le_flip ok).1 h1))

theorem sorted_flip (ok : w.Ok) {s : List α} (h : Sorted w s) : Sorted (flip w) s.reverse := by
  unfold Sorted
  rw [List.pairwise_reverse]
  exact h.imp (fun h => (le_flip ok).2 h)

theorem sorted_unflip (ok : w.Ok) {s : List α} (h : Sorted (flip w) s) : Sorted w s.reverse := by
  unfold Sorted
  rw [List.pairwise_reverse]
  exact h.imp (fun h => (le_flip ok).1 h)

def leL (w : OrdW α) (x y : α) : Bool := decide (cmp w x y ≤ 0)
def leR (w : OrdW α) (y x : α) : Bool := decide (¬ cmp w x y > 0)

def mrgL (w : OrdW α) (xs ys : List α) : List α := List.merge xs ys (leL w)
def mrgR (w : OrdW α) (xs ys : List α) : List α := (List.merge ys.reverse xs.reverse (leR w)).reverse

theorem leL_iff (ok : w.Ok) (x y : α) : leL w x y = true ↔ Le w x y := by
  unfold leL; rw [decide_eq_true_eq, cmp_le ok]

theorem leR_iff (ok : w.Ok) (x y : α) : leR w x y = true ↔ Le (flip w) x y := by
  unfold leR; rw [decide_eq_true_eq, le_flip ok, ← cmp_le ok]; omega

theorem mrgL_spec {xs ys : List α} (hx : Srt w xs) (hy : Srt w ys) : St w (xs ++ ys) (mrgL w xs ys) ∧ Srt w (mrgL w xs ys) := by
  refine ⟨⟨(List.merge_perm_append _).symm, fun ok k => ?_⟩, fun ok => merge_sorted ok (leL_iff ok) _ _ (hx ok) (hy ok)⟩
  rw [List.filter_append]
  exact merge_filter ok (leL_iff ok) k xs ys (hx ok) (hy ok)

theorem mrgR_spec {xs ys : List α} (hx : Srt w xs) (hy : Srt w ys) : St w (xs ++ ys) (mrgR w xs ys) ∧ Srt w (mrgR w xs ys) := by
  refine ⟨⟨?_, fun ok k => ?_⟩, fun ok => ?_⟩
  · unfold mrgR
    refine (List.Perm.trans ?_ (List.merge_perm_append _).symm).trans (List.reverse_perm _).symm
    rw [← List.reverse_append]
    exact (List.reverse_perm _).symm
  · unfold mrgR
    rw [List.filter_reverse, List.filter_append]
    have h := merge_filter (flip_ok ok) (leR_iff ok) k ys.reverse xs.reverse (sorted_flip ok (hy ok)) (sorted_flip ok (hx ok))
    have e : (flip w).eq = w.eq := rfl
    rw [e] at h
    rw [h, List.reverse_append, List.filter_reverse, List.filter_reverse, List.reverse_reverse, List.reverse_reverse]
  · exact sorted_unflip ok (merge_sorted (flip_ok ok) (leR_iff ok) _ _ (sorted_flip ok (hy ok)) (sorted_flip ok (hx ok)))

/-! ## The loops -/

theorem mergeLeft_spec {store : List α} : ∀ n i j k stop (p g ys q : List α),
    i ≤ store.length → g.length = store.length - i → k = p.length → j = p.length + g.length → stop = p.length + g.length + ys.length →
    n = g.length + ys.length →
    mergeLeft w store store.length stop n i j k (p ++ (g ++ (ys ++ q))) = .ok (p ++ (mrgL w (store.drop i) ys ++ q)) := by
  intro n
  induction n with
  | zero =>
    intro i j k stop p g ys q hi hg hk hj hst hn
    have h1 : g = [] := List.length_eq_zero_iff.1 (by omega)
    have h2 : ys = [] := List.length_eq_zero_iff.1 (by omega)
    subst h1; subst h2
    rw [List.drop_of_length_le (by simp at hg; omega)]
    unfold mrgL
    rw [List.nil_merge]
    rfl
  | succ n ih =>
    intro i j k stop p g ys q hi hg hk hj hst hn
    unfold mergeLeft
    by_cases hgl : g.length = 0
    · have h1 : g = [] := List.length_eq_zero_iff.1 hgl
      subst h1
      rw [if_neg (by omega), if_neg (by omega), List.drop_of_length_le (by omega)]
      unfold mrgL
      rw [List.nil_merge]
      rfl
    · obtain ⟨g0, g', rfl⟩ : ∃ g0 g', g = g0 :: g' := by
        match g, hgl with
        | [], h => simp at h
        | a :: b, _ => exact ⟨a, b, rfl⟩
      have hil : i < store.length := by omega
      have hd : store.drop i = store[i] :: store.drop (i + 1) := List.drop_eq_getElem_cons hil
      have hra : rd store i = .ok store[i] := rd_of (List.getElem?_eq_getElem hil)
      rw [List.length_cons] at hg hj hst hn
      generalize store[i] = a at hd hra
      have keep : ∀ (ys' : List α), ys'.length = ys.length → mergeLeft w store store.length stop n (i + 1) j (k + 1) (p ++ a :: (g' ++ (ys' ++ q))) =
          .ok (p ++ a :: (mrgL w (store.drop (i + 1)) ys' ++ q)) := by
        intro ys' hl
        have := ih (i + 1) j (k + 1) stop (p ++ [a]) g' ys' q (by omega) (by omega) (by simp; omega) (by simp; omega) (by simp; omega) (by omega)
        simpa using this
      by_cases hyl : ys.length = 0
      · have h2 : ys = [] := List.length_eq_zero_iff.1 hyl
        subst h2
        rw [if_neg (by rw [List.length_nil] at hst; omega), if_pos hil, hra, Res.ok_bind, List.cons_append, wr_mid hk, Res.ok_bind, keep [] rfl, hd]
        unfold mrgL
        rw [List.merge_right, List.merge_right]
        rfl
      · obtain ⟨b, ys', rfl⟩ : ∃ b ys', ys = b :: ys' := by
          match ys, hyl with
          | [], h => simp at h
          | a :: b, _ => exact ⟨a, b, rfl⟩
        rw [List.length_cons] at hst hn
        rw [if_pos (by omega), hra, Res.ok_bind]
        rw [show p ++ (g0 :: g' ++ (b :: ys' ++ q)) = (p ++ g0 :: g') ++ b :: (ys' ++ q) by simp, rd_mid (by simp; omega), Res.ok_bind]
        by_cases hc : cmp w a b ≤ 0
        · rw [if_pos hc, show (p ++ g0 :: g') ++ b :: (ys' ++ q) = p ++ g0 :: (g' ++ (b :: ys' ++ q)) by simp, wr_mid hk, Res.ok_bind,
            keep (b :: ys') rfl, hd]
          unfold mrgL
          rw [List.cons_merge_cons, if_pos (by unfold leL; rw [decide_eq_true_eq]; exact hc)]
          rfl
        · rw [if_neg hc, show (p ++ g0 :: g') ++ b :: (ys' ++ q) = p ++ g0 :: (g' ++ (b :: ys' ++ q)) by simp, wr_mid hk, Res.ok_bind]
          have := ih i (j + 1) (k + 1) stop (p ++ [b]) (g' ++ [b]) ys' q hi (by simp; omega) (by simp; omega) (by simp; omega) (by simp; omega) (by simp; omega)
          rw [show p ++ b :: (g' ++ (b :: ys' ++ q)) = (p ++ [b]) ++ ((g' ++ [b]) ++ (ys' ++ q)) by simp, this, hd]
          unfold mrgL
          rw [List.cons_merge_cons, if_neg (by unfold leL; rw [decide_eq_true_eq]; exact hc)]
          simp

theorem snoc_of {s : List α} (h : s.length ≠ 0) : ∃ t x, s = t ++ [x] := by
  have hs : s ≠ [] := by intro e; rw [e] at h; simp at h
  exact ⟨s.dropLast, s.getLast hs, (List.dropLast_concat_getLast hs).symm⟩

theorem mergeRight_spec {store p : List α} : ∀ n i j (xs g q : List α),
    i ≤ store.length → g.length = i → j = p.length + xs.length → n = g.length + xs.length →
    mergeRight w store p.length n i j (p ++ (xs ++ (g ++ q))) = .ok (p ++ (mrgR w xs (store.take i) ++ q)) := by
  intro n
  induction n with
  | zero =>
    intro i j xs g q hi hg hj hn
    have h1 : g = [] := List.length_eq_zero_iff.1 (by omega)
    have h2 : xs = [] := List.length_eq_zero_iff.1 (by omega)
    subst h1; subst h2
    simp only [List.length_nil] at hg
    subst hg
    unfold mrgR
    rw [List.take_zero, List.reverse_nil, List.nil_merge]
    rfl
  | succ n ih =>
    intro i j xs g q hi hg hj hn
    unfold mergeRight
    by_cases hi0 : i = 0
    · subst hi0
      have h1 : g = [] := List.length_eq_zero_iff.1 (by omega)
      subst h1
      rw [if_neg (by omega), if_neg (by omega)]
      unfold mrgR
      rw [List.take_zero, List.reverse_nil, List.nil_merge, List.reverse_reverse]
      rfl
    · obtain ⟨g', g0, rfl⟩ := snoc_of (s := g) (by omega)
      rw [List.length_append, List.length_singleton] at hg hn
      have hil : i - 1 < store.length := by omega
      have hd : store.take i = store.take (i - 1) ++ [store[i - 1]] := by
        have := List.take_succ_eq_append_getElem hil
        rw [Nat.sub_add_cancel (by omega)] at this
        exact this
      have hrb : rd store (i - 1) = .ok store[i - 1] := rd_of (List.getElem?_eq_getElem hil)
      generalize store[i - 1] = b at hd hrb
      have keep : mergeRight w store p.length n (i - 1) j (p ++ (xs ++ (g' ++ b :: q))) =
          .ok (p ++ (mrgR w xs (store.take (i - 1)) ++ b :: q)) :=
        ih (i - 1) j xs g' (b :: q) (by omega) (by omega) (by omega) (by omega)
      have wrk : ∀ c, wr (p ++ (xs ++ (g' ++ [g0] ++ q))) (p.length + n) c = .ok (p ++ (xs ++ (g' ++ c :: q))) := by
        intro c
        rw [show p ++ (xs ++ (g' ++ [g0] ++ q)) = (p ++ xs ++ g') ++ g0 :: q by simp, wr_mid (by simp; omega)]
        simp
      by_cases hxl : xs.length = 0
      · have h2 : xs = [] := List.length_eq_zero_iff.1 hxl
        subst h2
        rw [List.length_nil] at hj
        rw [if_neg (by omega), if_pos (by omega), hrb, Res.ok_bind, wrk, Res.ok_bind, keep, hd]
        unfold mrgR
        simp
      · obtain ⟨xs', a, rfl⟩ := snoc_of hxl
        rw [List.length_append, List.length_singleton] at hj hn
        have hra : rd (p ++ (xs' ++ [a] ++ (g' ++ [g0] ++ q))) (j - 1) = .ok a := by
          rw [show p ++ (xs' ++ [a] ++ (g' ++ [g0] ++ q)) = (p ++ xs') ++ a :: (g' ++ [g0] ++ q) by simp]
          exact rd_mid (by simp; omega)
        rw [if_pos (by omega), hra, Res.ok_bind, hrb, Res.ok_bind]
        by_cases hc : cmp w a b > 0
        · rw [if_pos hc, wrk, Res.ok_bind,
            show p ++ (xs' ++ [a] ++ (g' ++ a :: q)) = p ++ (xs' ++ ((a :: g') ++ a :: q)) by simp,
            ih i (j - 1) xs' (a :: g') (a :: q) hi (by simp; omega) (by omega) (by simp; omega), hd]
          unfold mrgR
          rw [List.reverse_append, List.reverse_append, List.reverse_singleton, List.singleton_append, List.reverse_singleton, List.singleton_append,
            List.cons_merge_cons, if_neg (by unfold leR; rw [decide_eq_true_eq]; exact fun h => h hc)]
          simp
        · rw [if_neg hc, wrk, Res.ok_bind, keep, hd]
          unfold mrgR
          rw [List.reverse_append, List.reverse_append, List.reverse_singleton, List.singleton_append, List.reverse_singleton, List.singleton_append,
            List.cons_merge_cons, if_pos (by unfold leR; rw [decide_eq_true_eq]; exact hc)]
          simp

theorem copy_mid {p s q : List α} {i n : Nat} (hi : i = p.length) (hn : n = s.length) : copy (p ++ (s ++ q)) i n = .ok s := by
  unfold copy
  rw [if_pos (by simp; omega), hi, hn, List.drop_left, List.take_left]

theorem merge_spec {p xs ys q : List α} {a b : Run} (ha : a = ⟨p.length, xs.length⟩) (hb : b.length = ys.length) (hx : Srt w xs) (hy : Srt w ys) :
    ∃ m, merge w (p ++ (xs ++ (ys ++ q))) a b = .ok (p ++ (m ++ q)) ∧ St w (xs ++ ys) m ∧ Srt w m := by
  subst ha
  unfold merge
  simp only [hb]
  by_cases h : xs.length < ys.length
  · rw [if_pos h, copy_mid rfl rfl, Res.ok_bind]
    obtain ⟨h1, h2⟩ := mrgL_spec hx hy
    refine ⟨_, ?_, h1, h2⟩
    have := mergeLeft_spec (w := w) (store := xs) (xs.length + ys.length) 0 (p.length + xs.length) p.length (p.length + xs.length + ys.length) p xs ys q
      (by omega) (by omega) rfl rfl rfl rfl
    rw [List.drop_zero] at this
    exact this
  · rw [if_neg h, show p ++ (xs ++ (ys ++ q)) = (p ++ xs) ++ (ys ++ q) by simp, copy_mid (by simp) rfl, Res.ok_bind]
    obtain ⟨h1, h2⟩ := mrgR_spec hx hy
    refine ⟨_, ?_, h1, h2⟩
    have := mergeRight_spec (w := w) (store := ys) (p := p) (xs.length + ys.length) ys.length (p.length + xs.length) xs ys q
      (by omega) rfl rfl (by omega)
    rw [List.take_length] at this
    rw [List.append_assoc]
    exact this

end Verif.Sort
