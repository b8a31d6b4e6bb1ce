import Verif.Sort.Spec
import Mathlib.Tactic.Ring
/-!
# Segments of the array: stable rearrangements and sortedness

All statements about sortedness and stability are under the condition `w.Ok` (the comparison is a
total preorder); that the elements are permuted, and that nothing is read or written outside of the
array, holds for any comparison function.
-/
namespace Verif.Sort
open Verif
variable {α : Type} {w : OrdW α}

/-- `b` is a permutation of `a`; for a proper order, a stable one. -/
def St (w : OrdW α) (a b : List α) : Prop := a.Perm b ∧ (w.Ok → SameOrder w a b)

/-- Sorted if the comparison is proper. -/
def Srt (w : OrdW α) (l : List α) : Prop := w.Ok → Sorted w l

/-- `x ≤ y`. -/
def Le (w : OrdW α) (x y : α) : Prop := w.lt x y = true ∨ w.eq x y = true

theorem St.refl (a : List α) : St w a a := ⟨List.Perm.refl _, fun _ _ => rfl⟩

theorem St.trans {a b c : List α} (h1 : St w a b) (h2 : St w b c) : St w a c :=
  ⟨h1.1.trans h2.1, fun ok k => (h2.2 ok k).trans (h1.2 ok k)⟩

theorem St.append {a b c d : List α} (h1 : St w a b) (h2 : St w c d) : St w (a ++ c) (b ++ d) :=
  ⟨h1.1.append h2.1, fun ok k => by rw [List.filter_append, List.filter_append, h1.2 ok k, h2.2 ok k]⟩

theorem St.left (p : List α) {a b : List α} (h : St w a b) : St w (p ++ a) (p ++ b) := (St.refl p).append h

theorem St.right (q : List α) {a b : List α} (h : St w a b) : St w (a ++ q) (b ++ q) := h.append (St.refl q)

theorem St.length {a b : List α} (h : St w a b) : a.length = b.length := h.1.length_eq

theorem eq_refl (ok : w.Ok) (x : α) : w.eq x x = true := by
  rcases ok.total x x with h | h | h
  · rw [ok.asymm _ _ h] at h; simp at h
  · exact h
  · rw [ok.asymm _ _ h] at h; simp at h

theorem le_trans (ok : w.Ok) {x y z : α} (h1 : Le w x y) (h2 : Le w y z) : Le w x z := ok.trans x y z h1 h2

theorem not_lt_of_le (ok : w.Ok) {x y : α} (h : Le w x y) : w.lt y x = false := by
  cases hc : w.lt y x with
  | false => rfl
  | true =>
    rcases h with h | h
    · rw [ok.asymm _ _ hc] at h; simp at h
    · have := ok.lt_eq _ _ hc
      rw [ok.symm _ _ h] at this
      simp at this

theorem le_or_lt (ok : w.Ok) (x y : α) : Le w x y ∨ w.lt y x = true := by
  rcases ok.total x y with h | h | h
  · exact Or.inl (Or.inl h)
  · exact Or.inl (Or.inr h)
  · exact Or.inr h

theorem lt_of_lt_of_le (ok : w.Ok) {x y z : α} (h1 : w.lt x y = true) (h2 : Le w y z) : w.lt x z = true := by
  rcases le_or_lt ok z x with h | h
  · have := not_lt_of_le ok (le_trans ok h2 h)
    rw [h1] at this; simp at this
  · exact h

theorem lt_of_le_of_lt (ok : w.Ok) {x y z : α} (h1 : Le w x y) (h2 : w.lt y z = true) : w.lt x z = true := by
  rcases le_or_lt ok z x with h | h
  · have := not_lt_of_le ok (le_trans ok h h1)
    rw [h2] at this; simp at this
  · exact h

theorem cmp_neg {x y : α} : cmp w x y < 0 ↔ w.lt x y = true := by
  unfold cmp
  by_cases h : w.lt x y = true
  · simp [h]
  · rw [if_neg h]
    by_cases h2 : w.eq x y = true
    · simp [h, h2]
    · simp [h, h2]

theorem cmp_pos (ok : w.Ok) {x y : α} : cmp w x y > 0 ↔ w.lt y x = true := by
  unfold cmp
  by_cases h : w.lt x y = true
  · rw [if_pos h]; simp [ok.asymm _ _ h]
  · rw [if_neg h]
    by_cases h2 : w.eq x y = true
    · rw [if_pos h2]
      have := not_lt_of_le ok (Or.inr h2)
      simp [this]
    · rw [if_neg h2]
      rcases ok.total x y with h3 | h3 | h3
      · exact absurd h3 h
      · exact absurd h3 h2
      · simp [h3]

theorem cmp_le (ok : w.Ok) {x y : α} : cmp w x y ≤ 0 ↔ Le w x y := by
  constructor
  · intro h
    rcases le_or_lt ok x y with h1 | h1
    · exact h1
    · have := (cmp_pos ok).2 h1; omega
  · intro h
    have := not_lt_of_le ok h
    by_contra hc
    rw [(cmp_pos ok).1 (by omega)] at this
    simp at this

/-- Moving an element in front of larger ones is stable. -/
theorem St.move {x : α} {b : List α} (h : w.Ok → ∀ y ∈ b, w.lt x y = true) : St w (b ++ [x]) (x :: b) := by
  refine ⟨List.perm_append_comm, fun ok k => ?_⟩
  rw [List.filter_append, List.filter_cons, List.filter_cons]
  by_cases hk : w.eq k x = true
  · have : b.filter (w.eq k) = [] := by
      rw [List.filter_eq_nil_iff]
      intro y hy hky
      have h1 := h ok y hy
      have h2 : Le w y x := le_trans ok (Or.inr (ok.symm _ _ hky)) (Or.inr hk)
      rw [not_lt_of_le ok h2] at h1
      simp at h1
    rw [this, if_pos hk, if_pos hk]; rfl
  · rw [if_neg hk, if_neg hk]; simp

/-- Reversing a strictly decreasing list is stable. -/
theorem St.rev {s : List α} (h : w.Ok → s.Pairwise (fun x y => w.lt y x = true)) : St w s s.reverse := by
  refine ⟨(List.reverse_perm s).symm, fun ok k => ?_⟩
  rw [List.filter_reverse]
  have hp := (h ok).filter (w.eq k)
  have hmem : ∀ x ∈ s.filter (w.eq k), w.eq k x = true := fun x hx => (List.mem_filter.1 hx).2
  generalize s.filter (w.eq k) = t at hp hmem
  match t with
  | [] => rfl
  | [x] => rfl
  | x :: y :: r =>
    exfalso
    have h1 := (List.pairwise_cons.1 hp).1 y (by simp)
    have h2 : Le w x y := le_trans ok (Or.inr (ok.symm _ _ (hmem x (by simp)))) (Or.inr (hmem y (by simp)))
    rw [not_lt_of_le ok h2] at h1
    simp at h1

/-! ## Reading and writing -/

theorem rd_of {d : List α} {i : Nat} {x : α} (h : d[i]? = some x) : rd d i = .ok x := by
  unfold rd; rw [h]

theorem rd_mid {a b : List α} {x : α} {i : Nat} (h : i = a.length) : rd (a ++ x :: b) i = .ok x := by
  apply rd_of
  rw [h, List.getElem?_append_right (Nat.le_refl _), Nat.sub_self]; rfl

theorem wr_mid {a b : List α} {x y : α} {i : Nat} (h : i = a.length) : wr (a ++ x :: b) i y = .ok (a ++ y :: b) := by
  unfold wr
  rw [h, if_pos (by simp), List.set_append_right _ _ (Nat.le_refl _), Nat.sub_self]; rfl

theorem get_mid {p s q : List α} {i j : Nat} (hi : i = p.length + j) (hj : j < s.length) : (p ++ s ++ q)[i]? = s[j]? := by
  rw [hi, List.append_assoc, List.getElem?_append_right (by omega), Nat.add_sub_cancel_left, List.getElem?_append_left hj]

/-! ## Binary insertion -/

theorem srt_get (ok : w.Ok) {s : List α} (h : Sorted w s) {i j : Nat} {x y : α} (hij : i ≤ j) (hx : s[i]? = some x) (hy : s[j]? = some y) : Le w x y := by
  rcases Nat.lt_or_eq_of_le hij with h1 | rfl
  · have hi := List.getElem?_eq_some_iff.1 hx
    have hj := List.getElem?_eq_some_iff.1 hy
    obtain ⟨hi1, hi2⟩ := hi
    obtain ⟨hj1, hj2⟩ := hj
    have := List.pairwise_iff_getElem.1 h i j hi1 hj1 h1
    rw [hi2, hj2] at this
    exact this
  · rw [hx] at hy
    rw [Option.some.inj hy]
    exact Or.inr (eq_refl ok _)

/-- `loc` splits `s` into elements not above and elements above `x`. -/
def Splits (w : OrdW α) (s : List α) (x : α) (loc : Nat) : Prop :=
  (∀ (j : Nat) (y : α), s[j]? = some y → j < loc → Le w y x) ∧ (∀ (j : Nat) (y : α), s[j]? = some y → loc ≤ j → w.lt x y = true)

theorem findLoop_spec {p s q : List α} {x : α} : ∀ f l c r, c = l + (r - l) / 2 → l ≤ r → r < s.length → r - l < f →
    ∃ loc, findLoop w (p ++ s ++ q) p.length x f l c r = .ok loc ∧ loc ≤ s.length ∧
      (w.Ok → Sorted w s → (∀ y, s[l]? = some y → Le w y x) → (∀ y, s[r]? = some y → w.lt x y = true) → Splits w s x loc) := by
  intro f
  induction f with
  | zero => intro l c r _ _ _ h; omega
  | succ f ih =>
    intro l c r h1 h2 h4 h5
    obtain ⟨cx, hcx⟩ : ∃ y, s[c]? = some y := ⟨s[c]'(by omega), List.getElem?_eq_getElem (by omega)⟩
    unfold findLoop
    rw [rd_of (by rw [get_mid rfl (by omega)]; exact hcx), Res.ok_bind]
    by_cases hv : cmp w x cx < 0
    · rw [if_pos hv]
      by_cases hc : c - l ≤ 1
      · rw [if_pos hc]
        refine ⟨c, rfl, by omega, fun ok hs hl hr => ⟨fun j y hy hj => ?_, fun j y hy hj => ?_⟩⟩
        · have : j ≤ l := by omega
          obtain ⟨z, hz⟩ : ∃ y, s[l]? = some y := ⟨s[l]'(by omega), List.getElem?_eq_getElem (by omega)⟩
          exact le_trans ok (srt_get ok hs this hy hz) (hl z hz)
        · exact lt_of_lt_of_le ok (cmp_neg.1 hv) (srt_get ok hs hj hcx hy)
      · rw [if_neg hc]
        obtain ⟨loc, e, hle, hsp⟩ := ih l (l + (c - l) / 2) c rfl (by omega) (by omega) (by omega)
        refine ⟨loc, e, hle, fun ok hs hl hr => hsp ok hs hl ?_⟩
        intro y hy
        rw [hcx] at hy
        rw [← Option.some.inj hy]
        exact cmp_neg.1 hv
    · rw [if_neg hv]
      by_cases hc : r - c ≤ 1
      · rw [if_pos hc]
        refine ⟨c + 1, rfl, by omega, fun ok hs hl hr => ⟨fun j y hy hj => ?_, fun j y hy hj => ?_⟩⟩
        · have hle : Le w cx x := by
            rcases le_or_lt ok cx x with h | h
            · exact h
            · exact absurd (cmp_neg.2 h) hv
          exact le_trans ok (srt_get ok hs (by omega) hy hcx) hle
        · obtain ⟨z, hz⟩ : ∃ y, s[r]? = some y := ⟨s[r]'(by omega), List.getElem?_eq_getElem (by omega)⟩
          exact lt_of_lt_of_le ok (hr z hz) (srt_get ok hs (by omega) hz hy)
      · rw [if_neg hc]
        obtain ⟨loc, e, hle, hsp⟩ := ih c (c + (r - c) / 2) r rfl (by omega) (by omega) (by omega)
        refine ⟨loc, e, hle, fun ok hs hl hr => hsp ok hs ?_ hr⟩
        intro y hy
        rw [hcx] at hy
        rw [← Option.some.inj hy]
        rcases le_or_lt ok cx x with h | h
        · exact h
        · exact absurd (cmp_neg.2 h) hv

theorem find_spec {p s q : List α} {x : α} (hs : s ≠ []) :
    ∃ loc, find w (p ++ s ++ q) p.length x s.length = .ok loc ∧ loc ≤ s.length ∧
      (w.Ok → Sorted w s → (∀ y, s[s.length - 1]? = some y → w.lt x y = true) → Splits w s x loc) := by
  have hpos : 0 < s.length := List.length_pos_iff.2 hs
  obtain ⟨x0, h0⟩ : ∃ y, s[0]? = some y := ⟨s[0]'(by omega), List.getElem?_eq_getElem (by omega)⟩
  obtain ⟨xr, hr⟩ : ∃ y, s[s.length - 1]? = some y := ⟨s[s.length - 1]'(by omega), List.getElem?_eq_getElem (by omega)⟩
  unfold find
  simp only
  rw [rd_of (x := x0) (by rw [get_mid (j := 0) (by omega) (by omega)]; exact h0), Res.ok_bind]
  by_cases hv : cmp w x x0 < 0
  · rw [if_pos hv]
    refine ⟨0, rfl, by omega, fun ok hs _ => ⟨fun j y hy hj => by omega, fun j y hy hj => ?_⟩⟩
    exact lt_of_lt_of_le ok (cmp_neg.1 hv) (srt_get ok hs hj h0 hy)
  · rw [if_neg hv, rd_of (x := xr) (by rw [get_mid rfl (by omega)]; exact hr), Res.ok_bind]
    by_cases hv2 : cmp w x xr > 0
    · rw [if_pos hv2]
      refine ⟨s.length - 1, rfl, by omega, fun ok _ hlast => ?_⟩
      have h1 := hlast xr hr
      have h2 := (cmp_pos ok).1 hv2
      rw [ok.asymm _ _ h1] at h2
      simp at h2
    · rw [if_neg hv2]
      obtain ⟨loc, e, hle, hsp⟩ := findLoop_spec (w := w) (p := p) (s := s) (q := q) (x := x) (s.length + 1) 0 ((s.length - 1) / 2) (s.length - 1)
        (by omega) (by omega) (by omega) (by omega)
      refine ⟨loc, e, hle, fun ok hs hlast => hsp ok hs ?_ hlast⟩
      intro y hy
      rw [h0] at hy
      rw [← Option.some.inj hy]
      rcases le_or_lt ok x0 x with h | h
      · exact h
      · exact absurd (cmp_neg.2 h) hv

theorem shiftLoop_spec {p a : List α} : ∀ j (b : List α) (y : α) (q : List α), a.length + b.length = j + 1 → b ≠ [] →
    ∃ h, shiftLoop (p ++ (a ++ (b ++ y :: q))) p.length a.length j = .ok (p ++ (a ++ (h :: (b ++ q)))) := by
  intro j
  induction j with
  | zero =>
    intro b y q hl hb
    have hbl : 0 < b.length := List.length_pos_iff.2 hb
    have ha : a = [] := List.length_eq_zero_iff.1 (by omega)
    obtain ⟨z, rfl⟩ : ∃ z, b = [z] := List.length_eq_one_iff.1 (by omega)
    subst ha
    refine ⟨z, ?_⟩
    unfold shiftLoop
    rw [if_pos (by simp)]
    simp only [List.nil_append, List.cons_append]
    rw [rd_mid rfl, Res.ok_bind]
    rw [show p ++ z :: y :: q = (p ++ [z]) ++ y :: q by simp, wr_mid (by simp)]
    simp
  | succ j ih =>
    intro b y q hl hb
    have hbl : 0 < b.length := List.length_pos_iff.2 hb
    obtain ⟨b', z, rfl⟩ : ∃ b' z, b = b' ++ [z] := by
      exact ⟨b.dropLast, b.getLast hb, (List.dropLast_concat_getLast hb).symm⟩
    rw [List.length_append, List.length_singleton] at hl
    unfold shiftLoop
    rw [if_pos (by omega)]
    rw [show p ++ (a ++ (b' ++ [z] ++ y :: q)) = (p ++ a ++ b') ++ z :: y :: q by simp,
      rd_mid (by simp; omega), Res.ok_bind,
      show (p ++ a ++ b') ++ z :: y :: q = (p ++ a ++ b' ++ [z]) ++ y :: q by simp,
      wr_mid (by simp; omega), Res.ok_bind]
    by_cases hb' : b' = []
    · subst hb'
      refine ⟨z, ?_⟩
      simp only [List.length_nil] at hl
      have : shiftLoop ((p ++ a ++ [] ++ [z]) ++ z :: q) p.length a.length j = .ok ((p ++ a ++ [] ++ [z]) ++ z :: q) := by
        cases j with
        | zero => unfold shiftLoop; rw [if_neg (by omega)]
        | succ j => unfold shiftLoop; rw [if_neg (by omega)]
      rw [this]
      simp
    · obtain ⟨h, e⟩ := ih b' z (z :: q) (by omega) hb'
      refine ⟨h, ?_⟩
      rw [show (p ++ a ++ b' ++ [z]) ++ z :: q = p ++ (a ++ (b' ++ z :: z :: q)) by simp, e]
      simp

theorem sorted_insert {a b : List α} {x : α} (hs : Sorted w (a ++ b)) (ha : ∀ y ∈ a, Le w y x) (hb : ∀ y ∈ b, w.lt x y = true) :
    Sorted w (a ++ x :: b) := by
  unfold Sorted at *
  rw [List.pairwise_append] at hs ⊢
  refine ⟨hs.1, List.pairwise_cons.2 ⟨fun y hy => Or.inl (hb y hy), hs.2.1⟩, ?_⟩
  intro y hy z hz
  rcases List.mem_cons.1 hz with rfl | hz
  · exact ha y hy
  · exact hs.2.2 y hy z hz

theorem insertOne_spec {p s q : List α} {x : α} (hs : s ≠ []) (hsrt : Srt w s) :
    ∃ s', insertOne w (p ++ (s ++ x :: q)) p.length s.length = .ok (p ++ (s' ++ q)) ∧ St w (s ++ [x]) s' ∧ Srt w s' := by
  have hpos : 0 < s.length := List.length_pos_iff.2 hs
  obtain ⟨y, hy⟩ : ∃ y, s[s.length - 1]? = some y := ⟨s[s.length - 1]'(by omega), List.getElem?_eq_getElem (by omega)⟩
  unfold insertOne
  rw [show p ++ (s ++ x :: q) = p ++ s ++ (x :: q) by simp,
    rd_of (x := y) (by rw [get_mid rfl (by omega)]; exact hy), Res.ok_bind, rd_mid (by simp), Res.ok_bind]
  by_cases hc : cmp w y x ≤ 0
  · rw [if_pos hc]
    refine ⟨s ++ [x], by simp [pure], St.refl _, fun ok => ?_⟩
    have h := hsrt
    unfold Sorted
    rw [List.pairwise_append]
    refine ⟨h ok, List.pairwise_singleton _ _, ?_⟩
    intro z hz u hu
    rw [List.mem_singleton] at hu
    subst hu
    obtain ⟨j, hj⟩ := List.mem_iff_getElem?.1 hz
    have hjl := (List.getElem?_eq_some_iff.1 hj).1
    exact le_trans ok (srt_get ok (h ok) (by omega) hj hy) ((cmp_le ok).1 hc)
  · rw [if_neg hc]
    obtain ⟨loc, e, hle, hsp⟩ := find_spec (w := w) (p := p) (s := s) (q := x :: q) (x := x) hs
    rw [e, Res.ok_bind]
    have hsplit : s = s.take loc ++ s.drop loc := (List.take_append_drop loc s).symm
    generalize ha : s.take loc = a at hsplit
    generalize hb : s.drop loc = b at hsplit
    have hal : a.length = loc := by rw [← ha, List.length_take]; omega
    have hbl : b.length = s.length - loc := by rw [← hb, List.length_drop]
    have hshift : ∃ h, shiftLoop (p ++ s ++ x :: q) p.length loc (s.length - 1) = .ok (p ++ (a ++ h :: (b ++ q))) := by
      by_cases hbe : b = []
      · refine ⟨x, ?_⟩
        subst hbe
        simp only [List.length_nil] at hbl
        have e1 : shiftLoop (p ++ s ++ x :: q) p.length loc (s.length - 1) = .ok (p ++ s ++ x :: q) := by
          obtain ⟨m, hm⟩ : ∃ m, s.length - 1 = m := ⟨_, rfl⟩
          rw [hm]
          cases m with
          | zero => unfold shiftLoop; rw [if_neg (by omega)]
          | succ m => unfold shiftLoop; rw [if_neg (by omega)]
        rw [e1, hsplit]
        simp
      · obtain ⟨h, e1⟩ := shiftLoop_spec (p := p) (a := a) (s.length - 1) b x q (by omega) hbe
        refine ⟨h, ?_⟩
        rw [← e1, hal]
        congr 1
        conv_lhs => rw [hsplit]
        simp
    obtain ⟨h, e1⟩ := hshift
    rw [e1, Res.ok_bind, show p ++ (a ++ h :: (b ++ q)) = (p ++ a) ++ h :: (b ++ q) by simp, wr_mid (by simp; omega)]
    have hgt : w.Ok → w.lt x y = true := fun ok => (cmp_pos ok).1 (by omega)
    have hprops : w.Ok → Sorted w s → (∀ z ∈ a, Le w z x) ∧ (∀ z ∈ b, w.lt x z = true) := by
      intro ok hsort
      obtain ⟨h1, h2⟩ := hsp ok hsort (fun z hz => by rw [hy] at hz; rw [← Option.some.inj hz]; exact hgt ok)
      constructor
      · intro z hz
        rw [← ha] at hz
        obtain ⟨j, hj⟩ := List.mem_iff_getElem?.1 hz
        have hjl := (List.getElem?_eq_some_iff.1 hj).1
        rw [List.length_take] at hjl
        rw [List.getElem?_take_of_lt (by omega)] at hj
        exact h1 j z hj (by omega)
      · intro z hz
        rw [← hb] at hz
        obtain ⟨j, hj⟩ := List.mem_iff_getElem?.1 hz
        rw [List.getElem?_drop] at hj
        exact h2 _ z hj (by omega)
    refine ⟨a ++ x :: b, by simp, ?_, ?_⟩
    · rw [hsplit, List.append_assoc]
      exact (St.move (fun ok => (hprops ok (hsrt ok)).2)).left a
    · intro ok
      have h1 := hprops ok (hsrt ok)
      exact sorted_insert (by rw [← hsplit]; exact hsrt ok) h1.1 h1.2

theorem insertLoop_spec {p q : List α} : ∀ (t s : List α), s ≠ [] → Srt w s →
    ∃ s', insertLoop w p.length t.length s.length (p ++ (s ++ (t ++ q))) = .ok (p ++ (s' ++ q)) ∧ St w (s ++ t) s' ∧ Srt w s' := by
  intro t
  induction t with
  | nil => intro s _ h; exact ⟨s, rfl, by rw [List.append_nil]; exact St.refl _, h⟩
  | cons x t ih =>
    intro s hs hsrt
    obtain ⟨s1, e1, hst1, hsrt1⟩ := insertOne_spec (w := w) (p := p) (q := t ++ q) (x := x) hs hsrt
    have hl : s1.length = s.length + 1 := by rw [← hst1.length]; simp
    have hs1 : s1 ≠ [] := by intro h; rw [h] at hl; simp at hl
    obtain ⟨s2, e2, hst2, hsrt2⟩ := ih s1 hs1 hsrt1
    refine ⟨s2, ?_, ?_, hsrt2⟩
    · rw [List.length_cons]
      unfold insertLoop
      rw [List.cons_append, e1, Res.ok_bind, ← hl, e2]
    · have := hst1.right t
      rw [List.append_assoc] at this
      exact this.trans hst2

end Verif.Sort
