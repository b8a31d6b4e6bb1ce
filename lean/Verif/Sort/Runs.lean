import Verif.Sort.Lemmas
/-!
# Finding runs
-/
namespace Verif.Sort
open Verif
variable {α : Type} {w : OrdW α}

theorem srt_short {s : List α} (h : s.length ≤ 1) : Srt w s := by
  intro _
  match s, h with
  | [], _ => exact List.Pairwise.nil
  | [x], _ => exact List.pairwise_singleton _ _

theorem binSort_spec (d : List α) : ∃ r, binSort w d d.length = .ok r ∧ St w d r ∧ Srt w r := by
  unfold binSort
  by_cases h : d.length ≤ 1
  · rw [if_pos h]; exact ⟨d, rfl, St.refl _, srt_short h⟩
  · rw [if_neg h]
    match d, h with
    | [], h => simp at h
    | x :: t, _ =>
      obtain ⟨r, e, h1, h2⟩ := insertLoop_spec (w := w) (p := []) (q := []) t [x] (by simp) (srt_short (by simp))
      simp only [List.append_nil, List.nil_append, List.length_nil, List.length_cons, List.cons_append] at e h1
      exact ⟨r, by simpa using e, h1, h2⟩

/-! ## Reversal -/

theorem swap_spec {a m b : List α} {x y : α} {i j : Nat} (hi : i = a.length) (hj : j = a.length + 1 + m.length) :
    swap (a ++ x :: (m ++ y :: b)) i j = .ok (a ++ y :: (m ++ x :: b)) := by
  unfold swap
  rw [rd_mid hi, Res.ok_bind, show a ++ x :: (m ++ y :: b) = (a ++ x :: m) ++ y :: b by simp,
    rd_mid (by simp; omega), Res.ok_bind, show (a ++ x :: m) ++ y :: b = a ++ x :: (m ++ y :: b) by simp,
    wr_mid hi, Res.ok_bind, show a ++ y :: (m ++ y :: b) = (a ++ y :: m) ++ y :: b by simp, wr_mid (by simp; omega)]
  simp

theorem reverseLoop_spec : ∀ f (p s q : List α) (i j : Nat), s.length < f → i = p.length → j = p.length + s.length - 1 →
    reverseLoop (p ++ (s ++ q)) f i j = .ok (p ++ (s.reverse ++ q)) := by
  intro f
  induction f with
  | zero => intro p s q i j h; omega
  | succ f ih =>
    intro p s q i j h hi hj
    unfold reverseLoop
    by_cases hs : s.length ≤ 1
    · rw [if_pos (by omega)]
      match s, hs with
      | [], _ => rfl
      | [x], _ => rfl
    · rw [if_neg (by omega)]
      match s, hs with
      | [], hs => simp at hs
      | x :: t, hs =>
        have ht : t ≠ [] := by intro h; rw [h] at hs; simp at hs
        obtain ⟨m, y, rfl⟩ : ∃ m y, t = m ++ [y] := ⟨t.dropLast, t.getLast ht, (List.dropLast_concat_getLast ht).symm⟩
        simp only [List.length_cons, List.length_append, List.length_nil] at h hj
        rw [show p ++ ((x :: (m ++ [y])) ++ q) = p ++ x :: (m ++ y :: q) by simp, swap_spec hi (by omega), Res.ok_bind,
          show p ++ y :: (m ++ x :: q) = (p ++ [y]) ++ (m ++ x :: q) by simp,
          ih (p ++ [y]) m (x :: q) (i + 1) (j - 1) (by omega) (by simp; omega) (by simp; omega)]
        simp

/-! ## Runs -/

def Chain (R : α → α → Prop) (d : List α) (a b : Nat) : Prop :=
  ∀ (i : Nat) (x y : α), a ≤ i → i + 1 < b → d[i]? = some x → d[i + 1]? = some y → R x y

theorem Chain.snoc {R : α → α → Prop} {d : List α} {a b : Nat} {x y : α} (h : Chain R d a b) (hx : d[b - 1]? = some x) (hy : d[b]? = some y)
    (hb : 1 ≤ b) (hr : R x y) : Chain R d a (b + 1) := by
  intro i u v h1 h2 h3 h4
  by_cases hc : i + 1 < b
  · exact h i u v h1 hc h3 h4
  · have : i = b - 1 := by omega
    subst this
    rw [Nat.sub_add_cancel hb] at h4
    rw [hx] at h3; rw [hy] at h4
    rw [← Option.some.inj h3, ← Option.some.inj h4]
    exact hr

theorem chain_pairwise {R : α → α → Prop} (tr : ∀ x y z, R x y → R y z → R x z) : ∀ (s : List α),
    (∀ (i : Nat) (x y : α), s[i]? = some x → s[i + 1]? = some y → R x y) → s.Pairwise R := by
  intro s
  induction s with
  | nil => intro _; exact List.Pairwise.nil
  | cons x s ih =>
    intro h
    have hp := ih (fun i u v h1 h2 => h (i + 1) u v h1 h2)
    refine List.pairwise_cons.2 ⟨?_, hp⟩
    match s, h, hp with
    | [], _, _ => intro y hy; simp at hy
    | z :: s, h, hp =>
      have hxz := h 0 x z rfl rfl
      intro y hy
      rcases List.mem_cons.1 hy with rfl | hy
      · exact hxz
      · exact tr _ _ _ hxz ((List.pairwise_cons.1 hp).1 y hy)

theorem chain_seg {R : α → α → Prop} {p s q : List α} (h : Chain R (p ++ (s ++ q)) p.length (p.length + s.length)) :
    ∀ (i : Nat) (x y : α), s[i]? = some x → s[i + 1]? = some y → R x y := by
  intro i x y hx hy
  have h1 := (List.getElem?_eq_some_iff.1 hx).1
  have h2 := (List.getElem?_eq_some_iff.1 hy).1
  rw [← List.append_assoc] at h
  refine h (p.length + i) x y (by omega) (by omega) ?_ ?_
  · rw [get_mid rfl h1]; exact hx
  · rw [get_mid (j := i + 1) (by omega) h2]; exact hy

theorem incLoop_spec {d : List α} {a : Nat} : ∀ f curr, 1 ≤ curr → curr + 1 ≤ d.length → d.length - curr < f + 1 →
    (w.Ok → Chain (Le w) d a curr) → ∃ c, incLoop w d d.length f curr = .ok c ∧ curr ≤ c ∧ c + 1 ≤ d.length ∧ (w.Ok → Chain (Le w) d a c) := by
  intro f
  induction f with
  | zero => intro curr h1 h2 h3; omega
  | succ f ih =>
    intro curr h1 h2 h3 hch
    unfold incLoop
    by_cases hc : curr = d.length - 1
    · rw [if_pos hc]; exact ⟨curr, rfl, Nat.le_refl _, h2, hch⟩
    · rw [if_neg hc]
      obtain ⟨x, hx⟩ : ∃ y, d[curr - 1]? = some y := ⟨d[curr - 1]'(by omega), List.getElem?_eq_getElem (by omega)⟩
      obtain ⟨y, hy⟩ : ∃ y, d[curr]? = some y := ⟨d[curr]'(by omega), List.getElem?_eq_getElem (by omega)⟩
      rw [rd_of hx, Res.ok_bind, rd_of hy, Res.ok_bind]
      by_cases hv : cmp w x y > 0
      · rw [if_pos hv]; exact ⟨curr, rfl, Nat.le_refl _, h2, hch⟩
      · rw [if_neg hv]
        obtain ⟨c, e, h4, h5, h6⟩ := ih (curr + 1) (by omega) (by omega) (by omega)
          (fun ok => (hch ok).snoc hx hy h1 ((cmp_le ok).1 (by omega)))
        exact ⟨c, e, by omega, h5, h6⟩

theorem decLoop_spec {d : List α} {a : Nat} : ∀ f curr, 1 ≤ curr → curr + 1 ≤ d.length → d.length - curr < f + 1 →
    (w.Ok → Chain (fun x y => w.lt y x = true) d a curr) →
    ∃ c, decLoop w d d.length f curr = .ok c ∧ curr ≤ c ∧ c + 1 ≤ d.length ∧ (w.Ok → Chain (fun x y => w.lt y x = true) d a c) := by
  intro f
  induction f with
  | zero => intro curr h1 h2 h3; omega
  | succ f ih =>
    intro curr h1 h2 h3 hch
    unfold decLoop
    by_cases hc : curr = d.length - 1
    · rw [if_pos hc]; exact ⟨curr, rfl, Nat.le_refl _, h2, hch⟩
    · rw [if_neg hc]
      obtain ⟨x, hx⟩ : ∃ y, d[curr - 1]? = some y := ⟨d[curr - 1]'(by omega), List.getElem?_eq_getElem (by omega)⟩
      obtain ⟨y, hy⟩ : ∃ y, d[curr]? = some y := ⟨d[curr]'(by omega), List.getElem?_eq_getElem (by omega)⟩
      rw [rd_of hx, Res.ok_bind, rd_of hy, Res.ok_bind]
      by_cases hv : cmp w x y ≤ 0
      · rw [if_pos hv]; exact ⟨curr, rfl, Nat.le_refl _, h2, hch⟩
      · rw [if_neg hv]
        obtain ⟨c, e, h4, h5, h6⟩ := ih (curr + 1) (by omega) (by omega) (by omega)
          (fun ok => (hch ok).snoc hx hy h1 ((cmp_pos ok).1 (by omega)))
        exact ⟨c, e, by omega, h5, h6⟩

theorem lt_trans (ok : w.Ok) {x y z : α} (h1 : w.lt x y = true) (h2 : w.lt y z = true) : w.lt x z = true :=
  lt_of_lt_of_le ok h1 (Or.inl h2)

theorem pairwise_rev {s : List α} (h : w.Ok → s.Pairwise (fun x y => w.lt y x = true)) : Srt w s.reverse := by
  intro ok
  unfold Sorted
  rw [List.pairwise_reverse]
  exact (h ok).imp (fun h => Or.inl h)

/-- Two-element chains. -/
theorem chain_two {R : α → α → Prop} {d : List α} {a : Nat} {x y : α} (hx : d[a]? = some x) (hy : d[a + 1]? = some y) (hr : R x y) :
    Chain R d a (a + 2) := by
  intro i u v h1 h2 h3 h4
  have : i = a := by omega
  subst this
  rw [hx] at h3; rw [hy] at h4
  rw [← Option.some.inj h3, ← Option.some.inj h4]
  exact hr

theorem countRun_spec {p rest : List α} (hr : rest ≠ []) :
    ∃ s s' q, rest = s ++ q ∧ s ≠ [] ∧ countRun w (p ++ rest) p.length (p ++ rest).length = .ok (s.length, p ++ (s' ++ q)) ∧ St w s s' ∧ Srt w s' := by
  unfold countRun
  match rest, hr with
  | [x], _ =>
    rw [if_pos (by simp)]
    exact ⟨[x], [x], [], rfl, by simp, rfl, St.refl _, srt_short (by simp)⟩
  | [x, y], _ =>
    rw [if_neg (by simp), if_pos (by simp), show p ++ [x, y] = p ++ x :: [y] from rfl, rd_mid (by simp), Res.ok_bind,
      show p ++ x :: [y] = (p ++ [x]) ++ y :: [] by simp, rd_mid (by simp), Res.ok_bind]
    by_cases hv : cmp w x y > 0
    · rw [if_pos hv, show (p ++ [x]) ++ y :: [] = p ++ x :: ([] ++ y :: []) by simp, swap_spec (by simp) (by simp), Res.ok_bind]
      have hp : w.Ok → [x, y].Pairwise (fun x y => w.lt y x = true) := by
        intro ok
        simpa using (cmp_pos ok).1 hv
      exact ⟨[x, y], [y, x], [], rfl, by simp, rfl, St.rev hp, pairwise_rev hp⟩
    · rw [if_neg hv]
      refine ⟨[x, y], [x, y], [], rfl, by simp, by simp [pure], St.refl _, fun ok => ?_⟩
      unfold Sorted
      have h : w.lt x y = true ∨ w.eq x y = true := (cmp_le ok).1 (by omega)
      simpa using h
  | x :: y :: z :: rest, _ =>
    generalize hR : x :: y :: z :: rest = R
    have hRl : R.length = rest.length + 3 := by rw [← hR]; simp
    have hx : (p ++ R)[p.length]? = some x := by
      rw [← hR, List.getElem?_append_right (Nat.le_refl _), Nat.sub_self]; rfl
    have hy : (p ++ R)[p.length + 1]? = some y := by
      rw [← hR, List.getElem?_append_right (by omega), Nat.add_sub_cancel_left]; rfl
    have hdl : (p ++ R).length = p.length + R.length := List.length_append
    rw [if_neg (by omega), if_neg (by omega), rd_of hx, Res.ok_bind, rd_of hy, Res.ok_bind]
    by_cases hv : cmp w x y ≤ 0
    · rw [if_pos hv]
      obtain ⟨c, e, h1, h2, h3⟩ := incLoop_spec (w := w) (d := p ++ R) (a := p.length) (p ++ R).length (p.length + 2) (by omega) (by omega) (by omega)
        (fun ok => chain_two hx hy ((cmp_le ok).1 hv))
      rw [e, Res.ok_bind]
      have hsl : (R.take (c - p.length)).length = c - p.length := by rw [List.length_take]; omega
      refine ⟨R.take (c - p.length), R.take (c - p.length), R.drop (c - p.length), (List.take_append_drop _ _).symm, ?_, ?_, St.refl _, ?_⟩
      · intro h; rw [h] at hsl; simp at hsl; omega
      · rw [List.take_append_drop, hsl]; rfl
      · intro ok
        refine chain_pairwise (R := Le w) (fun _ _ _ => le_trans ok) _ (chain_seg (p := p) (q := R.drop (c - p.length)) ?_)
        rw [List.take_append_drop, hsl, show p.length + (c - p.length) = c by omega]
        exact h3 ok
    · rw [if_neg hv]
      obtain ⟨c, e, h1, h2, h3⟩ := decLoop_spec (w := w) (d := p ++ R) (a := p.length) (p ++ R).length (p.length + 2) (by omega) (by omega) (by omega)
        (fun ok => chain_two hx hy ((cmp_pos ok).1 (by omega)))
      rw [e, Res.ok_bind]
      have hsl : (R.take (c - p.length)).length = c - p.length := by rw [List.length_take]; omega
      have hrev := reverseLoop_spec (p ++ R).length p (R.take (c - p.length)) (R.drop (c - p.length)) p.length (c - 1) (by omega) rfl (by omega)
      rw [List.take_append_drop] at hrev
      rw [hrev, Res.ok_bind]
      have hp : w.Ok → (R.take (c - p.length)).Pairwise (fun x y => w.lt y x = true) := by
        intro ok
        refine chain_pairwise (R := fun x y => w.lt y x = true) (fun _ _ _ h1 h2 => lt_trans ok h2 h1) _ (chain_seg (p := p) (q := R.drop (c - p.length)) ?_)
        rw [List.take_append_drop, hsl, show p.length + (c - p.length) = c by omega]
        exact h3 ok
      refine ⟨R.take (c - p.length), (R.take (c - p.length)).reverse, R.drop (c - p.length), (List.take_append_drop _ _).symm, ?_, ?_, St.rev hp, pairwise_rev hp⟩
      · intro h; rw [h] at hsl; simp at hsl; omega
      · rw [hsl]; rfl

theorem extend_spec {p s q : List α} (mr : Nat) (hs : s ≠ []) (hsrt : Srt w s) :
    ∃ s' q', extend w (p ++ (s ++ q)).length mr p.length s.length (p ++ (s ++ q)) = .ok (s'.length, p ++ (s' ++ q')) ∧ s' ≠ [] ∧ Srt w s' ∧
      St w (s ++ q) (s' ++ q') := by
  unfold extend
  simp only
  have hrun : (if mr > (p ++ (s ++ q)).length - p.length then (p ++ (s ++ q)).length - p.length else mr) ≤ s.length + q.length := by
    have : (p ++ (s ++ q)).length = p.length + (s.length + q.length) := by simp
    split <;> omega
  generalize (if mr > (p ++ (s ++ q)).length - p.length then (p ++ (s ++ q)).length - p.length else mr) = run at hrun
  by_cases h : run > s.length
  · rw [if_pos h]
    have htl : (q.take (run - s.length)).length = run - s.length := by rw [List.length_take]; omega
    obtain ⟨s', e, h1, h2⟩ := insertLoop_spec (w := w) (p := p) (q := q.drop (run - s.length)) (q.take (run - s.length)) s hs hsrt
    rw [List.take_append_drop, htl] at e
    rw [e, Res.ok_bind]
    have hl := h1.length
    rw [List.length_append, htl] at hl
    have hpos := List.length_pos_iff.2 hs
    refine ⟨s', q.drop (run - s.length), ?_, ?_, h2, ?_⟩
    · rw [show run = s'.length by omega]; rfl
    · intro h; rw [h] at hl; simp at hl; omega
    · have := h1.right (q.drop (run - s.length))
      rw [List.append_assoc, List.take_append_drop] at this
      exact this
  · rw [if_neg h]
    exact ⟨s, q, rfl, hs, hsrt, St.refl _⟩

end Verif.Sort
