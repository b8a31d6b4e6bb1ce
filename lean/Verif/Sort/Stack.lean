import Verif.Sort.Runs
import Verif.Sort.Merge
/-!
# The stack of runs

The array is the concatenation of the segments on the stack and the part not yet looked at. A stack
is determined by its segments (top first).
-/
namespace Verif.Sort
open Verif
variable {α : Type} {w : OrdW α}

def flat : List (List α) → List α
  | [] => []
  | s :: r => flat r ++ s

def stackOf : List (List α) → List Run
  | [] => []
  | s :: r => ⟨(flat r).length, s.length⟩ :: stackOf r

def AllSrt (w : OrdW α) (segs : List (List α)) : Prop := ∀ s ∈ segs, s ≠ [] ∧ Srt w s

theorem stackOf_length (segs : List (List α)) : (stackOf segs).length = segs.length := by
  induction segs with
  | nil => rfl
  | cons s r ih => simp [stackOf, ih]

/-- Lengths of the segments, top first. -/
abbrev lens (segs : List (List α)) : List Nat := segs.map List.length

/-- `A > B + C` for all adjacent runs. -/
def Trip : List Nat → Prop
  | c :: b :: a :: r => a > b + c ∧ Trip (b :: a :: r)
  | _ => True

def Top : List Nat → Prop
  | c :: b :: _ => b > c
  | _ => True

theorem Trip.tail {l : List Nat} (h : Trip l) : Trip l.tail := by
  match l, h with
  | [], _ => exact True.intro
  | [_], _ => exact True.intro
  | [_, _], _ => exact True.intro
  | _ :: _ :: _ :: _, h => exact h.2

/-- Lengths grow exponentially: twice every second run. -/
theorem trip_grow : ∀ n (l : List Nat) (c b : Nat), 0 < c → c < b → Trip (c :: b :: l) → l.length = 2 * n → 2 ^ n * c < (c :: b :: l).sum := by
  intro n
  induction n with
  | zero => intro l c b h1 h2 _ _; simp; omega
  | succ n ih =>
    intro l c b h1 h2 ht hl
    match l, hl, ht with
    | [], hl, _ => simp at hl
    | [_], hl, _ => simp at hl; omega
    | e :: f :: l, hl, ht =>
      simp only [List.length_cons] at hl
      have h3 : e > b + c := ht.1
      have h4 : f > e + b := ht.2.1
      have := ih l e f (by omega) (by omega) ht.2.2 (by omega)
      have h5 : 2 ^ (n + 1) * c ≤ 2 ^ n * e := by
        rw [Nat.pow_succ, Nat.mul_assoc]
        exact Nat.mul_le_mul_left _ (by omega)
      simp only [List.sum_cons] at this ⊢
      omega

theorem trip_take : ∀ n (l : List Nat), Trip l → Trip (l.take n) := by
  intro n
  induction n with
  | zero => intro l _; simp [Trip]
  | succ n ih =>
    intro l h
    match l, h with
    | [], _ => simp [Trip]
    | [a], _ => simp [Trip]
    | [a, b], _ =>
      cases n with
      | zero => simp [Trip]
      | succ n => simp [Trip]
    | c :: b :: a :: r, h =>
      match n, ih with
      | 0, _ => simp [Trip]
      | 1, _ => simp [Trip]
      | n + 2, ih => exact ⟨h.1, ih _ h.2⟩

theorem sum_take_le : ∀ (l : List Nat) n, (l.take n).sum ≤ l.sum := by
  intro l
  induction l with
  | nil => intro n; simp
  | cons a l ih =>
    intro n
    cases n with
    | zero => simp
    | succ n => simp only [List.take_succ_cons, List.sum_cons]; have := ih n; omega

theorem trip_bound {l : List Nat} (ht : Trip l) (htop : Top l) (hpos : ∀ x ∈ l, 0 < x) (hsum : l.sum < 2 ^ 63) : l.length < 128 := by
  by_contra hc
  have h1 : (l.take 128).length = 128 := by rw [List.length_take]; omega
  have h2 := trip_take 128 l ht
  have h3 := sum_take_le l 128
  match l, hc, htop, hpos with
  | [], hc, _, _ => simp at hc
  | [_], hc, _, _ => simp at hc
  | c :: b :: l, hc, htop, hpos =>
    rw [show (128 : Nat) = 126 + 1 + 1 from rfl, List.take_succ_cons, List.take_succ_cons] at h1 h2 h3
    simp only [List.length_cons] at h1
    have := trip_grow 63 (l.take 126) c b (hpos c (by simp)) htop h2 (by omega)
    have h4 : 0 < c := hpos c (by simp)
    omega

theorem lens_sum (segs : List (List α)) : (lens segs).sum = (flat segs).length := by
  induction segs with
  | nil => rfl
  | cons s r ih =>
    simp only [lens, List.map_cons, List.sum_cons, flat, List.length_append] at ih ⊢
    omega

theorem lens_pos {segs : List (List α)} (h : AllSrt w segs) : ∀ x ∈ lens segs, 0 < x := by
  intro x hx
  obtain ⟨s, hs, rfl⟩ := List.mem_map.1 hx
  exact List.length_pos_iff.2 (h s hs).1

theorem AllSrt.cons {s : List α} {segs : List (List α)} (h1 : s ≠ []) (h2 : Srt w s) (h : AllSrt w segs) : AllSrt w (s :: segs) := by
  intro t ht
  rcases List.mem_cons.1 ht with rfl | ht
  · exact ⟨h1, h2⟩
  · exact h t ht

theorem AllSrt.tail {s : List α} {segs : List (List α)} (h : AllSrt w (s :: segs)) : AllSrt w segs :=
  fun t ht => h t (List.mem_cons_of_mem _ ht)

/-- The top two runs are merged. -/
theorem merge_top {r : List (List α)} {x y q : List α} (h : AllSrt w (y :: x :: r)) :
    ∃ m, merge w (flat (y :: x :: r) ++ q) ⟨(flat r).length, x.length⟩ ⟨(flat (x :: r)).length, y.length⟩ = .ok (flat (m :: r) ++ q) ∧
      St w (flat (y :: x :: r)) (flat (m :: r)) ∧ AllSrt w (m :: r) ∧ m.length = x.length + y.length ∧
      (Run.join ⟨(flat r).length, x.length⟩ ⟨(flat (x :: r)).length, y.length⟩) :: stackOf r = stackOf (m :: r) := by
  obtain ⟨m, e, h1, h2⟩ := merge_spec (w := w) (p := flat r) (xs := x) (ys := y) (q := q) (b := ⟨(flat (x :: r)).length, y.length⟩) rfl rfl
    (h x (by simp)).2 (h y (by simp)).2
  have hl : m.length = x.length + y.length := by rw [← h1.length]; simp
  refine ⟨m, ?_, ?_, ?_, hl, ?_⟩
  · simp only [flat, List.append_assoc] at e ⊢
    exact e
  · simp only [flat, List.append_assoc]
    exact h1.left _
  · refine AllSrt.cons ?_ h2 h.tail.tail
    intro he
    have := List.length_pos_iff.2 (h x (by simp)).1
    rw [he] at hl; simp at hl; omega
  · simp only [stackOf, Run.join, hl]

/-- The second and third run are merged. -/
theorem merge_second {r : List (List α)} {x y z q : List α} (h : AllSrt w (z :: y :: x :: r)) :
    ∃ m, merge w (flat (z :: y :: x :: r) ++ q) ⟨(flat r).length, x.length⟩ ⟨(flat (x :: r)).length, y.length⟩ = .ok (flat (z :: m :: r) ++ q) ∧
      St w (flat (z :: y :: x :: r)) (flat (z :: m :: r)) ∧ AllSrt w (z :: m :: r) ∧ m.length = x.length + y.length ∧
      stackOf (z :: m :: r) =
        ⟨(flat (y :: x :: r)).length, z.length⟩ :: (Run.join ⟨(flat r).length, x.length⟩ ⟨(flat (x :: r)).length, y.length⟩) :: stackOf r := by
  obtain ⟨m, e, h1, h2, hl, hst⟩ := merge_top (w := w) (r := r) (x := x) (y := y) (q := z ++ q) h.tail
  refine ⟨m, ?_, ?_, AllSrt.cons (h z (by simp)).1 (h z (by simp)).2 h2, hl, ?_⟩
  · simp only [flat, List.append_assoc] at e ⊢
    exact e
  · exact h1.right z
  · rw [hst]
    have : (flat (m :: r)).length = (flat (y :: x :: r)).length := h1.length.symm
    show (⟨(flat (m :: r)).length, z.length⟩ :: stackOf (m :: r) : List Run) = _
    rw [this]

structure Good (w : OrdW α) (d0 d rest : List α) (segs : List (List α)) : Prop where
  arr : d = flat segs ++ rest
  st : St w d0 d
  srt : AllSrt w segs

theorem collapse_spec {d0 rest : List α} (size : Nat) : ∀ f (d : List α) (segs : List (List α)), segs.length < f → Good w d0 d rest segs →
    Trip (lens segs).tail.tail →
    ∃ d' segs', collapse w size f d (stackOf segs) = .ok (d', stackOf segs') ∧ Good w d0 d' rest segs' ∧ Trip (lens segs') ∧ Top (lens segs') ∧
      (flat segs').length = (flat segs).length ∧ segs'.length ≤ segs.length ∧ (checkInv (stackOf segs) = false → segs'.length < segs.length) := by
  intro f
  induction f with
  | zero => intro d segs h; omega
  | succ f ih =>
    intro d segs hf hg ht
    obtain ⟨rfl, hst, hsrt⟩ := hg
    match segs, hf, hst, hsrt, ht with
    | [], _, hst, hsrt, _ => exact ⟨_, [], rfl, ⟨rfl, hst, hsrt⟩, True.intro, True.intro, rfl, Nat.le_refl _, fun h => by simp [stackOf, checkInv] at h⟩
    | [s], _, hst, hsrt, _ => exact ⟨_, [s], rfl, ⟨rfl, hst, hsrt⟩, True.intro, True.intro, rfl, Nat.le_refl _, fun h => by simp [stackOf, checkInv] at h⟩
    | [y, x], _, hst, hsrt, _ =>
      obtain ⟨m, e, h1, h2, hl, hso⟩ := merge_top (w := w) (r := []) (x := x) (y := y) (q := rest) hsrt
      have hmerged : ∃ d' segs', (do
            let d ← merge w (flat [y, x] ++ rest) ⟨(flat ([] : List (List α))).length, x.length⟩ ⟨(flat [x]).length, y.length⟩
            return (d, [Run.join ⟨(flat ([] : List (List α))).length, x.length⟩ ⟨(flat [x]).length, y.length⟩]) : Res (List α × List Run)) = .ok (d', stackOf segs') ∧
          Good w d0 d' rest segs' ∧ Trip (lens segs') ∧ Top (lens segs') ∧
          (flat segs').length = (flat [y, x]).length ∧ segs'.length ≤ [y, x].length ∧ (checkInv (stackOf [y, x]) = false → segs'.length < [y, x].length) := by
        rw [e, Res.ok_bind]
        refine ⟨_, [m], ?_, ⟨rfl, hst.trans (h1.right rest), h2⟩, True.intro, True.intro, h1.length.symm, by simp, fun _ => by simp⟩
        rw [← hso]; rfl
      unfold collapse
      simp only [stackOf]
      by_cases hc1 : x.length + y.length = size
      · rw [if_pos hc1]; exact hmerged
      · rw [if_neg hc1]
        by_cases hc2 : x.length ≤ y.length
        · rw [if_pos hc2]; exact hmerged
        · rw [if_neg hc2]
          refine ⟨_, [y, x], rfl, ⟨rfl, hst, hsrt⟩, True.intro, ?_, rfl, Nat.le_refl _, ?_⟩
          · show x.length > y.length
            omega
          · intro h
            simp only [checkInv] at h
            simp at h
            omega
    | z :: y :: x :: r, hf, hst, hsrt, ht =>
      have hcont : ∀ (segs1 : List (List α)) (d1 : List α), segs1.length = r.length + 2 → Good w d0 d1 rest segs1 → Trip (lens segs1).tail.tail →
          (flat segs1).length = (flat (z :: y :: x :: r)).length →
          ∃ d' segs', collapse w size f d1 (stackOf segs1) = .ok (d', stackOf segs') ∧
          Good w d0 d' rest segs' ∧ Trip (lens segs') ∧ Top (lens segs') ∧
          (flat segs').length = (flat (z :: y :: x :: r)).length ∧ segs'.length ≤ (z :: y :: x :: r).length ∧
          (checkInv (stackOf (z :: y :: x :: r)) = false → segs'.length < (z :: y :: x :: r).length) := by
        intro segs1 d1 hl hg1 ht1 hfl
        simp only [List.length_cons] at hf ⊢
        obtain ⟨d', segs', e, h1, h2, h3, h4, h5, _⟩ := ih d1 segs1 (by omega) hg1 ht1
        exact ⟨d', segs', e, h1, h2, h3, h4.trans hfl, by omega, fun _ => by omega⟩
      unfold collapse
      simp only [stackOf]
      have htr : Trip (x.length :: lens r) := ht
      by_cases hc1 : (!(decide (x.length ≤ y.length + z.length) || abc ⟨(flat r).length, x.length⟩ ⟨(flat (x :: r)).length, y.length⟩ (stackOf r)) && !(decide (y.length ≤ z.length))) = true
      · rw [if_pos hc1]
        simp only [Bool.and_eq_true, Bool.not_eq_true', Bool.or_eq_false_iff, decide_eq_false_iff_not] at hc1
        obtain ⟨⟨ha, hb⟩, hc⟩ := hc1
        refine ⟨_, z :: y :: x :: r, rfl, ⟨rfl, hst, hsrt⟩, ?_, ?_, rfl, Nat.le_refl _, ?_⟩
        · refine ⟨by omega, ?_⟩
          match r, hb, htr with
          | [], _, _ => exact True.intro
          | a :: r, hb, htr =>
            refine ⟨?_, htr⟩
            simp only [abc, stackOf, decide_eq_false_iff_not] at hb
            omega
        · show y.length > z.length
          omega
        · intro h
          simp [checkInv] at h
          omega
      · rw [if_neg hc1]
        split
        · obtain ⟨m, e, h1, h2, hl, hso⟩ := merge_second (w := w) (r := r) (x := x) (y := y) (z := z) (q := rest) hsrt
          rw [e, Res.ok_bind, ← hso]
          exact hcont (z :: m :: r) _ rfl ⟨rfl, hst.trans (h1.right rest), h2⟩ htr.tail h1.length.symm
        · obtain ⟨m, e, h1, h2, hl, hso⟩ := merge_top (w := w) (r := x :: r) (x := y) (y := z) (q := rest) hsrt
          simp only [stackOf] at hso e
          rw [e, Res.ok_bind, hso]
          exact hcont (m :: x :: r) _ rfl ⟨rfl, hst.trans (h1.right rest), h2⟩ htr.tail h1.length.symm

theorem finish_spec {d0 rest : List α} : ∀ f (d : List α) (segs : List (List α)), segs.length < f → segs ≠ [] → Good w d0 d rest segs →
    ∃ m, finish w f d (stackOf segs) = .ok (m ++ rest, stackOf [m]) ∧ St w d0 (m ++ rest) ∧ Srt w m := by
  intro f
  induction f with
  | zero => intro d segs h; omega
  | succ f ih =>
    intro d segs hf hne hg
    obtain ⟨rfl, hst, hsrt⟩ := hg
    match segs, hf, hne, hst, hsrt with
    | [], _, hne, _, _ => exact absurd rfl hne
    | [s], _, _, hst, hsrt =>
      simp only [flat, List.nil_append] at hst
      exact ⟨s, by unfold finish; simp [stackOf, flat], hst, (hsrt s (by simp)).2⟩
    | y :: x :: r, hf, _, hst, hsrt =>
      obtain ⟨m, e, h1, h2, hl, hso⟩ := merge_top (w := w) (r := r) (x := x) (y := y) (q := rest) hsrt
      unfold finish
      simp only [stackOf]
      rw [e, Res.ok_bind, hso]
      exact ih _ (m :: r) (by simp at hf ⊢; omega) (by simp) ⟨rfl, hst.trans (h1.right rest), h2⟩

/-- Every run pushed is non-empty; the last push completes the sort. -/
theorem pushNext_spec {d0 rest : List α} {mr : Nat} {s : State α} {segs : List (List α)} (hg : Good w d0 s.d rest segs) (hs : s.stack = stackOf segs)
    (hcur : s.curr = (flat segs).length) (hr : rest ≠ []) (hl : segs.length < 128) :
    ∃ s', pushNext w s.d.length mr s = .ok s' ∧
      ((s'.done = true ∧ St w d0 s'.d ∧ Srt w s'.d) ∨
       (s'.done = false ∧ ∃ x rest', Good w d0 s'.d rest' (x :: segs) ∧ s'.stack = stackOf (x :: segs) ∧ s'.curr = (flat (x :: segs)).length ∧
          rest' ≠ [] ∧ rest'.length < rest.length)) := by
  obtain ⟨harr, hst, hsrt⟩ := hg
  unfold pushNext
  obtain ⟨r1, r1', q1, hrest, hr1, e1, hst1, hsrt1⟩ := countRun_spec (w := w) (p := flat segs) hr
  rw [harr, hcur, e1, Res.ok_bind]
  simp only
  have hl1 : r1'.length = r1.length := hst1.length.symm
  have hr1' : r1' ≠ [] := by
    intro h; rw [h] at hl1
    exact hr1 (List.length_eq_zero_iff.1 hl1.symm)
  obtain ⟨x, q, e2, hx, hsrtx, hstx⟩ := extend_spec (w := w) (p := flat segs) (q := q1) mr hr1' hsrt1
  have hlen : (flat segs ++ (r1' ++ q1)).length = (flat segs ++ rest).length := by rw [hrest]; simp; omega
  rw [hlen, hl1] at e2
  rw [e2, Res.ok_bind]
  simp only
  have hpush : push s.stack ⟨(flat segs).length, x.length⟩ = .ok (stackOf (x :: segs)) := by
    unfold push
    rw [hs, stackOf_length, if_pos (show segs.length < stackSize from hl)]; rfl
  rw [hpush, Res.ok_bind]
  have hgood : Good w d0 (flat segs ++ (x ++ q)) q (x :: segs) := by
    refine ⟨by simp [flat], ?_, AllSrt.cons hx hsrtx hsrt⟩
    rw [harr, hrest] at hst
    exact hst.trans (((hst1.right q1).trans hstx).left _)
  have hql : x.length + q.length = rest.length := by
    have := hstx.length
    simp only [List.length_append] at this
    rw [hrest, List.length_append]; omega
  have hxp := List.length_pos_iff.2 hx
  by_cases hc : (flat segs).length + x.length = (flat segs ++ rest).length
  · rw [if_pos hc]
    rw [List.length_append] at hc
    have hq : q = [] := List.length_eq_zero_iff.1 (by omega)
    subst hq
    obtain ⟨m, e3, hst3, hsrt3⟩ := finish_spec (w := w) ((stackOf (x :: segs)).length + 1) _ (x :: segs) (by rw [stackOf_length]; omega) (by simp) hgood
    rw [e3, Res.ok_bind]
    refine ⟨_, rfl, Or.inl ⟨rfl, hst3, ?_⟩⟩
    show Srt w (m ++ [])
    rw [List.append_nil]; exact hsrt3
  · rw [if_neg hc]
    rw [List.length_append] at hc
    refine ⟨_, rfl, Or.inr ⟨rfl, x, q, hgood, rfl, by simp [flat], ?_, by omega⟩⟩
    intro h
    rw [h] at hql; simp at hql; omega

theorem mainLoop_spec {d0 : List α} {mr size : Nat} (hsz : size = d0.length) (hbound : d0.length < 2 ^ 63) : ∀ f (s : State α) (rest : List α) (segs : List (List α)),
    Good w d0 s.d rest segs → s.stack = stackOf segs → s.curr = (flat segs).length → rest ≠ [] → Trip (lens segs).tail →
    2 * rest.length + segs.length < f → ∃ r, mainLoop w size mr f s = .ok r ∧ St w d0 r ∧ Srt w r := by
  intro f
  induction f with
  | zero => intro s rest segs _ _ _ _ _ h; omega
  | succ f ih =>
    intro s rest segs hg hs hcur hr ht hf
    unfold mainLoop
    by_cases hc : checkInv s.stack = false
    · rw [if_pos hc, hs, stackOf_length]
      obtain ⟨d', segs', e, h1, h2, h3, h4, h5, h6⟩ := collapse_spec (w := w) (d0 := d0) (rest := rest) size (segs.length + 1) s.d segs (by omega) hg ht.tail
      rw [e, Res.ok_bind]
      have := h6 (by rw [← hs]; exact hc)
      exact ih _ rest segs' h1 rfl (hcur.trans h4.symm) hr h2.tail (by omega)
    · rw [if_neg hc]
      have hfull : Trip (lens segs) ∧ Top (lens segs) := by
        rw [hs] at hc
        match segs, hc, ht with
        | [], _, _ => exact ⟨True.intro, True.intro⟩
        | [_], _, _ => exact ⟨True.intro, True.intro⟩
        | [y, x], hc, _ =>
          simp [stackOf, checkInv] at hc
          exact ⟨True.intro, hc⟩
        | z :: y :: x :: r, hc, ht =>
          simp [stackOf, checkInv] at hc
          exact ⟨⟨hc.1, ht⟩, hc.2⟩
      have hdl : s.d.length = d0.length := hg.st.length.symm
      have hb : segs.length < 128 := by
        have := trip_bound hfull.1 hfull.2 (lens_pos hg.srt) (by
          rw [lens_sum]
          have := hg.arr
          rw [this, List.length_append] at hdl
          omega)
        simpa using this
      obtain ⟨s', e, h⟩ := pushNext_spec (mr := mr) hg hs hcur hr hb
      rw [hdl, ← hsz] at e
      rw [e, Res.ok_bind]
      rcases h with ⟨hd, h1, h2⟩ | ⟨hd, x, rest', h1, h2, h3, h4, h5⟩
      · rw [if_pos hd]; exact ⟨_, rfl, h1, h2⟩
      · rw [hd]
        exact ih s' rest' (x :: segs) h1 h2 h3 h4 hfull.1 (by simp; omega)

theorem start_spec {d0 : List α} {mr size : Nat} (hsz : size = d0.length) (hbound : d0.length < 2 ^ 63) : ∀ n (s : State α) (rest : List α) (segs : List (List α)),
    Good w d0 s.d rest segs → s.stack = stackOf segs → s.curr = (flat segs).length → rest ≠ [] → n + segs.length = 3 →
    ∃ r, start w size mr n s = .ok r ∧ St w d0 r ∧ Srt w r := by
  intro n
  induction n with
  | zero =>
    intro s rest segs hg hs hcur hr hn
    unfold start
    have hrl : rest.length ≤ size := by
      have h1 := hg.st.length
      rw [hg.arr, List.length_append] at h1
      omega
    refine mainLoop_spec hsz hbound _ s rest segs hg hs hcur hr ?_ (by omega)
    match segs, hn with
    | [_, _, _], _ => exact True.intro
  | succ n ih =>
    intro s rest segs hg hs hcur hr hn
    unfold start
    have hdl : s.d.length = d0.length := hg.st.length.symm
    obtain ⟨s', e, h⟩ := pushNext_spec (mr := mr) hg hs hcur hr (by omega)
    rw [hdl, ← hsz] at e
    rw [e, Res.ok_bind]
    rcases h with ⟨hd, h1, h2⟩ | ⟨hd, x, rest', h1, h2, h3, h4, h5⟩
    · rw [if_pos hd]; exact ⟨_, rfl, h1, h2⟩
    · rw [hd]
      exact ih s' rest' (x :: segs) h1 h2 h3 h4 (by simp; omega)

theorem timSort_spec (d : List α) (hb : d.length < 2 ^ 63) : ∃ r, timSort w d = .ok r ∧ St w d r ∧ Srt w r := by
  unfold timSort
  simp only
  by_cases h1 : d.length ≤ 1
  · rw [if_pos h1]; exact ⟨d, rfl, St.refl _, srt_short h1⟩
  · rw [if_neg h1]
    by_cases h2 : d.length < 64
    · rw [if_pos h2]; exact binSort_spec d
    · rw [if_neg h2]
      refine start_spec rfl hb 3 _ d [] ⟨rfl, St.refl _, fun s hs => by simp at hs⟩ rfl rfl ?_ rfl
      intro h; rw [h] at h1; simp at h1

end Verif.Sort
