import Verif.VClock.Spec
import Verif.ListUtil
/-! Helper lemmas for vector clocks. -/
namespace Verif.VClock
open Verif

abbrev Sorted (l : List (Int × Int)) : Prop := l.Pairwise (fun x y => x.1 < y.1)

/-- Component lookup on the raw list. -/
def look (l : List (Int × Int)) (n : Int) : Option Int := (l.find? (fun e => e.1 = n)).map (·.2)

theorem look_nil (n : Int) : look [] n = none := rfl

theorem look_cons (e : Int × Int) (l : List (Int × Int)) (n : Int) :
    look (e :: l) n = if e.1 = n then some e.2 else look l n := by
  unfold look
  rw [List.find?_cons]
  by_cases h : e.1 = n <;> simp [h]

theorem look_mem {l : List (Int × Int)} (hs : Sorted l) (n c : Int) : look l n = some c ↔ (n, c) ∈ l := by
  induction l with
  | nil => simp [look_nil]
  | cons e l ih =>
    rw [look_cons, List.mem_cons]
    have hs' := List.pairwise_cons.1 hs
    rw [← ih hs'.2]
    by_cases h : e.1 = n
    · rw [if_pos h]
      constructor
      · intro hh; left; cases e; simp at h hh; simp [h, hh]
      · rintro (hh | hh)
        · rw [← hh]
        · have := (ih hs'.2).1 hh
          have := hs'.1 _ this
          simp at this; omega
    · rw [if_neg h]
      constructor
      · intro hh; exact Or.inr hh
      · rintro (hh | hh)
        · rw [← hh] at h; simp at h
        · exact hh

theorem look_none {l : List (Int × Int)} (n : Int) (h : ∀ e ∈ l, e.1 ≠ n) : look l n = none := by
  unfold look
  rw [List.find?_eq_none.2]
  · rfl
  · intro e he; simpa using h e he

theorem comp_look (vc : VC) (n : Int) : comp vc n = (look vc.ids n).getD 0 := rfl

/-! ### comparison -/

theorem compareLoop_swap (a b : List (Int × Int)) : ∀ f s,
    compareLoop b a s f = match compareLoop a b f s with
      | .before => .after | .after => .before | r => r := by
  induction a generalizing b with
  | nil => intro f s; cases b <;> (unfold compareLoop; cases f <;> cases s <;> rfl)
  | cons e1 a ih =>
    intro f s
    cases b with
    | nil => unfold compareLoop; cases f <;> cases s <;> rfl
    | cons e2 b =>
      unfold compareLoop
      by_cases h : e1.1 = e2.1
      · by_cases h1 : e1.2 > e2.2
        · ifs; exact ih b true s
        · by_cases h2 : e1.2 < e2.2
          · ifs; exact ih b f true
          · ifs; exact ih b f s
      · rw [if_pos (by simpa using fun hh => h hh.symm), if_pos (by simpa using h)]

/-- Some component of `a` is bigger. -/
def Bigger (a b : List (Int × Int)) : Prop := ∃ p ∈ a.zip b, p.1.2 > p.2.2

theorem compareLoop_spec (a b : List (Int × Int)) : ∀ f s, a.map (·.1) = b.map (·.1) →
    ∃ f' s' : Bool, (f' = true ↔ f = true ∨ Bigger a b) ∧ (s' = true ↔ s = true ∨ Bigger b a) ∧
      compareLoop a b f s = (if f' && s' then .disjoint else if f' then .after else if s' then .before else .equal) := by
  induction a generalizing b with
  | nil =>
    intro f s h
    have : b = [] := by simpa using h.symm
    subst this
    exact ⟨f, s, by simp [Bigger], by simp [Bigger], by unfold compareLoop; rfl⟩
  | cons e1 a ih =>
    intro f s h
    cases b with
    | nil => simp at h
    | cons e2 b =>
      simp only [List.map_cons, List.cons.injEq] at h
      have hB1 : Bigger (e1 :: a) (e2 :: b) ↔ e1.2 > e2.2 ∨ Bigger a b := by simp [Bigger]
      have hB2 : Bigger (e2 :: b) (e1 :: a) ↔ e2.2 > e1.2 ∨ Bigger b a := by simp [Bigger]
      unfold compareLoop
      rw [if_neg (by simp [h.1])]
      by_cases h1 : e1.2 > e2.2
      · rw [if_pos h1]
        obtain ⟨f', s', p1, p2, p3⟩ := ih b true s h.2
        refine ⟨f', s', ?_, ?_, p3⟩
        · rw [p1, hB1]; simp [h1]
        · rw [p2, hB2]
          have : ¬ e2.2 > e1.2 := by omega
          simp [this]
      · rw [if_neg h1]
        by_cases h2 : e1.2 < e2.2
        · rw [if_pos h2]
          obtain ⟨f', s', p1, p2, p3⟩ := ih b f true h.2
          refine ⟨f', s', ?_, ?_, p3⟩
          · rw [p1, hB1]; simp [h1]
          · rw [p2, hB2]; simp [h2]
        · rw [if_neg h2]
          obtain ⟨f', s', p1, p2, p3⟩ := ih b f s h.2
          refine ⟨f', s', ?_, ?_, p3⟩
          · rw [p1, hB1]; simp [h1]
          · rw [p2, hB2]
            have : ¬ e2.2 > e1.2 := by omega
            simp [this]

theorem compareLoop_ids (a b : List (Int × Int)) : ∀ f s, a.length = b.length →
    compareLoop a b f s ≠ .incomparable → a.map (·.1) = b.map (·.1) := by
  induction a generalizing b with
  | nil => intro f s h _; have : b = [] := by simpa using h.symm
           subst this; rfl
  | cons e1 a ih =>
    intro f s h hc
    cases b with
    | nil => simp at h
    | cons e2 b =>
      unfold compareLoop at hc
      simp only [List.length_cons, Nat.add_right_cancel_iff] at h
      by_cases he : e1.1 = e2.1
      · rw [if_neg (by simp [he])] at hc
        rw [List.map_cons, List.map_cons, he]
        congr 1
        split at hc
        · exact ih b _ _ h hc
        · split at hc
          · exact ih b _ _ h hc
          · exact ih b _ _ h hc
      · rw [if_pos (by simpa using he)] at hc
        exact absurd rfl hc

theorem bigger_comp (a b : List (Int × Int)) (hk : a.map (·.1) = b.map (·.1))
    (ha : Sorted a) :
    Bigger a b ↔ ∃ n, (look a n).getD 0 > (look b n).getD 0 := by
  induction a generalizing b with
  | nil => have : b = [] := by simpa using hk.symm
           subst this; simp [Bigger, look_nil]
  | cons e1 a ih =>
    cases b with
    | nil => simp at hk
    | cons e2 b =>
      simp only [List.map_cons, List.cons.injEq] at hk
      have hs := List.pairwise_cons.1 ha
      have hB1 : Bigger (e1 :: a) (e2 :: b) ↔ e1.2 > e2.2 ∨ Bigger a b := by simp [Bigger]
      rw [hB1, ih b hk.2 hs.2]
      have hna : look a e1.1 = none := look_none _ (by
        intro e he h; have := hs.1 e he; omega)
      have hnb : look b e1.1 = none := look_none _ (by
        intro e he h
        have : e.1 ∈ b.map (·.1) := List.mem_map.2 ⟨e, he, rfl⟩
        rw [← hk.2] at this
        obtain ⟨e', he', h'⟩ := List.mem_map.1 this
        have := hs.1 e' he'; omega)
      constructor
      · rintro (h | ⟨n, h⟩)
        · exact ⟨e1.1, by rw [look_cons, look_cons, if_pos rfl, if_pos hk.1.symm]; exact h⟩
        · refine ⟨n, ?_⟩
          by_cases hn : e1.1 = n
          · subst hn; rw [hna, hnb] at h; simp at h
          · rw [look_cons, look_cons, if_neg hn, if_neg (by omega)]; exact h
      · rintro ⟨n, h⟩
        rw [look_cons, look_cons] at h
        by_cases hn : e1.1 = n
        · rw [if_pos hn, if_pos (by omega)] at h; exact Or.inl h
        · rw [if_neg hn, if_neg (by omega)] at h; exact Or.inr ⟨n, h⟩

/-! ### binary search -/

theorem bsearchLoop_spec {ids : List (Int × Int)} (hs : Sorted ids) (n : Int) :
    ∀ (first last : Int), 0 ≤ first → first ≤ last + 1 → last < ids.length →
      (∀ i : Nat, (i:Int) < first → ∀ h : i < ids.length, ids[i].1 < n) →
      (∀ i : Nat, last < i → ∀ h : i < ids.length, n < ids[i].1) →
      (∃ k : Nat, ∃ h : k < ids.length, ids[k].1 = n ∧ bsearchLoop ids n first last (first - 1) = .ok (k, true)) ∨
      (∃ k : Nat, k ≤ ids.length ∧ (∀ i : Nat, i < k → ∀ h : i < ids.length, ids[i].1 < n) ∧
        (∀ i : Nat, k ≤ i → ∀ h : i < ids.length, n < ids[i].1) ∧
        bsearchLoop ids n first last (first - 1) = .ok ((k:Int) - 1, false)) := by
  intro first last
  induction hd : (last - first + 1).toNat using Nat.strongRecOn generalizing first last with
  | _ d ih =>
    intro h0 h1 h2 hlo hhi
    rw [bsearchLoop]
    by_cases hle : first ≤ last
    · rw [dif_pos hle]
      have hm : (first + last).tdiv 2 = (first + last) / 2 := Int.tdiv_eq_ediv_of_nonneg (by omega)
      simp only [hm]
      generalize hmid : (first + last) / 2 = mid
      have hmid1 : first ≤ mid ∧ mid ≤ last := by omega
      rw [if_neg (by omega)]
      have hlt : mid.toNat < ids.length := by omega
      rw [List.getElem?_eq_getElem hlt]
      simp only
      by_cases he : ids[mid.toNat].1 = n
      · rw [if_pos he]
        left
        exact ⟨mid.toNat, hlt, he, by rw [Int.toNat_of_nonneg (by omega)]⟩
      · rw [if_neg he]
        by_cases hl : ids[mid.toNat].1 < n
        · rw [if_pos hl]
          have := ih ((last - (mid + 1) + 1).toNat) (by omega) (mid + 1) last rfl (by omega) (by omega) h2
            (by
              intro i hi h
              rcases Nat.lt_or_ge i mid.toNat with hc | hc
              · have := List.pairwise_iff_getElem.1 hs i mid.toNat h hlt hc
                omega
              · have : i = mid.toNat := by omega
                subst this; exact hl) hhi
          have e : mid + 1 - 1 = mid := by omega
          rw [e] at this; exact this
        · rw [if_neg hl]
          exact ih (((mid - 1) - first + 1).toNat) (by omega) first (mid - 1) rfl h0 (by omega) (by omega) hlo
            (by
              intro i hi h
              rcases Nat.lt_or_ge mid.toNat i with hc | hc
              · have := List.pairwise_iff_getElem.1 hs mid.toNat i hlt h hc
                omega
              · have : i = mid.toNat := by omega
                subst this; omega)
    · rw [dif_neg hle]
      right
      refine ⟨first.toNat, by omega, ?_, ?_, by rw [Int.toNat_of_nonneg h0]⟩
      · intro i hi h; exact hlo i (by omega) h
      · intro i hi h; exact hhi i (by omega) h

theorem bsearch_spec {ids : List (Int × Int)} (hs : Sorted ids) (n : Int) :
      (∃ k : Nat, ∃ h : k < ids.length, ids[k].1 = n ∧ bsearch ids n = .ok (k, true)) ∨
      (∃ k : Nat, k ≤ ids.length ∧ (∀ i : Nat, i < k → ∀ h : i < ids.length, ids[i].1 < n) ∧
        (∀ i : Nat, k ≤ i → ∀ h : i < ids.length, n < ids[i].1) ∧
        bsearch ids n = .ok ((k:Int) - 1, false)) :=
  bsearchLoop_spec hs n 0 (ids.length - 1) (by omega) (by omega) (by omega) (by intro i hi; omega)
    (by intro i hi h; omega)

/-! ### merge -/

/-- Merging one component into a sorted list. -/
def insMax : List (Int × Int) → Int → Int → List (Int × Int)
  | [], n, c => [(n, c)]
  | e :: t, n, c =>
    if e.1 < n then e :: insMax t n c
    else if e.1 = n then (e.1, max e.2 c) :: t
    else (n, c) :: e :: t

/-- Number of components below `n`. -/
def low (ids : List (Int × Int)) (n : Int) : Nat := (ids.takeWhile (fun e => e.1 < n)).length

theorem low_le (ids : List (Int × Int)) (n : Int) : low ids n ≤ ids.length := by
  induction ids with
  | nil => simp [low]
  | cons e t ih => unfold low at *; rw [List.takeWhile_cons]; split <;> simp <;> omega

theorem low_lt {ids : List (Int × Int)} {n : Int} {i : Nat} (h : i < low ids n) (hi : i < ids.length) :
    ids[i].1 < n := by
  induction ids generalizing i with
  | nil => simp at hi
  | cons e t ih =>
    unfold low at h
    rw [List.takeWhile_cons] at h
    split at h
    · rename_i hh
      cases i with
      | zero => simpa using hh
      | succ i => simp only [List.length_cons] at h hi; exact ih (i := i) (by unfold low; omega) (by omega)
    · simp at h

theorem low_at {ids : List (Int × Int)} {n : Int} (hi : low ids n < ids.length) :
    n ≤ ids[low ids n].1 := by
  induction ids with
  | nil => simp at hi
  | cons e t ih =>
    by_cases hh : e.1 < n
    · have e1 : low (e :: t) n = low t n + 1 := by simp [low, hh]
      have hi' : low t n < t.length := by rw [e1] at hi; simpa using hi
      have := ih hi'
      simpa [e1] using this
    · have e1 : low (e :: t) n = 0 := by simp [low, hh]
      have e2 : (e :: t)[low (e :: t) n] = e := by simp [e1]
      rw [e2]; omega

theorem low_unique {ids : List (Int × Int)} {n : Int} {k : Nat} (hk : k ≤ ids.length)
    (h1 : ∀ i : Nat, i < k → ∀ h : i < ids.length, ids[i].1 < n)
    (h2 : ∀ i : Nat, k ≤ i → ∀ h : i < ids.length, n < ids[i].1) : k = low ids n := by
  rcases Nat.lt_trichotomy k (low ids n) with h | h | h
  · have hl := low_le ids n
    have := low_lt h (by omega)
    have := h2 k (Nat.le_refl _) (by omega)
    omega
  · exact h
  · have := low_at (ids := ids) (n := n) (by omega)
    have := h1 _ h (by omega)
    omega

theorem scan_spec (vc : VC) (n : Int) : ∀ idx, idx ≤ low vc.ids n →
    (low vc.ids n < vc.ids.length ∨ vc.ids.length < vc.cap) → scan vc n idx = .ok (low vc.ids n) := by
  intro idx
  induction hd : low vc.ids n - idx using Nat.strongRecOn generalizing idx with
  | _ d ih =>
    intro h1 h2
    have hl := low_le vc.ids n
    rw [scan]
    rcases Nat.lt_or_ge idx (low vc.ids n) with hlt | hge
    · rw [dif_pos (by omega), if_pos (low_lt hlt (by omega))]
      exact ih (low vc.ids n - (idx + 1)) (by omega) (idx + 1) rfl (by omega) h2
    · have : idx = low vc.ids n := by omega
      subst this
      by_cases hb : low vc.ids n < vc.ids.length
      · have := low_at hb
        rw [dif_pos hb, if_neg (by omega)]
      · rw [dif_neg hb, if_pos (by omega)]

theorem insMax_low {ids : List (Int × Int)} (n c : Int) :
    insMax ids n c = ids.take (low ids n) ++
      match ids.drop (low ids n) with
      | [] => [(n, c)]
      | e :: t => if e.1 = n then (e.1, max e.2 c) :: t else (n, c) :: e :: t := by
  induction ids with
  | nil => rfl
  | cons e t ih =>
    unfold insMax
    by_cases h : e.1 < n
    · have : low (e :: t) n = low t n + 1 := by unfold low; rw [List.takeWhile_cons, if_pos (by simpa using h)]; rfl
      rw [if_pos h, this, List.take_succ_cons, List.drop_succ_cons, ih]; rfl
    · have : low (e :: t) n = 0 := by unfold low; rw [List.takeWhile_cons, if_neg (by simpa using h)]; rfl
      rw [if_neg h, this]; rfl

theorem addComponent_spec {vc : VC} (hs : Sorted vc.ids) (hcap : vc.ids.length ≤ vc.cap ∧ 0 < vc.cap) {n c : Int}
    (hc : 0 ≤ c ∧ c < 2^31) (hn : ∀ e ∈ vc.ids, e.1 ≠ n) :
    ∃ cap', vc.cap ≤ cap' ∧ vc.ids.length < cap' ∧
      addComponent vc n c = .ok (some ⟨vc.ids.take (low vc.ids n) ++ (n, c) :: vc.ids.drop (low vc.ids n), cap'⟩) := by
  have hw : wrap32 c = c := wrap32_of_in (by unfold InI32; omega)
  rcases bsearch_spec hs n with ⟨k, h, he, -⟩ | ⟨k, h1, h2, h3, h4⟩
  · exact absurd he (hn _ (List.getElem_mem h))
  · have hk := low_unique h1 h2 h3
    subst hk
    unfold addComponent
    simp only [h4, Res.ok_bind, hw]
    have e1 : (if c > 0 then c else 0) = c := by split <;> omega
    have e2 : ((low vc.ids n : Int) - 1 + 1).toNat = low vc.ids n := by omega
    simp only [e1, e2]
    refine ⟨if vc.ids.length = vc.cap then 2 * vc.ids.length else vc.cap, ?_, ?_, ?_⟩
    · split <;> omega
    · split <;> omega
    · rw [if_neg (by simp), if_pos (by split <;> omega)]; rfl

theorem updateOne_spec {vc : VC} (h : WF vc) {n c : Int} (hroom : vc.ids.length < vc.cap)
    (hc : 0 ≤ c ∧ c < 2^63) (hbig : (∀ e ∈ vc.ids, e.1 ≠ n) → c < 2^31) :
    ∃ cap', vc.cap ≤ cap' ∧ updateOne vc n c = .ok ⟨insMax vc.ids n c, cap'⟩ := by
  unfold updateOne
  have hl := low_le vc.ids n
  rw [scan_spec vc n 0 (by omega) (by omega), Res.ok_bind, insMax_low]
  by_cases hb : low vc.ids n < vc.ids.length
  · rw [List.getElem?_eq_getElem hb, List.drop_eq_getElem_cons hb]
    simp only
    by_cases he : vc.ids[low vc.ids n].1 = n
    · rw [if_pos he, if_pos he]
      refine ⟨vc.cap, Nat.le_refl _, ?_⟩
      by_cases hgt : c > vc.ids[low vc.ids n].2
      · rw [if_pos hgt, Int.max_eq_right (by omega)]
        simp only [Res.pure_eq, Res.ok.injEq, VC.mk.injEq, and_true]
        rw [List.set_eq_take_append_cons_drop, if_pos hb]
      · rw [if_neg hgt, Int.max_eq_left (by omega)]
        simp only [Res.pure_eq, Res.ok.injEq]
        have : vc.ids.take (low vc.ids n) ++ (vc.ids[low vc.ids n].1, vc.ids[low vc.ids n].2) :: vc.ids.drop (low vc.ids n + 1) = vc.ids := by
          have : (vc.ids[low vc.ids n].1, vc.ids[low vc.ids n].2) = vc.ids[low vc.ids n] := rfl
          rw [this, ← List.drop_eq_getElem_cons hb, List.take_append_drop]
        rw [this]
    · rw [if_neg he, if_neg he]
      have hn : ∀ e ∈ vc.ids, e.1 ≠ n := by
        intro e hm
        obtain ⟨i, hi, rfl⟩ := List.mem_iff_getElem.1 hm
        rcases Nat.lt_trichotomy i (low vc.ids n) with hc1 | hc1 | hc1
        · have := low_lt hc1 hi; omega
        · subst hc1; exact he
        · have := List.pairwise_iff_getElem.1 h.sorted _ i hb hi hc1
          have := low_at hb
          omega
      obtain ⟨cap', p1, p2, p3⟩ := addComponent_spec h.sorted h.cap ⟨hc.1, hbig hn⟩ hn
      rw [p3, Res.ok_bind]
      exact ⟨cap', p1, by rw [List.drop_eq_getElem_cons hb]; rfl⟩
  · have hd : vc.ids.drop (low vc.ids n) = [] := List.drop_eq_nil_of_le (by omega)
    rw [List.getElem?_eq_none (by omega), hd]
    simp only
    have hn : ∀ e ∈ vc.ids, e.1 ≠ n := by
      intro e hm
      obtain ⟨i, hi, rfl⟩ := List.mem_iff_getElem.1 hm
      have := low_lt (ids := vc.ids) (n := n) (i := i) (by omega) hi
      omega
    obtain ⟨cap', p1, p2, p3⟩ := addComponent_spec h.sorted h.cap ⟨hc.1, hbig hn⟩ hn
    rw [p3, Res.ok_bind]
    exact ⟨cap', p1, by rw [hd]; rfl⟩

theorem insMax_mem (ids : List (Int × Int)) (n c : Int) :
    ∀ e ∈ insMax ids n c, e.1 = n ∧ (e.2 = c ∨ e ∈ ids ∨ ∃ d, (n, d) ∈ ids ∧ e.2 = max d c) ∨ e ∈ ids := by
  induction ids with
  | nil => intro e he; simp [insMax] at he; left; simp [he]
  | cons x t ih =>
    intro e he
    unfold insMax at he
    split at he
    · rcases List.mem_cons.1 he with rfl | hm
      · right; exact List.mem_cons_self
      · rcases ih e hm with ⟨h1, h2⟩ | h1
        · left; refine ⟨h1, ?_⟩
          rcases h2 with h2 | h2 | ⟨d, h2, h3⟩
          · exact Or.inl h2
          · exact Or.inr (Or.inl (List.mem_cons_of_mem _ h2))
          · exact Or.inr (Or.inr ⟨d, List.mem_cons_of_mem _ h2, h3⟩)
        · right; exact List.mem_cons_of_mem _ h1
    · split at he
      · rename_i hx
        rcases List.mem_cons.1 he with rfl | hm
        · left; refine ⟨hx, Or.inr (Or.inr ⟨x.2, ?_, rfl⟩)⟩
          have : (n, x.2) = x := by rw [← hx]
          rw [this]; exact List.mem_cons_self
        · right; exact List.mem_cons_of_mem _ hm
      · rcases List.mem_cons.1 he with rfl | hm
        · left; exact ⟨rfl, Or.inl rfl⟩
        · right; exact hm

theorem insMax_sorted {ids : List (Int × Int)} (hs : Sorted ids) (n c : Int) : Sorted (insMax ids n c) := by
  induction ids with
  | nil => simp [insMax]
  | cons x t ih =>
    have hs' := List.pairwise_cons.1 hs
    unfold insMax
    split
    · refine List.pairwise_cons.2 ⟨?_, ih hs'.2⟩
      intro e he
      rcases insMax_mem t n c e he with ⟨h, -⟩ | h
      · omega
      · exact hs'.1 e h
    · split
      · exact List.pairwise_cons.2 ⟨fun e he => hs'.1 e he, hs'.2⟩
      · refine List.pairwise_cons.2 ⟨?_, hs⟩
        intro e he
        rcases List.mem_cons.1 he with rfl | hm
        · simp only; omega
        · have := hs'.1 e hm; simp only; omega

/-- Component-wise maximum of optional counters. -/
def omax : Option Int → Option Int → Option Int
  | some a, some b => some (max a b)
  | some a, none => some a
  | none, b => b

theorem look_insMax {ids : List (Int × Int)} (hs : Sorted ids) (n c m : Int) :
    look (insMax ids n c) m = if n = m then omax (look ids m) (some c) else look ids m := by
  induction ids with
  | nil => simp [insMax, look_cons, look_nil, omax]
  | cons x t ih =>
    have hs' := List.pairwise_cons.1 hs
    unfold insMax
    by_cases h1 : x.1 < n
    · rw [if_pos h1, look_cons, look_cons, ih hs'.2]
      by_cases hx : x.1 = m
      · rw [if_pos hx, if_pos hx, if_neg (by omega)]
      · rw [if_neg hx, if_neg hx]
    · rw [if_neg h1]
      by_cases h2 : x.1 = n
      · rw [if_pos h2, look_cons, look_cons]
        by_cases hm : n = m
        · rw [if_pos hm, if_pos (by simp only; omega), if_pos (by omega)]; rfl
        · rw [if_neg hm, if_neg (by simp only; omega), if_neg (by omega)]
      · rw [if_neg h2, look_cons]
        by_cases hm : n = m
        · have : look (x :: t) m = none := look_none _ (by
            intro e he hh
            rcases List.mem_cons.1 he with rfl | hmem
            · omega
            · have := hs'.1 e hmem; omega)
          rw [if_pos hm, if_pos hm, this]; rfl
        · rw [if_neg hm, if_neg hm]

/-- Merging all components. -/
def mergeAll : List (Int × Int) → List (Int × Int) → List (Int × Int)
  | ids, [] => ids
  | ids, e :: r => mergeAll (insMax ids e.1 e.2) r

theorem insMax_length (ids : List (Int × Int)) (n c : Int) : (insMax ids n c).length ≤ ids.length + 1 := by
  induction ids with
  | nil => simp [insMax]
  | cons x t ih => unfold insMax; split <;> (try split) <;> simp <;> omega

theorem update_spec : ∀ (src : List (Int × Int)) (vc : VC), WF vc → vc.ids.length + src.length ≤ vc.cap →
    (∀ e ∈ src, 0 ≤ e.2 ∧ e.2 < 2^63) → Sorted src →
    (∀ e ∈ src, (∀ x ∈ vc.ids, x.1 ≠ e.1) → e.2 < 2^31) →
    ∃ cap', vc.cap ≤ cap' ∧ update vc src = .ok ⟨mergeAll vc.ids src, cap'⟩ ∧
      WF ⟨mergeAll vc.ids src, cap'⟩ := by
  intro src
  induction src with
  | nil => intro vc h _ _ _ _; exact ⟨vc.cap, Nat.le_refl _, rfl, h⟩
  | cons e r ih =>
    intro vc h hcap hnn hso hbig
    simp only [List.length_cons] at hcap
    obtain ⟨cap1, p1, p2⟩ := updateOne_spec h (n := e.1) (c := e.2) (by omega)
      (hnn e List.mem_cons_self) (hbig e List.mem_cons_self)
    have hs' := List.pairwise_cons.1 hso
    have hlen := insMax_length vc.ids e.1 e.2
    have hwf1 : WF ⟨insMax vc.ids e.1 e.2, cap1⟩ := by
      refine ⟨insMax_sorted h.sorted _ _, ?_, ?_⟩
      · intro x hx
        rcases insMax_mem _ _ _ x hx with ⟨-, h2 | h2 | ⟨d, h2, h3⟩⟩ | h2
        · rw [h2]; exact hnn e List.mem_cons_self
        · exact h.nonneg x h2
        · have := h.nonneg _ h2
          have := hnn e List.mem_cons_self
          simp only at *
          omega
        · exact h.nonneg x h2
      · simp only; omega
    obtain ⟨cap2, q1, q2, q3⟩ := ih ⟨insMax vc.ids e.1 e.2, cap1⟩ hwf1 (by simp only; omega)
      (fun x hx => hnn x (List.mem_cons_of_mem _ hx)) hs'.2
      (by
        intro x hx hh
        apply hbig x (List.mem_cons_of_mem _ hx)
        intro y hy hyx
        have hly : look vc.ids x.1 = some y.2 := (look_mem h.sorted _ _).2 (by rw [← hyx]; exact hy)
        have hne : e.1 ≠ x.1 := by have := hs'.1 x hx; omega
        have := look_insMax h.sorted e.1 e.2 x.1
        rw [if_neg hne, hly] at this
        have := (look_mem (insMax_sorted h.sorted _ _) _ _).1 this
        exact hh _ this rfl)
    refine ⟨cap2, by simp only at q1; omega, ?_, q3⟩
    unfold update
    rw [p2, Res.ok_bind]
    exact q2

theorem look_mergeAll : ∀ (src ids : List (Int × Int)), Sorted ids → Sorted src → ∀ m,
    look (mergeAll ids src) m = omax (look ids m) (look src m) := by
  intro src
  induction src with
  | nil => intro ids _ _ m; rw [look_nil]; unfold mergeAll; cases look ids m <;> rfl
  | cons e r ih =>
    intro ids h1 h2 m
    have h2' := List.pairwise_cons.1 h2
    unfold mergeAll
    rw [ih _ (insMax_sorted h1 _ _) h2'.2, look_insMax h1, look_cons]
    by_cases he : e.1 = m
    · have : look r m = none := look_none _ (by intro x hx hh; have := h2'.1 x hx; omega)
      rw [if_pos he, if_pos he, this]
      cases look ids m <;> rfl
    · rw [if_neg he, if_neg he]

theorem sorted_look_ext {a b : List (Int × Int)} (ha : Sorted a) (hb : Sorted b)
    (h : ∀ n, look a n = look b n) : a = b := by
  apply sorted_ext (r := fun x y : Int × Int => x.1 < y.1) (fun _ => Int.lt_irrefl _)
    (fun _ _ h => by omega) ha hb
  rintro ⟨n, c⟩
  rw [← look_mem ha, ← look_mem hb, h]

theorem mergeAll_sorted : ∀ (src ids : List (Int × Int)), Sorted ids → Sorted (mergeAll ids src) := by
  intro src
  induction src with
  | nil => intro ids h; exact h
  | cons e r ih => intro ids h; exact ih _ (insMax_sorted h _ _)

end Verif.VClock
