import Verif.Mro.Spec

/-! `merge` computes a linear order exactly when there is one. -/
namespace Verif.Mro
open Verif.Ty

theorem mem_headTails {lists : List (List Entry)} {h : Entry} {t : List Entry} :
    (h, t) ∈ headTails lists ↔ (h :: t) ∈ lists := by
  induction lists with
  | nil => simp [headTails]
  | cons l ls ih =>
    cases l with
    | nil => simp [headTails, ih]
    | cons a as => simp [headTails, ih]

theorem headTails_nil {lists : List (List Entry)} :
    headTails lists = [] ↔ ∀ l ∈ lists, l = [] := by
  induction lists with
  | nil => simp [headTails]
  | cons l ls ih =>
    cases l with
    | nil => simp [headTails, ih]
    | cons a as => simp [headTails]

theorem absent_iff {h : Entry} {us : List Entry} :
    absent h us = true ↔ h.con.name ∉ us.map (fun e => e.con.name) := by
  simp [absent]

theorem firstGood_some {tails : List (List Entry)} {hs : List Entry} {h : Entry}
    (e : firstGood tails hs = some h) :
    h ∈ hs ∧ ∀ t ∈ tails, absent h t = true := by
  induction hs with
  | nil => simp [firstGood] at e
  | cons a as ih =>
    simp only [firstGood] at e
    by_cases g : tails.all (absent a) = true
    · rw [if_pos g] at e
      cases e
      exact ⟨by simp, by simpa [List.all_eq_true] using g⟩
    · rw [if_neg g] at e
      have := ih e
      exact ⟨List.mem_cons_of_mem _ this.1, this.2⟩

theorem firstGood_none {tails : List (List Entry)} {hs : List Entry}
    (e : firstGood tails hs = none) :
    ∀ h ∈ hs, ∃ t ∈ tails, absent h t = false := by
  induction hs with
  | nil => simp
  | cons a as ih =>
    simp only [firstGood] at e
    by_cases g : tails.all (absent a) = true
    · rw [if_pos g] at e; cases e
    · rw [if_neg g] at e
      intro h hh
      rcases List.mem_cons.mp hh with rfl | hh
      · simpa using g
      · exact ih e h hh

/-- The lists after a successful round. -/
theorem advance_ok {h : Entry} {ht : List (Entry × List Entry)} {ls : List (List Entry)}
    (e : advance h ht = .ok ls) :
    (∀ p ∈ ht, p.1.con.name = h.con.name → p.1.con = h.con ∧ p.2 ∈ ls) ∧
    (∀ p ∈ ht, p.1.con.name ≠ h.con.name → (p.1 :: p.2) ∈ ls) ∧
    (∀ l ∈ ls, ∃ p ∈ ht, (p.1.con.name = h.con.name ∧ l = p.2) ∨
      (p.1.con.name ≠ h.con.name ∧ l = p.1 :: p.2)) ∧
    total ls ≤ total (ht.map (fun p => p.1 :: p.2)) ∧
    (∀ p ∈ ht, p.1.con.name = h.con.name →
      total ls < total (ht.map (fun p => p.1 :: p.2))) := by
  induction ht generalizing ls with
  | nil => simp only [advance] at e; cases e; simp
  | cons q rest ih =>
    obtain ⟨hd, tl⟩ := q
    simp only [advance] at e
    by_cases hn : hd.con.name = h.con.name
    · rw [if_pos hn] at e
      by_cases ha : hd.con.args = h.con.args
      · rw [if_pos ha] at e
        cases hr : advance h rest with
        | error x => rw [hr] at e; cases e
        | ok ls' =>
          rw [hr] at e
          cases e
          obtain ⟨i1, i2, i3, i4, i5⟩ := ih hr
          have hc : hd.con = h.con := by
            cases hd; cases h; rename_i c1 _ c2
            cases c1; cases c2
            simp only at hn ha; subst hn; subst ha; rfl
          refine ⟨?_, ?_, ?_, ?_, ?_⟩
          · intro p hp hpn
            rcases List.mem_cons.mp hp with rfl | hp
            · exact ⟨hc, by simp⟩
            · exact ⟨(i1 p hp hpn).1, List.mem_cons_of_mem _ (i1 p hp hpn).2⟩
          · intro p hp hpn
            rcases List.mem_cons.mp hp with rfl | hp
            · exact absurd hn hpn
            · exact List.mem_cons_of_mem _ (i2 p hp hpn)
          · intro l hl
            rcases List.mem_cons.mp hl with rfl | hl
            · exact ⟨(hd, l), by simp, Or.inl ⟨hn, rfl⟩⟩
            · obtain ⟨p, hp, hh⟩ := i3 l hl
              exact ⟨p, List.mem_cons_of_mem _ hp, hh⟩
          · simp only [total, List.map_cons, List.length_cons]; omega
          · intro p hp hpn
            simp only [total, List.map_cons, List.length_cons]; omega
      · rw [if_neg ha] at e; cases e
    · rw [if_neg hn] at e
      cases hr : advance h rest with
      | error x => rw [hr] at e; cases e
      | ok ls' =>
        rw [hr] at e
        cases e
        obtain ⟨i1, i2, i3, i4, i5⟩ := ih hr
        refine ⟨?_, ?_, ?_, ?_, ?_⟩
        · intro p hp hpn
          rcases List.mem_cons.mp hp with rfl | hp
          · exact absurd hpn hn
          · exact ⟨(i1 p hp hpn).1, List.mem_cons_of_mem _ (i1 p hp hpn).2⟩
        · intro p hp hpn
          rcases List.mem_cons.mp hp with rfl | hp
          · simp
          · exact List.mem_cons_of_mem _ (i2 p hp hpn)
        · intro l hl
          rcases List.mem_cons.mp hl with rfl | hl
          · exact ⟨(hd, tl), by simp, Or.inr ⟨hn, rfl⟩⟩
          · obtain ⟨p, hp, hh⟩ := i3 l hl
            exact ⟨p, List.mem_cons_of_mem _ hp, hh⟩
        · simp only [total, List.map_cons, List.length_cons]; omega
        · intro p hp hpn
          rcases List.mem_cons.mp hp with rfl | hp
          · exact absurd hpn hn
          · have := i5 p hp hpn
            simp only [total, List.map_cons, List.length_cons]; omega

theorem total_headTails (lists : List (List Entry)) :
    total ((headTails lists).map (fun p => p.1 :: p.2)) = total lists := by
  induction lists with
  | nil => rfl
  | cons l ls ih =>
    cases l with
    | nil => simp [headTails, total, ih]
    | cons a as => simp [headTails, total, ih]

/-- A successful run of `merge` yields a linear order. -/
theorem mergeF_sound : ∀ (fuel : Nat) (out : List Entry) (lists : List (List Entry))
    (r : List Entry), mergeF fuel out lists = some (.ok r) →
    ∃ r', r = out.reverse ++ r' ∧ Linear lists r' := by
  intro fuel
  induction fuel with
  | zero => intro out lists r h; simp [mergeF] at h
  | succ fuel ih =>
    intro out lists r h
    simp only [mergeF] at h
    by_cases hn : headTails lists = []
    · rw [if_pos hn] at h
      cases h
      have he := headTails_nil.mp hn
      refine ⟨[], by simp, ⟨by simp [NoDup, cons], ?_, by simp⟩⟩
      intro l hl
      simp [he l hl, cons]
    · rw [if_neg hn] at h
      cases hg : firstGood ((headTails lists).map Prod.snd)
          ((headTails lists).map Prod.fst) with
      | none => rw [hg] at h; cases h
      | some g =>
        rw [hg] at h
        simp only at h
        cases ha : advance g (headTails lists) with
        | error x => rw [ha] at h; cases h
        | ok ls =>
          rw [ha] at h
          simp only at h
          obtain ⟨hm, habs⟩ := firstGood_some hg
          obtain ⟨i1, i2, i3, _, _⟩ := advance_ok ha
          obtain ⟨r', hr, hlin⟩ := ih _ _ _ h
          refine ⟨g :: r', by simp [hr], ?_, ?_, ?_⟩
          · -- no name twice
            have : g.con.name ∉ (cons r').map Con.name := by
              intro hin
              simp only [cons, List.map_map, List.mem_map, Function.comp] at hin
              obtain ⟨e, her, hen⟩ := hin
              obtain ⟨l, hl, hel⟩ := hlin.only e her
              obtain ⟨p, hp, hc⟩ := i3 l hl
              have habs' := absent_iff.mp (habs p.2 (List.mem_map.mpr ⟨p, hp, rfl⟩))
              rcases hc with ⟨_, rfl⟩ | ⟨hne, rfl⟩
              · exact habs' (List.mem_map.mpr ⟨e, hel, hen⟩)
              · rcases List.mem_cons.mp hel with rfl | hel
                · exact hne hen
                · exact habs' (List.mem_map.mpr ⟨e, hel, hen⟩)
            have h2 := hlin.nodup
            simp only [NoDup, cons, List.map_cons, List.nodup_cons] at h2 this ⊢
            exact ⟨this, h2⟩
          · intro l hl
            cases l with
            | nil => simp [cons]
            | cons hd tl =>
              have hp : (hd, tl) ∈ headTails lists := mem_headTails.mpr hl
              by_cases hne : hd.con.name = g.con.name
              · obtain ⟨hc, hin⟩ := i1 _ hp hne
                have := hlin.keeps tl hin
                simp only [cons, List.map_cons] at this ⊢
                simp only at hc
                rw [hc]
                exact this.cons_cons _
              · have := hlin.keeps _ (i2 _ hp hne)
                simp only [cons, List.map_cons] at this ⊢
                exact this.cons _
          · intro e he
            rcases List.mem_cons.mp he with rfl | he
            · obtain ⟨p, hp, rfl⟩ := List.mem_map.mp hm
              exact ⟨p.1 :: p.2, mem_headTails.mp hp, by simp⟩
            · obtain ⟨l, hl, hel⟩ := hlin.only e he
              obtain ⟨p, hp, hc⟩ := i3 l hl
              refine ⟨p.1 :: p.2, mem_headTails.mp hp, ?_⟩
              rcases hc with ⟨_, rfl⟩ | ⟨_, rfl⟩
              · exact List.mem_cons_of_mem _ hel
              · exact hel

theorem good_exists {lists : List (List Entry)} :
    ∀ {s : List Con}, NoDup s → (∀ l ∈ lists, List.Sublist (cons l) s) →
    headTails lists ≠ [] →
    ∃ p ∈ headTails lists, ∀ q ∈ headTails lists, absent p.1 q.2 = true := by
  intro s
  induction s with
  | nil =>
    intro _ hs hne
    exfalso
    apply hne
    rw [headTails_nil]
    intro l hl
    have := hs l hl
    simpa [cons] using this
  | cons y s ih =>
    intro hnd hs hne
    by_cases hy : ∃ p ∈ headTails lists, p.1.con = y
    · obtain ⟨p, hp, hpy⟩ := hy
      refine ⟨p, hp, ?_⟩
      intro q hq
      rw [absent_iff]
      have hsub := hs _ (mem_headTails.mp hq)
      simp only [cons, List.map_cons] at hsub
      have htl : List.Sublist (q.2.map Entry.con) s := by
        cases hsub with
        | cons _ h => exact (List.sublist_cons_self _ _).trans h
        | cons_cons _ h => exact h
      intro hin
      simp only [NoDup, List.map_cons, List.nodup_cons] at hnd
      apply hnd.1
      obtain ⟨e, he, hen⟩ := List.mem_map.mp hin
      rw [← hpy]
      exact List.mem_map.mpr ⟨e.con, htl.subset (List.mem_map.mpr ⟨e, he, rfl⟩), hen⟩
    · apply ih
      · simp only [NoDup, List.map_cons, List.nodup_cons] at hnd
        exact hnd.2
      · intro l hl
        have hsub := hs l hl
        cases l with
        | nil => simp [cons]
        | cons hd tl =>
          simp only [cons, List.map_cons] at hsub ⊢
          generalize hx : hd.con = x at hsub ⊢
          cases hsub with
          | cons _ h => exact h
          | cons_cons _ h =>
            exact absurd ⟨(hd, tl), mem_headTails.mpr hl, hx⟩ hy
      · exact hne

theorem nodup_inj {s : List Con} (h : NoDup s) {a b : Con} (ha : a ∈ s) (hb : b ∈ s)
    (hn : a.name = b.name) : a = b := by
  unfold NoDup at h
  induction s with
  | nil => cases ha
  | cons x s ih =>
    simp only [List.map_cons, List.nodup_cons] at h
    rcases List.mem_cons.mp ha with rfl | ha'
    · rcases List.mem_cons.mp hb with rfl | hb'
      · rfl
      · exact absurd (List.mem_map.mpr ⟨b, hb', hn.symm⟩) h.1
    · rcases List.mem_cons.mp hb with rfl | hb'
      · exact absurd (List.mem_map.mpr ⟨a, ha', hn⟩) h.1
      · exact ih h.2 ha' hb'

theorem advance_succeeds {s : List Con} (hnd : NoDup s) {h : Entry} (hh : h.con ∈ s) :
    ∀ {ht : List (Entry × List Entry)}, (∀ p ∈ ht, p.1.con ∈ s) →
    ∃ ls, advance h ht = .ok ls := by
  intro ht
  induction ht with
  | nil => intro _; exact ⟨[], rfl⟩
  | cons p rest ih =>
    intro hs
    obtain ⟨hd, tl⟩ := p
    obtain ⟨ls, hls⟩ := ih (fun p hp => hs p (List.mem_cons_of_mem _ hp))
    simp only [advance, hls]
    by_cases hn : hd.con.name = h.con.name
    · rw [if_pos hn]
      have : hd.con = h.con := nodup_inj hnd (hs (hd, tl) (by simp)) hh hn
      rw [if_pos (by rw [this])]
      exact ⟨_, rfl⟩
    · rw [if_neg hn]; exact ⟨_, rfl⟩

/-- If an order exists, `merge` finds one. -/
theorem mergeF_complete {s : List Con} (hnd : NoDup s) :
    ∀ (fuel : Nat) (out : List Entry) (lists : List (List Entry)),
    total lists < fuel → (∀ l ∈ lists, List.Sublist (cons l) s) →
    ∃ r, mergeF fuel out lists = some (.ok r) := by
  intro fuel
  induction fuel with
  | zero => intro _ _ h; omega
  | succ fuel ih =>
    intro out lists hf hs
    simp only [mergeF]
    by_cases hn : headTails lists = []
    · rw [if_pos hn]; exact ⟨_, rfl⟩
    · rw [if_neg hn]
      cases hg : firstGood ((headTails lists).map Prod.snd)
          ((headTails lists).map Prod.fst) with
      | none =>
        exfalso
        obtain ⟨p, hp, hall⟩ := good_exists hnd hs hn
        obtain ⟨t, ht, hf⟩ := firstGood_none hg p.1 (List.mem_map.mpr ⟨p, hp, rfl⟩)
        obtain ⟨q, hq, rfl⟩ := List.mem_map.mp ht
        rw [hall q hq] at hf
        cases hf
      | some g =>
        simp only
        obtain ⟨hm, _⟩ := firstGood_some hg
        have hmem : ∀ p ∈ headTails lists, p.1.con ∈ s := by
          intro p hp
          exact (hs _ (mem_headTails.mp hp)).subset (by simp [cons])
        obtain ⟨p, hp, rfl⟩ := List.mem_map.mp hm
        obtain ⟨ls, hls⟩ := advance_succeeds hnd (hmem p hp) hmem
        rw [hls]
        simp only
        obtain ⟨_, _, i3, _, i5⟩ := advance_ok hls
        apply ih
        · have := i5 p hp rfl
          rw [total_headTails] at this
          omega
        · intro l hl
          obtain ⟨q, hq, hc⟩ := i3 l hl
          have hsub := hs _ (mem_headTails.mp hq)
          rcases hc with ⟨_, rfl⟩ | ⟨_, rfl⟩
          · simp only [cons, List.map_cons] at hsub ⊢
            exact (List.sublist_cons_self _ _).trans hsub
          · exact hsub

/-- `merge` never runs out of rounds. -/
theorem merge_fuel : ∀ (fuel : Nat) (out : List Entry) (lists : List (List Entry)),
    total lists < fuel → mergeF fuel out lists ≠ none := by
  intro fuel
  induction fuel with
  | zero => intro _ _ h; omega
  | succ fuel ih =>
    intro out lists hf
    simp only [mergeF]
    by_cases hn : headTails lists = []
    · rw [if_pos hn]; simp
    · rw [if_neg hn]
      cases hg : firstGood ((headTails lists).map Prod.snd)
          ((headTails lists).map Prod.fst) with
      | none => simp
      | some g =>
        simp only
        cases ha : advance g (headTails lists) with
        | error x => simp
        | ok ls =>
          simp only
          obtain ⟨hm, _⟩ := firstGood_some hg
          obtain ⟨p, hp, rfl⟩ := List.mem_map.mp hm
          obtain ⟨_, _, _, _, i5⟩ := advance_ok ha
          apply ih
          have := i5 p hp rfl
          rw [total_headTails] at this
          omega

theorem merge_sound {lists : List (List Entry)} {r : List Entry}
    (h : merge [] lists = .ok r) : Linear lists r := by
  unfold merge at h
  cases hm : mergeF (total lists + 1) [] lists with
  | none => rw [hm] at h; cases h
  | some x =>
    rw [hm] at h
    simp only at h
    rw [h] at hm
    obtain ⟨r', hr, hl⟩ := mergeF_sound _ _ _ _ hm
    simp only [List.reverse_nil, List.nil_append] at hr
    rw [hr]; exact hl

theorem merge_complete {lists : List (List Entry)} (h : Orderable (lists.map cons)) :
    ∃ r, merge [] lists = .ok r := by
  obtain ⟨s, hnd, hs⟩ := h
  obtain ⟨r, hr⟩ := mergeF_complete hnd (total lists + 1) [] lists (by omega)
    (fun l hl => hs _ (List.mem_map.mpr ⟨l, hl, rfl⟩))
  exact ⟨r, by unfold merge; rw [hr]⟩

theorem merge_iff {lists : List (List Entry)} :
    (∃ r, merge [] lists = .ok r) ↔ Orderable (lists.map cons) := by
  refine ⟨?_, merge_complete⟩
  rintro ⟨r, hr⟩
  have := merge_sound hr
  refine ⟨cons r, this.nodup, ?_⟩
  intro l hl
  obtain ⟨l', hl', rfl⟩ := List.mem_map.mp hl
  exact this.keeps l' hl'

end Verif.Mro
