import Verif.Build.Inv

/-!
# The invariant holds after each reaction
-/

namespace Verif.Build

variable {κ : Type} [DecidableEq κ] {π η ι : Type}

theorem lookup_filter {β : Type} (q : κ → Bool) (k : κ) (hq : q k = true) :
    ∀ L : List (κ × β), (L.filter (fun e => q e.1)).lookup k = L.lookup k
  | [] => rfl
  | (a, b) :: L => by
      have ih := lookup_filter q k hq L
      by_cases hk : k = a
      · subst hk; simp [List.filter_cons, hq]
      · have hb : (k == a) = false := by simpa using hk
        rw [List.filter_cons]
        split
        · rw [List.lookup_cons, List.lookup_cons, hb]; exact ih
        · rw [List.lookup_cons, hb]; exact ih

/-! ## Preparing deferred back jobs -/

theorem starts_map_back (L : List κ) (i : List ι) (tr : List (Event κ π η ι)) :
    starts ((L.map (fun k => Event.back k i)) ++ tr) = starts tr := by
  induction L with
  | nil => rfl
  | cons a L ih => simpa [starts] using ih

theorem backs_map_back (L : List κ) (i : List ι) (tr : List (Event κ π η ι)) :
    backs ((L.map (fun k => Event.back k i)) ++ tr) = L ++ backs tr := by
  induction L with
  | nil => rfl
  | cons a L ih => simp [backs, ih]

theorem sound_map_back {g : Graph κ} {i : List ι} {tr : List (Event κ π η ι)} (hs : Sound g tr) :
    ∀ (L : List κ), (∀ k ∈ L, Good g tr (.back k i)) →
      Sound g ((L.map (fun k => Event.back k i)) ++ tr)
  | [], _ => hs
  | k :: L, h => by
      refine ⟨fun j hj => ?_, sound_map_back hs L (fun k hk => h k (List.mem_cons_of_mem _ hk))⟩
      obtain ⟨r, hr, hi⟩ := h k List.mem_cons_self j hj
      exact ⟨r, List.mem_append_right _ hr, hi⟩

theorem inv_flush {g : Graph κ} (ho : Ordered g) {l : List (Stage κ)} {s : St κ π η ι}
    (h : Inv g l s) : Inv g l (flush s) := by
  obtain ⟨hc, hd, hs⟩ := h
  have htr : (flush s).trace = (((s.deferred.filter (isReady s.frontDone)).map Prod.fst).reverse.map
      (fun k => Event.back k s.interest)) ++ s.trace := by
    simp [flush, List.map_reverse, List.map_map, Function.comp_def]
  obtain ⟨L, hL⟩ : ∃ L, L = ((s.deferred.filter (isReady s.frontDone)).map Prod.fst).reverse :=
    ⟨_, rfl⟩
  rw [← hL] at htr
  have hmem : ∀ k, k ∈ L ↔ ∃ e ∈ s.deferred, isReady s.frontDone e = true ∧ e.1 = k := by
    intro k; rw [hL]; simp [and_assoc]
  have hfin : ∀ x, Finished (flush s).trace x ↔ Finished s.trace x := by
    intro x; rw [htr]; simp [Finished]
  have hfail : ∀ x, Event.fail x ∈ (flush s).trace ↔ Event.fail x ∈ s.trace := by
    intro x; rw [htr]; simp
  have hdone : ∀ x o, Event.done x o ∈ (flush s).trace ↔ Event.done x o ∈ s.trace := by
    intro x o; rw [htr]; simp
  have hblk : ∀ x, Blocked g (flush s).trace x ↔ Blocked g s.trace x := by
    intro x; simp only [Blocked, hfail]
  have hfb : ∀ x, finB (flush s).trace x = finB s.trace x := by
    intro x; rw [Bool.eq_iff_iff, finB_iff, finB_iff, hfin]
  have hst : starts (flush s).trace = starts s.trace := by rw [htr, starts_map_back]
  have hbk : backs (flush s).trace = L ++ backs s.trace := by rw [htr, backs_map_back]
  refine ⟨⟨hc.pendSub, hc.pendNodup, ?_, ?_, ?_, ?_, ?_, hc.actNodup, hc.actPend, ?_, ?_, ?_,
    hc.handles, hc.handlesLt, ?_, ?_, ?_⟩, ⟨?_, ?_, ?_, ?_, ?_, ?_, ?_, ?_, ?_, ?_⟩, ?_⟩
  · intro x hx; simp only [hfin, hfail, hblk]; exact hc.part x hx
  · intro x hx; simp only [hfin, hfail, hblk]; exact hc.pendNot x hx
  · intro x hx; simp only [hfin, hfail] at hx ⊢; exact hc.excl x hx
  · intro x hx; simp only [hfin, hfail] at hx; exact hc.finStage x hx
  · intro x hx; simp only [hfb]; exact hc.ind x hx
  · intro x hx y hy; rw [hfin]; exact hc.actWaits x hx y hy
  · intro x hx hy; simp only [hfin] at hy; exact hc.idle x hx hy
  · intro x hx y hy; simp only [hfin, hfail] at hx ⊢; exact hc.finWaits x hx y hy
  · rw [hst]; exact hc.startNodup
  · rw [hst]; exact hc.startGone
  · simp only [hfail]; exact hc.errors
  · intro k o hm; rw [hdone] at hm; exact hd.res k o hm
  · intro k o hm; rw [hdone] at hm; exact hd.parsed k o hm
  · intro k; rw [hfin]; exact hd.fdone k
  · intro k r hm; rw [hdone] at hm; exact hd.interest k r hm
  · intro k r hm hr
    rw [hdone] at hm
    rw [hbk, List.mem_append]
    rcases hd.defer k r hm hr with h | h
    · by_cases hr : isReady s.frontDone (k, g.closure k) = true
      · exact .inr (.inl ((hmem k).2 ⟨_, h, hr, rfl⟩))
      · exact .inl (List.mem_filter.2 ⟨h, by simpa using hr⟩)
    · exact .inr (.inr h)
  · intro e he
    obtain ⟨he, hr⟩ := List.mem_filter.1 he
    obtain ⟨h1, h2, h3⟩ := hd.defOk e he
    rw [hfin, hbk, List.mem_append]
    refine ⟨h1, h2, ?_⟩
    rintro (hm | hm)
    · obtain ⟨e', he', hr', hk⟩ := (hmem _).1 hm
      have : e' = e := List.inj_on_of_nodup_map hd.defNodup he' he hk
      subst this
      simp [hr'] at hr
    · exact h3 hm
  · exact hd.defNodup.sublist (List.Sublist.map _ List.filter_sublist)
  · rw [hbk]
    refine List.Nodup.append ?_ hd.backNodup ?_
    · rw [hL]
      exact List.nodup_reverse.2 (hd.defNodup.sublist (List.Sublist.map _ List.filter_sublist))
    · intro k hk hb
      obtain ⟨e, he, -, rfl⟩ := (hmem k).1 hk
      exact (hd.defOk e he).2.2 hb
  · intro k hk
    rw [hbk, List.mem_append] at hk
    rw [hfin]
    rcases hk with hk | hk
    · obtain ⟨e, he, -, rfl⟩ := (hmem k).1 hk
      exact (hd.defOk e he).2.1
    · exact hd.backFin k hk
  · intro k hk
    have : Asked s.trace k := by
      refine hd.asked k ?_
      rw [hbk, List.mem_append] at hk
      rcases hk with hk | hk | hk
      · obtain ⟨e, he, rfl⟩ := List.mem_map.1 hk
        exact .inl (List.mem_map.2 ⟨e, (List.mem_filter.1 he).1, rfl⟩)
      · obtain ⟨e, he, -, rfl⟩ := (hmem k).1 hk
        exact .inl (List.mem_map.2 ⟨e, he, rfl⟩)
      · exact .inr hk
    obtain ⟨r, h1, h2⟩ := this
    exact ⟨r, (hdone _ _).2 h1, h2⟩
  · rw [htr]
    refine sound_map_back hs L (fun k hk j hj => ?_)
    obtain ⟨e, he, hr, rfl⟩ := (hmem k).1 hk
    obtain ⟨h1, -, -⟩ := hd.defOk e he
    have hj' : j ∈ e.2 := by rw [h1]; exact (mem_closure ho _ _).2 hj
    have hfd : j ∈ s.frontDone := by
      simp only [isReady, List.all_eq_true, decide_eq_true_eq] at hr; exact hr j hj'
    obtain ⟨o, hdn⟩ := (hd.fdone j).1 hfd
    obtain ⟨r, rfl, -⟩ := hd.res j o hdn
    exact ⟨r, hdn, hd.interest j r hdn⟩

/-! ## The worker that returned -/

theorem perm_filter_handle : ∀ {R : List (Nat × Stage κ)} {h : Nat} {sk : Stage κ},
    (R.map Prod.fst).Nodup → (h, sk) ∈ R →
    R.Perm ((h, sk) :: R.filter (fun x => !decide (x.1 = h)))
  | (a, b) :: R, h, sk, hn, hm => by
      simp only [List.map_cons, List.nodup_cons] at hn
      rcases List.mem_cons.1 hm with he | hm
      · obtain ⟨rfl, rfl⟩ := Prod.mk.inj he
        rw [List.filter_cons]
        simp only [decide_true, Bool.not_true, Bool.false_eq_true, if_false]
        rw [List.filter_eq_self.2]
        intro x hx
        simp only [Bool.not_eq_true', decide_eq_false_iff_not]
        intro he
        exact hn.1 (List.mem_map.2 ⟨x, hx, he⟩)
      · have hne : a ≠ h := by
          rintro rfl; exact hn.1 (List.mem_map.2 ⟨_, hm, rfl⟩)
        rw [List.filter_cons]
        simp only [hne, decide_false, Bool.not_false, if_true]
        exact (List.Perm.cons _ (perm_filter_handle hn.2 hm)).trans (List.Perm.swap _ _ _)

/-- The state after the worker was taken out. -/
structure Taken (g : Graph κ) (sk : Stage κ) (s0 s : St κ π η ι) : Prop where
  ctl : Ctl g [] s0
  perm : (acts [] s0).Perm (sk :: acts [] s)
  run : ∀ x ∈ s.running.map Prod.snd, x ∈ s0.running.map Prod.snd
  run' : ∀ x ∈ s0.running.map Prod.snd, x = sk ∨ x ∈ s.running.map Prod.snd
  handles : (s.running.map Prod.fst).Nodup
  handlesLt : ∀ h ∈ s.running.map Prod.fst, h < s.next
  started : sk ∉ s.ready
  eq : s = { s0 with running := s.running }

theorem taken {g : Graph κ} {s : St κ π η ι} (h : Ctl g [] s) {n : Nat} {sk : Stage κ}
    (hm : (n, sk) ∈ s.running) :
    Taken g sk s { s with running := s.running.filter (fun x => !decide (x.1 = n)) } := by
  have hp := perm_filter_handle h.handles hm
  have hps := hp.map Prod.snd
  have hperm : (acts [] s).Perm
      (sk :: acts [] { s with running := s.running.filter (fun x => !decide (x.1 = n)) }) := by
    simp only [acts, List.nil_append]
    exact (List.Perm.append_left _ hps).trans (by
      simp only [List.map_cons]; exact List.perm_middle)
  refine ⟨h, hperm, ?_, ?_, ?_, ?_, ?_, rfl⟩
  · intro x hx; exact hps.mem_iff.2 (List.mem_cons_of_mem _ hx)
  · intro x hx
    have := hps.mem_iff.1 hx
    simpa using this
  · exact h.handles.sublist (List.Sublist.map _ List.filter_sublist)
  · intro a ha
    refine h.handlesLt a ?_
    obtain ⟨x, hx, rfl⟩ := List.mem_map.1 ha
    exact List.mem_map.2 ⟨x, (List.mem_filter.1 hx).1, rfl⟩
  · intro hr
    have := hperm.nodup_iff.1 h.actNodup
    simp only [List.nodup_cons, acts, List.nil_append] at this
    exact this.1 (List.mem_append_left _ hr)

/-! ## A failure -/

theorem starts_map_cancel (L : List (Nat × Stage κ)) (tr : List (Event κ π η ι)) :
    starts ((L.map (fun x => Event.cancel x.2)) ++ tr) = starts tr := by
  induction L with
  | nil => rfl
  | cons a L ih => simpa [starts] using ih

theorem backs_map_cancel (L : List (Nat × Stage κ)) (tr : List (Event κ π η ι)) :
    backs ((L.map (fun x => Event.cancel x.2)) ++ tr) = backs tr := by
  induction L with
  | nil => rfl
  | cons a L ih => simpa [backs] using ih

theorem sound_map_cancel {g : Graph κ} {tr : List (Event κ π η ι)} (hs : Sound g tr) :
    ∀ (L : List (Nat × Stage κ)), Sound g ((L.map (fun x => Event.cancel x.2)) ++ tr)
  | [] => hs
  | _ :: L => ⟨trivial, sound_map_cancel hs L⟩

theorem inv_onFail {g : Graph κ} (ho : Ordered g) {s0 s : St κ π η ι} {sk : Stage κ}
    (ht : Taken g sk s0 s) (hd : Dat g s0) (hs : Sound g s0.trace) : Inv g [] (onFail g s sk) := by
  obtain ⟨hc, hperm, hrun, hrun', hh, hlt, hst, heq⟩ := ht
  have hpe : s.pend = s0.pend := by rw [heq]
  have htr : s.trace = s0.trace := by rw [heq]
  have hre : s.ready = s0.ready := by rw [heq]
  have hin : s.ind = s0.ind := by rw [heq]
  have hpa : s.parsed = s0.parsed := by rw [heq]
  have hskp : sk ∈ s0.pend := hc.actPend sk (hperm.mem_iff.2 List.mem_cons_self)
  have hnd : (sk :: acts [] s).Nodup := hperm.nodup_iff.1 hc.actNodup
  have hfin : ∀ x, Finished (onFail g s sk).trace x ↔ Finished s0.trace x := by
    intro x; simp [Finished, onFail, htr]
  have hdone : ∀ x o, Event.done x o ∈ (onFail g s sk).trace ↔ Event.done x o ∈ s0.trace := by
    intro x o; simp [onFail, htr]
  have hfail : ∀ x, Event.fail x ∈ (onFail g s sk).trace ↔ x = sk ∨ Event.fail x ∈ s0.trace := by
    intro x; simp [onFail, htr]
  have hblk : ∀ x, Blocked g (onFail g s sk).trace x ↔
      Depends g x.key sk.key ∨ Blocked g s0.trace x := by
    intro x; simp only [Blocked, hfail]
    constructor
    · rintro ⟨y, rfl | hy, hdp⟩
      · exact .inl hdp
      · exact .inr ⟨y, hy, hdp⟩
    · rintro (hdp | ⟨y, hy, hdp⟩)
      · exact ⟨sk, .inl rfl, hdp⟩
      · exact ⟨y, .inr hy, hdp⟩
  have hfb : ∀ x, finB (onFail g s sk).trace x = finB s0.trace x := by
    intro x; rw [Bool.eq_iff_iff, finB_iff, finB_iff, hfin]
  have hstr : starts (onFail g s sk).trace = starts s0.trace := by
    simp only [onFail, starts_map_cancel, starts, htr]
  have hbk : backs (onFail g s sk).trace = backs s0.trace := by
    simp only [onFail, backs_map_cancel, backs, htr]
  have hmp : ∀ x, x ∈ (onFail g s sk).pend ↔ x ∈ s0.pend ∧ ¬ Depends g x.key sk.key ∧ x ≠ sk := by
    intro x
    simp only [onFail, List.mem_filter, Bool.not_eq_true', decide_eq_false_iff_not, mem_closure ho,
      hpe, and_assoc]
  have hmr : ∀ x, x ∈ (onFail g s sk).ready ↔ x ∈ s0.ready ∧ ¬ Depends g x.key sk.key := by
    intro x
    simp only [onFail, List.mem_filter, Bool.not_eq_true', decide_eq_false_iff_not, mem_closure ho,
      hre]
  have hmu : ∀ x, x ∈ (onFail g s sk).running.map Prod.snd ↔
      x ∈ s.running.map Prod.snd ∧ ¬ Depends g x.key sk.key := by
    intro x
    simp only [onFail, List.mem_map, List.mem_filter, Bool.not_eq_true', decide_eq_false_iff_not,
      mem_closure ho]
    constructor
    · rintro ⟨a, ⟨h1, h2⟩, rfl⟩; exact ⟨⟨a, h1, rfl⟩, h2⟩
    · rintro ⟨⟨a, h1, rfl⟩, h2⟩; exact ⟨a, ⟨h1, h2⟩, rfl⟩
  have hma : ∀ x, x ∈ acts [] (onFail g s sk) ↔ x ∈ acts [] s ∧ ¬ Depends g x.key sk.key := by
    intro x
    simp only [acts, List.nil_append, List.mem_append, hmr, hmu, hre]
    tauto
  have hsub : ∀ x ∈ acts [] (onFail g s sk), x ∈ acts [] s0 := fun x hx =>
    hperm.mem_iff.2 (List.mem_cons_of_mem _ ((hma x).1 hx).1)
  refine ⟨⟨?_, ?_, ?_, ?_, ?_, ?_, ?_, ?_, ?_, ?_, ?_, ?_, ?_, ?_, ?_, ?_, ?_⟩,
    ⟨?_, ?_, ?_, ?_, ?_, ?_, ?_, ?_, ?_, ?_⟩, ?_⟩
  · intro x hx; exact hc.pendSub x ((hmp x).1 hx).1
  · simp only [onFail, hpe]; exact (hc.pendNodup.filter _).filter _
  · intro x hx
    rw [hmp, hfin, hfail, hblk]
    rcases hc.part x hx with h | h | h | h
    · tauto
    · tauto
    · tauto
    · tauto
  · intro x hx
    rw [hmp] at hx
    obtain ⟨h1, h2, h3⟩ := hc.pendNot x hx.1
    rw [hfin, hfail, hblk]
    tauto
  · intro x hx
    rw [hfin] at hx
    rw [hfail]
    rintro (rfl | h)
    · exact (hc.pendNot x hskp).1 hx
    · exact hc.excl x hx h
  · intro x hx
    rw [hfin, hfail] at hx
    rcases hx with h | rfl | h
    · exact hc.finStage x (.inl h)
    · exact hc.pendSub x hskp
    · exact hc.finStage x (.inr h)
  · intro x hx
    simp only [hfb]
    rw [show (onFail g s sk).ind x = s0.ind x from by simp [onFail, hin]]
    exact hc.ind x ((hmp x).1 hx).1
  · have h1 : (acts [] s).Nodup := (List.nodup_cons.1 hnd).2
    refine h1.sublist ?_
    simp only [acts, onFail, List.nil_append]
    exact List.Sublist.append List.filter_sublist (List.Sublist.map _ List.filter_sublist)
  · intro x hx
    rw [hmp]
    obtain ⟨h1, h2⟩ := (hma x).1 hx
    exact ⟨hc.actPend x (hsub x hx), h2, fun h => (List.nodup_cons.1 hnd).1 (h ▸ h1)⟩
  · intro x hx y hy; rw [hfin]; exact hc.actWaits x (hsub x hx) y hy
  · intro x hx hy
    simp only [hfin] at hy
    rw [hmp] at hx
    rw [hma]
    have := hperm.mem_iff.1 (hc.idle x hx.1 hy)
    rcases List.mem_cons.1 this with h | h
    · exact absurd h hx.2.2
    · exact ⟨h, hx.2.1⟩
  · intro x hx y hy
    rw [hfin, hfail] at hx
    rw [hfin]
    rcases hx with h | rfl | h
    · exact hc.finWaits x (.inl h) y hy
    · exact hc.actWaits x (hperm.mem_iff.2 List.mem_cons_self) y hy
    · exact hc.finWaits x (.inr h) y hy
  · exact hh.sublist (List.Sublist.map _ List.filter_sublist)
  · intro a ha
    refine hlt a ?_
    obtain ⟨x, hx, rfl⟩ := List.mem_map.1 ha
    exact List.mem_map.2 ⟨x, (List.mem_filter.1 hx).1, rfl⟩
  · rw [hstr]; exact hc.startNodup
  · intro x hx
    rw [hstr] at hx
    obtain ⟨h1, h2⟩ := hc.startGone x hx
    simp only [List.nil_append] at h1 ⊢
    refine ⟨fun h => h1 ((hmr x).1 h).1, ?_⟩
    rw [hmu, hmp]
    rcases h2 with h2 | h2
    · rcases hrun' x h2 with h | h
      · right; rintro ⟨-, -, h3⟩; exact h3 h
      · by_cases hdp : Depends g x.key sk.key
        · right; rintro ⟨-, h3, -⟩; exact h3 hdp
        · exact .inl ⟨h, hdp⟩
    · right; rintro ⟨h3, -⟩; exact h2 h3
  · simp only [hfail]
    exact ⟨fun _ => ⟨sk, .inl rfl⟩, fun _ => rfl⟩
  · intro k o hm; rw [hdone] at hm
    simp only [onFail]; rw [heq]; exact hd.res k o hm
  · intro k o hm; rw [hdone] at hm
    obtain ⟨p, hp, hl⟩ := hd.parsed k o hm
    refine ⟨p, hp, fun hk => ?_⟩
    rw [hmp] at hk
    obtain ⟨hk1, hk2, hk3⟩ := hk
    have hne : k ≠ sk.key := by
      rintro rfl
      cases hsk : sk with
      | parse a => rw [hsk] at hm hskp; exact (hc.pendNot _ hskp).1 ⟨o, hm⟩
      | front a => rw [hsk] at hk3; exact hk3 rfl
    have := hl hk1
    rw [← this]
    simp only [onFail, hpa]
    refine lookup_filter (fun k => !decide (k ∈ sk.key :: g.closure sk.key)) k ?_ s0.parsed
    simp only [Bool.not_eq_true', decide_eq_false_iff_not, List.mem_cons, mem_closure ho]
    rintro (h | h)
    · exact hne h
    · exact hk2 h
  · intro k; rw [hfin]; simp only [onFail]; rw [heq]; exact hd.fdone k
  · intro k r hm; rw [hdone] at hm; simp only [onFail]; rw [heq]; exact hd.interest k r hm
  · intro k r hm hr; rw [hdone] at hm; rw [hbk]; simp only [onFail]; rw [heq]
    exact hd.defer k r hm hr
  · intro e he; simp only [onFail] at he; rw [heq] at he; rw [hfin, hbk]; exact hd.defOk e he
  · simp only [onFail]; rw [heq]; exact hd.defNodup
  · rw [hbk]; exact hd.backNodup
  · intro k hk; rw [hbk] at hk; rw [hfin]; exact hd.backFin k hk
  · intro k hk
    simp only [hbk] at hk
    rw [show (onFail g s sk).deferred = s0.deferred from by simp only [onFail]; rw [heq]] at hk
    obtain ⟨r, h1, h2⟩ := hd.asked k hk
    exact ⟨r, (hdone _ _).2 h1, h2⟩
  · simp only [onFail]
    exact sound_map_cancel (tr := .fail sk :: s.trace) ⟨trivial, htr ▸ hs⟩ _

/-! ## A success -/

theorem countP_done {tr : List (Event κ π η ι)} {sk : Stage κ} {o : Outcome π η ι}
    (h : finB tr sk = false) : ∀ L : List (Stage κ),
    L.countP (fun y => !finB tr y) =
      L.countP (fun y => !finB (Event.done sk o :: tr) y) + L.count sk
  | [] => rfl
  | a :: L => by
      have ih := countP_done (o := o) h L
      rw [List.countP_cons, List.countP_cons, List.count_cons, ih]
      have hf : finB (Event.done sk o :: tr) a = (decide (sk = a) || finB tr a) := by
        simp [finB, isDone]
      rw [hf]
      by_cases ha : sk = a
      · subst ha; simp [h]; omega
      · have : (a == sk) = false := by simpa using fun h => ha h.symm
        simp [ha, this]; omega

theorem ctl_onDone {g : Graph κ} (ho : Ordered g) {s0 s : St κ π η ι} {sk : Stage κ}
    {o : Outcome π η ι} (ht : Taken g sk s0 s) : Ctl g [] (onDone g s sk o) := by
  obtain ⟨hc, hperm, hrun, hrun', hh, hlt, hst, heq⟩ := ht
  have hpe : s.pend = s0.pend := by rw [heq]
  have htr : s.trace = s0.trace := by rw [heq]
  have hre : s.ready = s0.ready := by rw [heq]
  have hin : s.ind = s0.ind := by rw [heq]
  have her : s.errors = s0.errors := by rw [heq]
  have hskp : sk ∈ s0.pend := hc.actPend sk (hperm.mem_iff.2 List.mem_cons_self)
  have hnd : (sk :: acts [] s).Nodup := hperm.nodup_iff.1 hc.actNodup
  have htr' : (onDone g s sk o).trace = .done sk o :: s0.trace := by simp [onDone, htr]
  have hfin : ∀ x, Finished (onDone g s sk o).trace x ↔ x = sk ∨ Finished s0.trace x := by
    intro x; rw [htr']; simp only [Finished, List.mem_cons, Event.done.injEq]
    constructor
    · rintro ⟨o', ⟨h, -⟩ | h⟩
      · exact .inl h
      · exact .inr ⟨o', h⟩
    · rintro (h | ⟨o', h⟩)
      · exact ⟨o, .inl ⟨h, rfl⟩⟩
      · exact ⟨o', .inr h⟩
  have hfail : ∀ x, Event.fail x ∈ (onDone g s sk o).trace ↔ Event.fail x ∈ s0.trace := by
    intro x; rw [htr']; simp
  have hblk : ∀ x, Blocked g (onDone g s sk o).trace x ↔ Blocked g s0.trace x := by
    intro x; simp only [Blocked, hfail]
  have hstr : starts (onDone g s sk o).trace = starts s0.trace := by rw [htr']; rfl
  have hmp : ∀ x, x ∈ (onDone g s sk o).pend ↔ x ∈ s0.pend ∧ x ≠ sk := by
    intro x
    simp only [onDone, List.mem_filter, Bool.not_eq_true', decide_eq_false_iff_not, hpe]
  have hfb0 : finB s0.trace sk = false := by
    rw [Bool.eq_false_iff]; intro h; exact (hc.pendNot sk hskp).1 (finB_iff.1 h)
  have hind : ∀ x ∈ (onDone g s sk o).pend, (onDone g s sk o).ind x =
      (g.waits x).countP (fun y => !finB (onDone g s sk o).trace y) := by
    intro x hx
    have hx0 := ((hmp x).1 hx).1
    simp only [onDone, hin]
    rw [hc.ind x hx0, count_stageRev ho sk (hc.pendSub x hx0), countP_done (o := o) hfb0, htr]
    push_cast; omega
  have hzero : ∀ x ∈ (onDone g s sk o).pend, (onDone g s sk o).ind x = 0 ↔
      ∀ y ∈ g.waits x, Finished (onDone g s sk o).trace y := by
    intro x hx
    rw [hind x hx]
    have : ((g.waits x).countP (fun y => !finB (onDone g s sk o).trace y) : Int) = 0 ↔
      (g.waits x).countP (fun y => !finB (onDone g s sk o).trace y) = 0 := by omega
    rw [this, List.countP_eq_zero]
    simp only [Bool.not_eq_true', Bool.not_eq_false, finB_iff]
  have hmr : ∀ x, x ∈ (onDone g s sk o).ready ↔ x ∈ s0.ready ∨
      (x ∈ (onDone g s sk o).pend ∧ (onDone g s sk o).ind x = 0 ∧ x ∉ s0.ready ∧
        x ∉ s.running.map Prod.snd) := by
    intro x
    rw [← hre]
    simp only [onDone, List.mem_append, List.mem_filter, Bool.and_eq_true, decide_eq_true_eq,
      Bool.not_eq_true', decide_eq_false_iff_not, and_assoc]
  have hmu : (onDone g s sk o).running = s.running := rfl
  have hact : ∀ x ∈ acts [] s, x ∈ acts [] s0 := fun x hx =>
    hperm.mem_iff.2 (List.mem_cons_of_mem _ hx)
  have hne : ∀ x ∈ acts [] s, x ≠ sk := fun x hx h => (List.nodup_cons.1 hnd).1 (h ▸ hx)
  have hma : ∀ x, x ∈ acts [] (onDone g s sk o) ↔ x ∈ acts [] s ∨
      (x ∈ (onDone g s sk o).pend ∧ (onDone g s sk o).ind x = 0 ∧ x ∉ acts [] s) := by
    intro x
    simp only [acts, List.nil_append, List.mem_append, hmr, hmu, hre]
    tauto
  refine ⟨?_, ?_, ?_, ?_, ?_, ?_, hind, ?_, ?_, ?_, ?_, ?_, hh, hlt, ?_, ?_, ?_⟩
  · intro x hx; exact hc.pendSub x ((hmp x).1 hx).1
  · simp only [onDone, hpe]; exact hc.pendNodup.filter _
  · intro x hx
    rw [hmp, hfin, hfail, hblk]
    rcases hc.part x hx with h | h | h | h <;> tauto
  · intro x hx
    rw [hmp] at hx
    obtain ⟨h1, h2, h3⟩ := hc.pendNot x hx.1
    rw [hfin, hfail, hblk]
    tauto
  · intro x hx
    rw [hfin] at hx
    rw [hfail]
    rcases hx with rfl | hx
    · exact (hc.pendNot x hskp).2.1
    · exact hc.excl x hx
  · intro x hx
    rw [hfin, hfail] at hx
    rcases hx with (rfl | h) | h
    · exact hc.pendSub x hskp
    · exact hc.finStage x (.inl h)
    · exact hc.finStage x (.inr h)
  · have h1 : (acts [] s).Nodup := (List.nodup_cons.1 hnd).2
    simp only [acts, List.nil_append] at h1 ⊢
    obtain ⟨ha, hb, hab⟩ := List.nodup_append.1 h1
    refine List.Nodup.append (List.Nodup.append ha ?_ ?_) hb ?_
    · simp only [hpe]; exact (hc.pendNodup.filter _).filter _
    · intro x hx hy
      simp only [List.mem_filter, Bool.and_eq_true, Bool.not_eq_true', decide_eq_false_iff_not] at hy
      exact hy.2.1.2 hx
    · intro x hx hy
      rcases List.mem_append.1 hx with hx | hx
      · exact hab x hx x hy rfl
      · simp only [List.mem_filter, Bool.and_eq_true, Bool.not_eq_true', decide_eq_false_iff_not]
          at hx
        exact hx.2.2 hy
  · intro x hx
    rcases (hma x).1 hx with h | h
    · exact (hmp x).2 ⟨hc.actPend x (hact x h), hne x h⟩
    · exact h.1
  · intro x hx y hy
    rcases (hma x).1 hx with h | h
    · rw [hfin]; exact .inr (hc.actWaits x (hact x h) y hy)
    · exact (hzero x h.1).1 h.2.1 y hy
  · intro x hx hy
    rw [hma]
    by_cases h : x ∈ acts [] s
    · exact .inl h
    · exact .inr ⟨hx, (hzero x hx).2 hy, h⟩
  · intro x hx y hy
    rw [hfin, hfail] at hx
    rw [hfin]
    rcases hx with (rfl | h) | h
    · exact .inr (hc.actWaits x (hperm.mem_iff.2 List.mem_cons_self) y hy)
    · exact .inr (hc.finWaits x (.inl h) y hy)
    · exact .inr (hc.finWaits x (.inr h) y hy)
  · rw [hstr]; exact hc.startNodup
  · intro x hx
    rw [hstr] at hx
    obtain ⟨h1, h2⟩ := hc.startGone x hx
    simp only [List.nil_append] at h1 ⊢
    rw [hmr, hmp, hmu]
    rcases h2 with h2 | h2
    · rcases hrun' x h2 with h | h
      · exact ⟨by tauto, .inr (by tauto)⟩
      · exact ⟨by tauto, .inl h⟩
    · exact ⟨by tauto, .inr (by tauto)⟩
  · simp only [hfail]
    rw [show (onDone g s sk o).errors = s0.errors from by simp [onDone, her]]
    exact hc.errors

theorem inv_onParsed {g : Graph κ} (ho : Ordered g) {s0 s : St κ π η ι} {k : κ} {p : π}
    (ht : Taken g (.parse k) s0 s) (hd : Dat g s0) (hs : Sound g s0.trace) :
    Inv g [] (onParsed g s (.parse k) p) := by
  have hc := ctl_onDone (o := .parsed p) ho ht
  obtain ⟨hc0, hperm, -, -, -, -, -, heq⟩ := ht
  have htr : s.trace = s0.trace := by rw [heq]
  have hskp : Stage.parse k ∈ s0.pend := hc0.actPend _ (hperm.mem_iff.2 List.mem_cons_self)
  have htr' : (onParsed g s (.parse k) p).trace = .done (.parse k) (.parsed p) :: s0.trace := by
    simp [onParsed, onDone, htr]
  have hfin : ∀ j, Finished (onParsed g s (.parse k) p).trace (.front j) ↔
      Finished s0.trace (.front j) := by
    intro j; rw [htr']; simp [Finished]
  have hbk : backs (onParsed g s (.parse k) p).trace = backs s0.trace := by rw [htr']; rfl
  have hdone : ∀ j o, Event.done (.front j) o ∈ (onParsed g s (.parse k) p).trace ↔
      Event.done (.front j) o ∈ s0.trace := by
    intro j o; rw [htr']; simp
  refine ⟨⟨hc.pendSub, hc.pendNodup, hc.part, hc.pendNot, hc.excl, hc.finStage, hc.ind, hc.actNodup,
    hc.actPend, hc.actWaits, hc.idle, hc.finWaits, hc.handles, hc.handlesLt, hc.startNodup,
    hc.startGone, hc.errors⟩, ⟨?_, ?_, ?_, ?_, ?_, ?_, ?_, ?_, ?_, ?_⟩, ?_⟩
  · intro j o hm; rw [hdone] at hm; simp only [onParsed, onDone]; rw [heq]; exact hd.res j o hm
  · intro j o hm
    rw [htr'] at hm
    simp only [List.mem_cons, Event.done.injEq, Stage.parse.injEq] at hm
    rcases hm with ⟨rfl, rfl⟩ | hm
    · exact ⟨p, rfl, fun _ => by simp [onParsed, Stage.key]⟩
    · have hne : j ≠ k := by rintro rfl; exact (hc0.pendNot _ hskp).1 ⟨o, hm⟩
      obtain ⟨q, hq, hl⟩ := hd.parsed j o hm
      refine ⟨q, hq, fun hj => ?_⟩
      have hj' : Stage.front j ∈ s0.pend := by
        simp only [onParsed, onDone, List.mem_filter] at hj; rw [heq] at hj; exact hj.1
      have hb : (j == k) = false := by simpa using hne
      simp only [onParsed, onDone, Stage.key]
      rw [List.lookup_cons, hb, show s.parsed = s0.parsed from by rw [heq]]
      exact hl hj'
  · intro j; rw [hfin]; simp only [onParsed, onDone]; rw [heq]; exact hd.fdone j
  · intro j r hm; rw [hdone] at hm; simp only [onParsed, onDone]; rw [heq]; exact hd.interest j r hm
  · intro j r hm hr; rw [hdone] at hm; rw [hbk]; simp only [onParsed, onDone]; rw [heq]
    exact hd.defer j r hm hr
  · intro e he; simp only [onParsed, onDone] at he; rw [heq] at he; rw [hfin, hbk]
    exact hd.defOk e he
  · simp only [onParsed, onDone]; rw [heq]; exact hd.defNodup
  · rw [hbk]; exact hd.backNodup
  · intro j hj; rw [hbk] at hj; rw [hfin]; exact hd.backFin j hj
  · intro j hj
    rw [hbk, show (onParsed g s (.parse k) p).deferred = s0.deferred from by
      simp only [onParsed, onDone]; rw [heq]] at hj
    obtain ⟨r, h1, h2⟩ := hd.asked j hj
    exact ⟨r, (hdone _ _).2 h1, h2⟩
  · rw [htr']; exact ⟨trivial, hs⟩

theorem inv_onFronted {g : Graph κ} (ho : Ordered g) {s0 s : St κ π η ι} {k : κ} {r : Result η ι}
    (ht : Taken g (.front k) s0 s) (hd : Dat g s0) (hs : Sound g s0.trace) :
    Inv g [] (onFronted g s (.front k) r) := by
  have hc := ctl_onDone (o := .fronted r) ho ht
  obtain ⟨hc0, hperm, -, -, -, -, -, heq⟩ := ht
  have htr : s.trace = s0.trace := by rw [heq]
  have hskp : Stage.front k ∈ s0.pend := hc0.actPend _ (hperm.mem_iff.2 List.mem_cons_self)
  simp only [onFronted]
  refine inv_flush ho ?_
  have htr' : (onDone g s (.front k) (.fronted r)).trace =
      .done (.front k) (.fronted r) :: s0.trace := by
    simp [onDone, htr]
  have hnf : ∀ o, Event.done (.front k) o ∉ s0.trace := fun o h => (hc0.pendNot _ hskp).1 ⟨o, h⟩
  have hnb : k ∉ backs s0.trace := fun h => (hc0.pendNot _ hskp).1 (hd.backFin k h)
  have hndf : ∀ e ∈ s0.deferred, e.1 ≠ k := fun e he h => by
    have := (hd.defOk e he).2.1; rw [h] at this; exact (hc0.pendNot _ hskp).1 this
  have hfin : ∀ j, Finished (onDone g s (.front k) (.fronted r)).trace (.front j) ↔
      j = k ∨ Finished s0.trace (.front j) := by
    intro j; rw [htr']; simp only [Finished, List.mem_cons, Event.done.injEq, Stage.front.injEq]
    constructor
    · rintro ⟨o', ⟨h, -⟩ | h⟩
      · exact .inl h
      · exact .inr ⟨o', h⟩
    · rintro (h | ⟨o', h⟩)
      · exact ⟨_, .inl ⟨h, rfl⟩⟩
      · exact ⟨o', .inr h⟩
  have hbk : backs (onDone g s (.front k) (.fronted r)).trace = backs s0.trace := by rw [htr']; rfl
  have hdone : ∀ j o, Event.done (.front j) o ∈ (onDone g s (.front k) (.fronted r)).trace ↔
      (j = k ∧ o = .fronted r) ∨ Event.done (.front j) o ∈ s0.trace := by
    intro j o; rw [htr']; simp
  have hfilt : s0.deferred.filter (fun e => !decide (e.1 = k)) = s0.deferred := by
    rw [List.filter_eq_self]; intro e he; simpa using hndf e he
  have hde : s.deferred = s0.deferred := by rw [heq]
  have hrs : s.res = s0.res := by rw [heq]
  have hit : s.interest = s0.interest := by rw [heq]
  have hfd : s.frontDone = s0.frontDone := by rw [heq]
  have hdef : ∀ e, (e ∈ (if r.deferred = true then
      (k, g.closure k) :: s.deferred.filter (fun e => !decide (e.1 = k)) else s.deferred)) ↔
      (r.deferred = true ∧ e = (k, g.closure k)) ∨ e ∈ s0.deferred := by
    intro e
    rw [hde, hfilt]
    split
    · rename_i h; simp [h]
    · rename_i h; simp [h]
  refine ⟨⟨hc.pendSub, hc.pendNodup, hc.part, hc.pendNot, hc.excl, hc.finStage, hc.ind, hc.actNodup,
    hc.actPend, hc.actWaits, hc.idle, hc.finWaits, hc.handles, hc.handlesLt, hc.startNodup,
    hc.startGone, hc.errors⟩, ⟨?_, ?_, ?_, ?_, ?_, ?_, ?_, ?_, ?_, ?_⟩, ?_⟩
  · intro j o hm
    rcases (hdone j o).1 hm with ⟨rfl, rfl⟩ | hm
    · exact ⟨r, rfl, by simp [Stage.key]⟩
    · obtain ⟨q, hq, hl⟩ := hd.res j o hm
      have hne : j ≠ k := fun h => hnf o (h ▸ hm)
      have hb : (j == k) = false := by simpa using hne
      refine ⟨q, hq, ?_⟩
      simp only [onDone, Stage.key]
      rw [List.lookup_cons, hb, hrs]; exact hl
  · intro j o hm
    have hm' : Event.done (.parse j) o ∈ s0.trace := by
      have h2 := hm
      simp only at h2
      rw [htr'] at h2
      simpa using h2
    obtain ⟨q, hq, hl⟩ := hd.parsed j o hm'
    refine ⟨q, hq, fun hj => ?_⟩
    simp only [onDone, List.mem_filter, Bool.not_eq_true', decide_eq_false_iff_not,
      Stage.front.injEq] at hj
    rw [show s.pend = s0.pend from by rw [heq]] at hj
    have := hl hj.1
    rw [← this]
    simp only [onDone, Stage.key]
    rw [show s.parsed = s0.parsed from by rw [heq]]
    exact lookup_filter (fun a => !decide (a = k)) j (by simpa using hj.2) s0.parsed
  · intro j
    rw [hfin]
    simp only [Stage.key, List.mem_cons, onDone, hfd]
    rw [hd.fdone j]
  · intro j q hm
    rcases (hdone j _).1 hm with ⟨rfl, h⟩ | hm
    · have : q = r := by simpa using h
      subst this
      exact List.subset_append_left _ _
    · intro x hx
      refine List.mem_append_right _ ?_
      simp only [onDone, hit]
      exact hd.interest j q hm hx
  · intro j q hm hq
    rw [show backs _ = _ from hbk]
    refine (or_congr_left (hdef (j, g.closure j))).2 ?_
    rcases (hdone j _).1 hm with ⟨rfl, h⟩ | hm
    · have : q = r := by simpa using h
      subst this
      exact .inl (.inl ⟨hq, rfl⟩)
    · rcases hd.defer j q hm hq with h | h
      · exact .inl (.inr h)
      · exact .inr h
  · intro e he
    rw [show backs _ = _ from hbk, show Finished _ _ ↔ _ from hfin e.1]
    rcases (hdef e).1 he with ⟨-, rfl⟩ | he
    · exact ⟨rfl, .inl rfl, hnb⟩
    · obtain ⟨h1, h2, h3⟩ := hd.defOk e he
      exact ⟨h1, .inr h2, h3⟩
  · show ((if r.deferred = true then
      (k, g.closure k) :: s.deferred.filter (fun e => !decide (e.1 = k)) else s.deferred).map
      Prod.fst).Nodup
    rw [hde, hfilt]
    split
    · simp only [List.map_cons, List.nodup_cons]
      refine ⟨fun h => ?_, hd.defNodup⟩
      obtain ⟨e, he, hk⟩ := List.mem_map.1 h
      exact hndf e he hk
    · exact hd.defNodup
  · rw [show backs _ = _ from hbk]; exact hd.backNodup
  · intro j hj
    rw [show backs _ = _ from hbk] at hj
    rw [show Finished _ _ ↔ _ from hfin j]
    exact .inr (hd.backFin j hj)
  · intro j hj
    have : (j = k ∧ r.deferred = true) ∨ Asked s0.trace j := by
      rcases hj with hj | hj
      · obtain ⟨e, he, rfl⟩ := List.mem_map.1 hj
        rcases (hdef e).1 he with ⟨h, rfl⟩ | he
        · exact .inl ⟨rfl, h⟩
        · exact .inr (hd.asked _ (.inl (List.mem_map.2 ⟨e, he, rfl⟩)))
      · rw [show backs _ = _ from hbk] at hj
        exact .inr (hd.asked _ (.inr hj))
    rcases this with ⟨rfl, h⟩ | ⟨q, h1, h2⟩
    · exact ⟨r, (hdone _ _).2 (.inl ⟨rfl, rfl⟩), h⟩
    · exact ⟨q, (hdone _ _).2 (.inr h1), h2⟩
  · show Sound g (onDone g s (.front k) (.fronted r)).trace
    rw [htr']; exact ⟨trivial, hs⟩

/-! ## All states -/

theorem inv_turn {g : Graph κ} (ho : Ordered g) {cw : κ → Nat} {m : Nat} {s s' : St κ π η ι}
    (h : Inv g [] s) (ht : Turn g cw m s s') : Inv g [] s' := by
  obtain ⟨n, sk, o, hr, hf⟩ := ht
  have hi := inv_schedule ho cw m h
  have htk := taken hi.ctl hr
  simp only [react]
  cases sk with
  | parse k =>
      cases o with
      | failed => exact inv_onFail ho htk hi.dat hi.sound
      | parsed p => exact inv_onParsed ho htk hi.dat hi.sound
      | fronted r => exact hf.elim
  | front k =>
      cases o with
      | failed => exact inv_onFail ho htk hi.dat hi.sound
      | parsed p => exact hf.elim
      | fronted r => exact inv_onFronted ho htk hi.dat hi.sound

theorem inv_reach {g : Graph κ} (ho : Ordered g) {cw : κ → Nat} {m : Nat} {s : St κ π η ι}
    (h : Reach g cw m s) : Inv g [] s := by
  induction h with
  | init => exact inv_initial ho
  | turn _ ht ih => exact inv_turn ho ih ht

end Verif.Build
