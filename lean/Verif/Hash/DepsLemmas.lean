import Verif.Hash.DepsSpec
import Verif.Hash.SinkLemmas
import Mathlib.Data.List.Induction

namespace Verif.Hash
open Relation

/-! ### Sets as lists -/

theorem mem_setIns {α : Type} [LinearOrder α] (x z : α) : ∀ l : List α,
    z ∈ setIns x l ↔ z = x ∨ z ∈ l
  | [] => by simp [setIns]
  | y :: ys => by
    simp only [setIns]
    split
    · simp
    · split
      · rename_i h; subst h; simp
      · simp only [List.mem_cons, mem_setIns x z ys]; tauto

theorem mem_setList {α : Type} [LinearOrder α] (z : α) : ∀ l : List α, z ∈ setList l ↔ z ∈ l
  | [] => by simp [setList]
  | y :: ys => by
    have := mem_setList z ys
    simp only [setList] at this
    simp [setList, mem_setIns, this]

theorem setIns_sorted {α : Type} [LinearOrder α] (x : α) : ∀ l : List α,
    l.Pairwise (· < ·) → (setIns x l).Pairwise (· < ·)
  | [], _ => by simp [setIns]
  | y :: ys, h => by
    simp only [List.pairwise_cons] at h
    simp only [setIns]
    split
    · rename_i hxy
      simp only [List.pairwise_cons, List.mem_cons, forall_eq_or_imp]
      exact ⟨⟨hxy, fun a ha => lt_trans hxy (h.1 a ha)⟩, h.1, h.2⟩
    · split
      · exact List.pairwise_cons.2 h
      · rename_i h1 h2
        refine List.pairwise_cons.2 ⟨?_, setIns_sorted x ys h.2⟩
        intro a ha
        rcases (mem_setIns x a ys).1 ha with rfl | ha
        · exact lt_of_le_of_ne (not_lt.1 h1) (Ne.symm h2)
        · exact h.1 a ha

theorem setList_sorted {α : Type} [LinearOrder α] : ∀ l : List α,
    (setList l).Pairwise (· < ·)
  | [] => by simp [setList]
  | y :: ys => setIns_sorted y _ (setList_sorted ys)

theorem sorted_ext {α : Type} [LinearOrder α] {l l' : List α} (h : l.Pairwise (· < ·))
    (h' : l'.Pairwise (· < ·)) (e : ∀ x, x ∈ l ↔ x ∈ l') : l = l' := by
  have n : l.Nodup := h.imp (fun hab => ne_of_lt hab)
  have n' : l'.Nodup := h'.imp (fun hab => ne_of_lt hab)
  exact ((List.perm_ext_iff_of_nodup n n').2 e).eq_of_pairwise
    (fun a b _ _ hab hba => absurd (lt_trans hab hba) (lt_irrefl _)) h h'

theorem setList_ext {α : Type} [LinearOrder α] {l l' : List α} (e : ∀ x, x ∈ l ↔ x ∈ l') :
    setList l = setList l' :=
  sorted_ext (setList_sorted l) (setList_sorted l') (fun x => by
    rw [mem_setList, mem_setList]; exact e x)

/-! ### Feeds look only where they say -/

theorem feedDeps_congr {f g : Acc} {ls : List Nat} (es : List (Nat ×ₗ Hash))
    (h : ∀ d ∈ ls, f d = g d) : feedDeps f ls es = feedDeps g ls es := by
  have : ls.flatMap (feedLocal f) = ls.flatMap (feedLocal g) := by
    induction ls with
    | nil => rfl
    | cons d ds ih =>
      simp only [List.flatMap_cons, feedLocal, h d (by simp)]
      rw [← feedLocal, ih (fun x hx => h x (by simp [hx]))]
  simp only [feedDeps, this]

theorem feedSelf_congr {f g : Acc} {s : Hash} {ls : List Nat} {es : List (Nat ×ₗ Hash)}
    (h : ∀ d ∈ ls, f d = g d) : feedSelf s f ls es = feedSelf s g ls es := by
  simp only [feedSelf, feedDeps_congr es h]

theorem mem_outs {D : Deps} {ns : List Nat} {d : Nat} :
    d ∈ D.outs ns ↔ (∃ n ∈ ns, d ∈ D.loc n) ∧ d ∉ ns := by
  simp [Deps.outs, mem_setList, List.mem_filter, List.mem_flatMap]

theorem group_congr {D : Deps} {H : List Nat → Hash} {f g : Acc} {ns : List Nat}
    (h : ∀ n ∈ ns, ∀ d ∈ D.loc n, d ∉ ns → f d = g d) : D.group H f ns = D.group H g ns := by
  simp only [Deps.group, feedGroup]
  rw [feedDeps_congr]
  intro d hd
  obtain ⟨⟨n, hn, hd⟩, hnot⟩ := mem_outs.1 hd
  exact h n hn d hd hnot

theorem edge_mem {D : Deps} {n d : Nat} (h : TransGen (Edge D) n d) :
    D.self n ≠ none ∧ D.self d ≠ none := by
  constructor
  · obtain ⟨c, h, _⟩ := (TransGen.head'_iff).1 h
    exact h.1
  · obtain ⟨c, _, h⟩ := (TransGen.tail'_iff).1 h
    exact h.2.2

/-! ### The path over components -/

theorem insertOne_val {D : Deps} {H : List Nat → Hash} {g : Hash} {n : Nat} {s : Hash}
    (hs : D.self n = some s) : ∀ (ns : List Nat) (m : Acc),
    m n = some (digest H (feedMember s g (D.key n))) ∨ n ∈ ns →
    ns.foldl (insertOne D H g) m n = some (digest H (feedMember s g (D.key n)))
  | [], m, h => by simpa using h
  | x :: xs, m, h => by
    simp only [List.foldl_cons]
    apply insertOne_val hs xs
    by_cases hx : n = x
    · subst hx
      left
      simp [insertOne, hs, Acc.put]
    · rcases h with h | h
      · left
        cases hx' : D.self x with
        | some t => simp only [insertOne, hx', Acc.put, hx, if_false, h]
        | none => simp only [insertOne, hx', h]
      · right
        simpa [hx] using h

theorem insertOne_other {D : Deps} {H : List Nat → Hash} {g : Hash} {n : Nat} :
    ∀ (ns : List Nat) (m : Acc), n ∉ ns → ns.foldl (insertOne D H g) m n = m n
  | [], m, _ => rfl
  | x :: xs, m, h => by
    simp only [List.mem_cons, not_or] at h
    simp only [List.foldl_cons]
    rw [insertOne_other xs _ h.2]
    cases hx' : D.self x with
    | some t => simp only [insertOne, hx', Acc.put, h.1, if_false]
    | none => simp only [insertOne, hx']

theorem addScc_other {D : Deps} {H : List Nat → Hash} {n : Nat} {c : Scc} {m : Acc}
    (h : n ∉ c.members) : addScc D H m c n = m n := by
  cases c with
  | acyclic x =>
    simp only [Scc.members, List.mem_singleton] at h
    cases hx' : D.self x with
    | some t => simp only [addScc, hx', Acc.put, h, if_false]
    | none => simp only [addScc, hx']
  | cyclic ns => exact insertOne_other ns m h

theorem addSccs_other {D : Deps} {H : List Nat → Hash} {n : Nat} :
    ∀ (cs : List Scc) (m : Acc), n ∉ members cs → cs.foldl (addScc D H) m n = m n
  | [], _, _ => rfl
  | c :: cs, m, h => by
    simp only [members, List.flatMap_cons, List.mem_append, not_or] at h
    simp only [List.foldl_cons]
    rw [addSccs_other cs _ h.2, addScc_other h.1]

theorem addScc_some {D : Deps} {H : List Nat → Hash} {n : Nat} {c : Scc} {m : Acc}
    (h : n ∈ c.members) (hs : D.self n ≠ none) : addScc D H m c n ≠ none := by
  obtain ⟨s, hs⟩ := Option.ne_none_iff_exists'.1 hs
  cases c with
  | acyclic x =>
    simp only [Scc.members, List.mem_singleton] at h
    subst h
    simp [addScc, hs, Acc.put]
  | cyclic ns =>
    simp only [addScc]
    rw [insertOne_val hs ns m (Or.inr h)]
    simp

theorem addSccs_some {D : Deps} {H : List Nat → Hash} {n : Nat} (hs : D.self n ≠ none) :
    ∀ (cs : List Scc) (m : Acc), m n ≠ none ∨ n ∈ members cs →
      cs.foldl (addScc D H) m n ≠ none
  | [], m, h => by simpa [members] using h
  | c :: cs, m, h => by
    simp only [List.foldl_cons]
    apply addSccs_some hs cs
    by_cases hc : n ∈ c.members
    · exact Or.inl (addScc_some hc hs)
    · rw [addScc_other hc]
      rcases h with h | h
      · exact Or.inl h
      · right
        simp only [members, List.flatMap_cons, List.mem_append] at h
        exact h.resolve_left hc

/-- What a component finds when it looks up a dependency outside it. -/
theorem look_pre {D : Deps} {H : List Nat → Hash} {cs pre post : List Scc} {c : Scc}
    (hI : IsSccs D cs) (he : cs = pre ++ c :: post) {n d : Nat} (hn : n ∈ c.members)
    (hd : d ∈ D.loc n) (hc : d ∉ c.members) :
    D.look (pre.foldl (addScc D H) (fun _ => none)) d = slow D H cs d := by
  have hns : D.self n ≠ none := (hI.cover n).1 (by
    subst he; simp [members]; right; left; exact hn)
  cases hs : D.self d with
  | none =>
    have hm : d ∉ members cs := fun h => (hI.cover d).1 h hs
    have hp : d ∉ members pre := by
      intro h; apply hm; subst he; simp only [members, List.flatMap_append, List.mem_append]
      exact Or.inl h
    rw [slow, addSccs_other cs _ hm]
    simp only [Deps.look]
    rw [addSccs_other pre _ hp]
    exact hs
  | some s =>
    have hne : D.self d ≠ none := by rw [hs]; simp
    have hp : d ∈ members pre :=
      (hI.order pre c post he n hn d ⟨hns, hd, hne⟩).resolve_left hc
    have hpost : d ∉ members (c :: post) := by
      have := hI.nodup
      subst he
      simp only [members, List.flatMap_append] at this
      exact fun h => (List.nodup_append.1 this).2.2 d hp d h rfl
    have e : slow D H cs d = pre.foldl (addScc D H) (fun _ => none) d := by
      subst he
      rw [slow, List.foldl_append, addSccs_other _ _ hpost]
    rw [e]
    have := addSccs_some (H := H) hne pre (fun _ => none) (Or.inr hp)
    simp only [Deps.look]
    obtain ⟨h, hh⟩ := Option.ne_none_iff_exists'.1 this
    rw [hh]

theorem slow_final {D : Deps} {H : List Nat → Hash} {cs : List Scc} (hI : IsSccs D cs) :
    Final D H (slow D H cs) := by
  have hpos : ∀ n, D.self n ≠ none → ∃ pre c post, cs = pre ++ c :: post ∧ n ∈ c.members ∧
      slow D H cs n = addScc D H (pre.foldl (addScc D H) (fun _ => none)) c n := by
    intro n hn
    have := (hI.cover n).2 hn
    obtain ⟨c, hc, hnc⟩ := List.mem_flatMap.1 this
    obtain ⟨pre, post, he⟩ := List.append_of_mem hc
    refine ⟨pre, c, post, he, hnc, ?_⟩
    have hpost : n ∉ members post := by
      have := hI.nodup
      subst he
      simp only [members, List.flatMap_append, List.flatMap_cons] at this
      have := (List.nodup_append.1 (List.nodup_append.1 this).2.1).2.2
      exact fun h => this n hnc n h rfl
    subst he
    rw [slow, List.foldl_append, List.foldl_cons, addSccs_other _ _ hpost]
  have hcyc : ∀ n pre c post, cs = pre ++ c :: post → n ∈ c.members → 
      (∃ ns, c = .cyclic ns ∧ OnCycle D n) ∨ (c = .acyclic n ∧ ¬ OnCycle D n) := by
    intro n pre c post he hn
    have hc : c ∈ cs := by subst he; simp
    cases c with
    | acyclic x =>
      simp only [Scc.members, List.mem_singleton] at hn
      subst hn
      exact Or.inr ⟨rfl, hI.single n hc⟩
    | cyclic ns => exact Or.inl ⟨ns, rfl, ((hI.group ns hc n hn n).1 hn).1⟩
  refine ⟨?_, ?_, ?_⟩
  · intro n
    constructor
    · intro h
      by_contra hs
      exact addSccs_some (H := H) hs cs (fun _ => none) (Or.inr ((hI.cover n).2 hs)) h
    · intro h
      exact addSccs_other cs _ (fun hm => (hI.cover n).1 hm h)
  · intro n s hs hnc
    obtain ⟨pre, c, post, he, hn, hv⟩ := hpos n (by rw [hs]; simp)
    rcases hcyc n pre c post he hn with ⟨ns, _, h⟩ | ⟨rfl, _⟩
    · exact absurd h hnc
    · rw [hv]
      simp only [addScc, hs, Acc.put, if_true]
      refine congrArg (fun f => some (digest H f)) (feedSelf_congr (fun d hd => ?_))
      by_cases hd' : d = n
      · subst hd'
        exfalso
        apply hnc
        exact TransGen.single ⟨by rw [hs]; simp, hd, by rw [hs]; simp⟩
      · exact look_pre hI he hn hd (by simpa [Scc.members] using hd')
  · intro n s hs hoc
    obtain ⟨pre, c, post, he, hn, hv⟩ := hpos n (by rw [hs]; simp)
    rcases hcyc n pre c post he hn with ⟨ns, rfl, _⟩ | ⟨_, h⟩
    · refine ⟨ns, ?_, hI.group ns (by subst he; simp) n hn, ?_⟩
      · have := hI.nodup
        subst he
        simp only [members, List.flatMap_append, List.flatMap_cons] at this
        exact (List.nodup_append.1 (List.nodup_append.1 this).2.1).1
      · rw [hv]
        simp only [addScc]
        rw [insertOne_val hs ns _ (Or.inr hn)]
        rw [group_congr (ns := ns) (f := D.look (pre.foldl (addScc D H) (fun _ => none)))
          (fun x hx d hd hnd => look_pre (H := H) hI he (n := x) hx hd hnd)]
    · exact absurd hoc h

/-! ### The path by depth-first search -/

/-- The maps the search goes through: one name after the other, each after the
names it depends on. -/
inductive Built (D : Deps) (H : List Nat → Hash) : Acc → Prop where
  | empty : Built D H (fun _ => none)
  | add {m : Acc} {n : Nat} {s : Hash} : Built D H m → m n = none → D.self n = some s →
      (∀ d ∈ D.loc n, D.self d ≠ none → m d ≠ none) →
      Built D H (m.put n (digest H (feedSelf s (D.look m) (D.loc n) (D.ext n))))

/-- One map has the entries of another. -/
def Ext (m m' : Acc) : Prop := ∀ n h, m n = some h → m' n = some h

theorem Ext.ne {m m' : Acc} (h : Ext m m') {n : Nat} (hn : m n ≠ none) : m' n ≠ none := by
  obtain ⟨x, hx⟩ := Option.ne_none_iff_exists'.1 hn
  rw [h n x hx]; simp

theorem put_ext {m : Acc} {n : Nat} {h : Hash} (hn : m n = none) : Ext m (m.put n h) := by
  intro x y hx
  simp only [Acc.put]
  split
  · rename_i e; subst e; rw [hn] at hx; cases hx
  · exact hx

/-- What one visit does. -/
def VisitOk (D : Deps) (H : List Nat → Hash) (vis : List Nat) (f : Acc → Nat → Option Acc) : Prop :=
  ∀ m n m', Built D H m → f m n = some m' → Built D H m' ∧ Ext m m' ∧
    (D.self n ≠ none → m' n ≠ none) ∧ ∀ v ∈ vis, m v = none → m' v = none

theorem foldVisit_ok {D : Deps} {H : List Nat → Hash} {vis : List Nat}
    {f : Acc → Nat → Option Acc} (hf : VisitOk D H vis f) : ∀ (ns : List Nat) (m m' : Acc),
    Built D H m → foldVisit f m ns = some m' → Built D H m' ∧ Ext m m' ∧
      (∀ n ∈ ns, D.self n ≠ none → m' n ≠ none) ∧ ∀ v ∈ vis, m v = none → m' v = none
  | [], m, m', hB, h => by
    cases h
    exact ⟨hB, fun _ _ h => h, by simp, fun _ _ h => h⟩
  | n :: ns, m, m', hB, h => by
    simp only [foldVisit] at h
    obtain ⟨m1, h1, h2⟩ := Option.bind_eq_some_iff.1 h
    obtain ⟨b1, e1, s1, v1⟩ := hf m n m1 hB h1
    obtain ⟨b2, e2, s2, v2⟩ := foldVisit_ok hf ns m1 m' b1 h2
    refine ⟨b2, fun x y hx => e2 x y (e1 x y hx), ?_, fun v hv hm => v2 v hv (v1 v hv hm)⟩
    intro x hx hs
    rcases List.mem_cons.1 hx with rfl | hx
    · exact e2.ne (s1 hs)
    · exact s2 x hx hs

theorem visit_ok (D : Deps) (H : List Nat → Hash) : ∀ (fuel : Nat) (vis : List Nat),
    VisitOk D H vis (visit D H fuel vis) := by
  intro fuel
  induction fuel with
  | zero =>
    intro vis m n m' hB h
    rw [visit.eq_def] at h
    cases hm : m n with
    | some x =>
      simp only [hm] at h
      cases h
      exact ⟨hB, fun _ _ h => h, fun _ => by rw [hm]; simp, fun _ _ h => h⟩
    | none =>
      cases hs : D.self n with
      | none =>
        simp only [hm, hs] at h
        cases h
        exact ⟨hB, fun _ _ h => h, fun h => absurd rfl h, fun _ _ h => h⟩
      | some s => simp only [hm, hs] at h; cases h
  | succ k ih =>
    intro vis m n m' hB h
    rw [visit.eq_def] at h
    cases hm : m n with
    | some x =>
      simp only [hm] at h
      cases h
      exact ⟨hB, fun _ _ h => h, fun _ => by rw [hm]; simp, fun _ _ h => h⟩
    | none =>
      cases hs : D.self n with
      | none =>
        simp only [hm, hs] at h
        cases h
        exact ⟨hB, fun _ _ h => h, fun h => absurd rfl h, fun _ _ h => h⟩
      | some s =>
        simp only [hm, hs] at h
        split at h
        · cases h
        · rename_i hv
          obtain ⟨m1, h1, h2⟩ := Option.map_eq_some_iff.1 h
          subst h2
          obtain ⟨b, e, s', v⟩ := foldVisit_ok (ih (n :: vis)) _ m m1 hB h1
          have hn : m1 n = none := v n (by simp) hm
          refine ⟨.add b hn hs s', fun x y hx => put_ext hn x y (e x y hx), ?_, ?_⟩
          · intro _; simp [Acc.put]
          · intro w hw hmw
            have : w ≠ n := by rintro rfl; exact hv hw
            simp only [Acc.put, this, if_false]
            exact v w (by simp [hw]) hmw

theorem built_self {D : Deps} {H : List Nat → Hash} {m : Acc} (hB : Built D H m) {n : Nat}
    (h : m n ≠ none) : D.self n ≠ none := by
  induction hB with
  | empty => exact absurd rfl h
  | @add m x s _ _ hs _ ih =>
    by_cases e : n = x
    · subst e; rw [hs]; simp
    · simp only [Acc.put, e, if_false] at h; exact ih h

theorem built_closed {D : Deps} {H : List Nat → Hash} {m : Acc} (hB : Built D H m) {n d : Nat}
    (h : m n ≠ none) (he : Edge D n d) : m d ≠ none := by
  induction hB with
  | empty => exact absurd rfl h
  | @add m x s hb hx hs hc ih =>
    have key : m d ≠ none := by
      by_cases e : n = x
      · subst e; exact hc d he.2.1 he.2.2
      · simp only [Acc.put, e, if_false] at h; exact ih h
    exact (put_ext hx).ne key

theorem built_reach {D : Deps} {H : List Nat → Hash} {m : Acc} (hB : Built D H m) {n d : Nat}
    (h : m n ≠ none) (he : TransGen (Edge D) n d) : m d ≠ none := by
  induction he with
  | single e => exact built_closed hB h e
  | tail _ e ih => exact built_closed hB ih e

theorem built_acyclic {D : Deps} {H : List Nat → Hash} {m : Acc} (hB : Built D H m) {n : Nat}
    (h : m n ≠ none) : ¬ OnCycle D n := by
  induction hB with
  | empty => exact absurd rfl h
  | @add m x s hb hx hs hc ih =>
    by_cases e : n = x
    · subst e
      intro hcyc
      obtain ⟨d, he, hr⟩ := (TransGen.head'_iff).1 hcyc
      have hd := hc d he.2.1 he.2.2
      rcases (reflTransGen_iff_eq_or_transGen).1 hr with rfl | hr
      · exact hd hx
      · exact built_reach hb hd hr hx
    · simp only [Acc.put, e, if_false] at h; exact ih h

theorem built_val {D : Deps} {H : List Nat → Hash} {m : Acc} (hB : Built D H m) {n : Nat} {s : Hash}
    (h : m n ≠ none) (hs : D.self n = some s) :
    m n = some (digest H (feedSelf s m (D.loc n) (D.ext n))) := by
  induction hB with
  | empty => exact absurd rfl h
  | @add m x s' hb hx hs' hc ih =>
    have hext := put_ext (h := digest H (feedSelf s' (D.look m) (D.loc x) (D.ext x))) hx
    have stable : ∀ d, D.self d ≠ none → m d ≠ none →
        m d = m.put x (digest H (feedSelf s' (D.look m) (D.loc x) (D.ext x))) d := by
      intro d _ hd
      obtain ⟨y, hy⟩ := Option.ne_none_iff_exists'.1 hd
      rw [hy, hext d y hy]
    have absent : ∀ d, D.self d = none →
        m.put x (digest H (feedSelf s' (D.look m) (D.loc x) (D.ext x))) d = none := by
      intro d hd
      by_contra hne
      exact built_self (.add hb hx hs' hc) hne hd
    have absent' : ∀ d, D.self d = none → m d = none := by
      intro d hd
      by_contra hne
      exact built_self hb hne hd
    by_cases e : n = x
    · subst e
      rw [hs] at hs'
      cases hs'
      conv_lhs => simp only [Acc.put, if_true]
      refine congrArg (fun f => some (digest H f)) (feedSelf_congr (fun d hd => ?_))
      cases hsd : D.self d with
      | none => rw [absent d hsd]; simp only [Deps.look, absent' d hsd, hsd]
      | some sd =>
        have hne : D.self d ≠ none := by rw [hsd]; simp
        have hmd := hc d hd hne
        rw [← stable d hne hmd]
        obtain ⟨y, hy⟩ := Option.ne_none_iff_exists'.1 hmd
        simp only [Deps.look, hy]
    · have h' : m n ≠ none := by simpa only [Acc.put, e, if_false] using h
      have hv := ih h'
      rw [← stable n (by rw [hs]; simp) h', hv]
      refine congrArg (fun f => some (digest H f)) (feedSelf_congr (fun d hd => ?_))
      cases hsd : D.self d with
      | none => rw [absent d hsd, absent' d hsd]
      | some sd =>
        have hne : D.self d ≠ none := by rw [hsd]; simp
        exact stable d hne (built_closed hb h' ⟨by rw [hs]; simp, hd, hne⟩)

theorem mem_selfs {D : Deps} {n : Nat} (h : D.self n ≠ none) : n ∈ D.selfs.map (·.1) := by
  unfold Deps.self at h
  generalize D.selfs = l at h
  induction l with
  | nil => exact absurd rfl h
  | cons p ps ih =>
    obtain ⟨a, b⟩ := p
    rw [List.lookup.eq_def] at h
    by_cases e : n = a
    · simp [e]
    · have e' : (n == a) = false := by simpa using e
      simp only [e'] at h
      simp only [List.map_cons, List.mem_cons]
      exact Or.inr (ih h)

theorem fast_built {D : Deps} {H : List Nat → Hash} {m : Acc} (h : fast D H = some m) :
    Built D H m ∧ ∀ n, D.self n ≠ none → m n ≠ none := by
  obtain ⟨b, _, s, _⟩ := foldVisit_ok (visit_ok D H (maxDepth + 1) []) _ _ m .empty h
  exact ⟨b, fun n hn => s n (mem_selfs hn) hn⟩

theorem fast_acyclic {D : Deps} {H : List Nat → Hash} {m : Acc} (h : fast D H = some m) (n : Nat) :
    ¬ OnCycle D n := by
  obtain ⟨b, s⟩ := fast_built h
  intro hc
  exact built_acyclic b (s n (edge_mem hc).1) hc

theorem fast_final {D : Deps} {H : List Nat → Hash} {m : Acc} (h : fast D H = some m) :
    Final D H m := by
  obtain ⟨b, s⟩ := fast_built h
  refine ⟨?_, ?_, ?_⟩
  · intro n
    constructor
    · intro hn
      by_contra hs
      exact s n hs hn
    · intro hs
      by_contra hn
      exact built_self b hn hs
  · intro n t hs _
    exact built_val b (s n (by rw [hs]; simp)) hs
  · intro n t _ hc
    exact absurd hc (fast_acyclic h n)

/-! ### The equations have one solution -/

theorem sortKey_perm (D : Deps) (ns : List Nat) : (D.sortKey ns).Perm ns :=
  List.perm_insertionSort _ ns

theorem sortKey_ext {D : Deps} (hK : KeysDiffer D) {ns ms : List Nat} (hn : ns.Nodup)
    (hm : ms.Nodup) (hs : ∀ x ∈ ns, D.self x ≠ none) (e : ∀ x, x ∈ ns ↔ x ∈ ms) :
    D.sortKey ns = D.sortKey ms := by
  have hp : (D.sortKey ns).Perm (D.sortKey ms) :=
    (sortKey_perm D ns).trans (((List.perm_ext_iff_of_nodup hn hm).2 e).trans
      (sortKey_perm D ms).symm)
  have sorted : ∀ l, (D.sortKey l).Pairwise (fun a b => D.key a ≤ D.key b) := by
    intro l
    have : Std.Total (fun a b => D.key a ≤ D.key b) := ⟨fun a b => le_total _ _⟩
    have : IsTrans Nat (fun a b => D.key a ≤ D.key b) := ⟨fun a b c => le_trans⟩
    exact List.pairwise_insertionSort _ l
  refine hp.eq_of_pairwise ?_ (sorted ns) (sorted ms)
  intro a b ha hb hab hba
  exact hK a b (hs a ((sortKey_perm D ns).mem_iff.1 ha))
    (hs b ((e b).2 ((sortKey_perm D ms).mem_iff.1 hb))) (le_antisymm hab hba)

theorem group_ext {D : Deps} {H : List Nat → Hash} (hK : KeysDiffer D) {F G : Acc}
    {ns ms : List Nat} (hn : ns.Nodup) (hm : ms.Nodup) (hs : ∀ x ∈ ns, D.self x ≠ none)
    (e : ∀ x, x ∈ ns ↔ x ∈ ms)
    (h : ∀ n ∈ ns, ∀ d ∈ D.loc n, d ∉ ns → F d = G d) : D.group H F ns = D.group H G ms := by
  rw [group_congr h]
  simp only [Deps.group, Deps.groupSelfs, Deps.outs, Deps.exts]
  rw [sortKey_ext hK hn hm hs e,
    setList_ext (l := (ns.flatMap D.loc).filter (· ∉ ns))
      (l' := (ms.flatMap D.loc).filter (· ∉ ms))
      (fun x => by simp only [List.mem_filter, List.mem_flatMap, e]),
    setList_ext (l := ns.flatMap D.ext) (l' := ms.flatMap D.ext)
      (fun x => by simp only [List.mem_flatMap, e])]

/-- Induction over the components: from what a component depends on to it. -/
theorem scc_induction {D : Deps} {cs : List Scc} (hI : IsSccs D cs) {P : Nat → Prop}
    (h : ∀ c ∈ cs, (∀ n ∈ c.members, ∀ d, Edge D n d → d ∉ c.members → P d) →
      ∀ n ∈ c.members, P n) :
    ∀ n, D.self n ≠ none → P n := by
  have aux : ∀ pre post, cs = pre ++ post → ∀ n ∈ members pre, P n := by
    intro pre
    induction pre using List.reverseRecOn with
    | nil => intro _ _ n hn; simp [members] at hn
    | append_singleton pre c ih =>
      intro post he n hn
      have he' : cs = pre ++ c :: post := by rw [he]; simp
      have ihp := ih (c :: post) he'
      simp only [members, List.flatMap_append, List.flatMap_cons, List.flatMap_nil,
        List.append_nil, List.mem_append] at hn
      rcases hn with hn | hn
      · exact ihp n hn
      · refine h c (by rw [he']; simp) (fun x hx d hd hdc => ?_) n hn
        exact ihp d ((hI.order pre c post he' x hx d hd).resolve_left hdc)
  intro n hn
  exact aux cs [] (by simp) n ((hI.cover n).2 hn)

theorem final_unique {D : Deps} {H : List Nat → Hash} {cs : List Scc} (hI : IsSccs D cs)
    {F G : Acc} (hF : Final D H F) (hG : Final D H G)
    (hK : KeysDiffer D ∨ ∀ n, ¬ OnCycle D n) : F = G := by
  have none_eq : ∀ d, D.self d = none → F d = G d := by
    intro d hd; rw [(hF.dom d).2 hd, (hG.dom d).2 hd]
  have key : ∀ n, D.self n ≠ none → F n = G n := by
    refine scc_induction hI (P := fun n => F n = G n) ?_
    intro c hc ih n hn
    have hsn : D.self n ≠ none := (hI.cover n).1 (List.mem_flatMap.2 ⟨c, hc, hn⟩)
    obtain ⟨s, hs⟩ := Option.ne_none_iff_exists'.1 hsn
    cases c with
    | acyclic x =>
      simp only [Scc.members, List.mem_singleton] at hn
      subst hn
      have hnc := hI.single n hc
      rw [hF.single n s hs hnc, hG.single n s hs hnc]
      refine congrArg (fun f => some (digest H f)) (feedSelf_congr (fun d hd => ?_))
      cases hd' : D.self d with
      | none => exact none_eq d hd'
      | some t =>
        have he : Edge D n d := ⟨hsn, hd, by rw [hd']; simp⟩
        refine ih n (by simp [Scc.members]) d he ?_
        simp only [Scc.members, List.mem_singleton]
        rintro rfl
        exact hnc (.single he)
    | cyclic ns =>
      have hmut := hI.group ns hc n hn
      have hoc : OnCycle D n := ((hmut n).1 hn).1
      have hK := hK.resolve_right (fun h => h n hoc)
      obtain ⟨ns1, d1, m1, e1⟩ := hF.group n s hs hoc
      obtain ⟨ns2, d2, m2, e2⟩ := hG.group n s hs hoc
      rw [e1, e2]
      have e12 : ∀ x, x ∈ ns1 ↔ x ∈ ns2 := fun x => (m1 x).trans (m2 x).symm
      have e1n : ∀ x, x ∈ ns1 ↔ x ∈ ns := fun x => (m1 x).trans (hmut x).symm
      have hself : ∀ x ∈ ns1, D.self x ≠ none := fun x hx => (edge_mem ((m1 x).1 hx).1).2
      rw [group_ext hK d1 d2 hself e12]
      intro x hx d hd hnd
      cases hd' : D.self d with
      | none => exact none_eq d hd'
      | some t =>
        exact ih x ((e1n x).1 hx) d ⟨hself x hx, hd, by rw [hd']; simp⟩
          (fun h => hnd ((e1n d).2 h))
  funext n
  by_cases h : D.self n = none
  · exact none_eq n h
  · exact key n h

end Verif.Hash
