import Verif.Set.Inv
/-!
# Every set operation keeps the invariant
-/
namespace Verif.Set
open Verif
open Verif.Dict (HashW exists_least getElem?_of_lt)
set_option linter.unusedSectionVars false
attribute [local irreducible] lhash
variable {K : Type} {W : HashW K} [DecidableEq K]

theorem visit_nonnull {h : Int} {key : K} {e : Entry K} (hv : visit W h key e = .miss) : e.key ≠ .null := by
  intro hk
  unfold visit at hv
  rw [hk] at hv
  simp at hv

theorem not_mem_iff {eq : K → K → Bool} {l : List K} {k : K} : ¬ Mem eq l k ↔ ∀ x ∈ l, eq x k = false := by
  unfold Mem
  constructor
  · intro h x hx
    exact Bool.eq_false_iff.2 (fun he => h ⟨x, hx, he⟩)
  · rintro h ⟨x, hx, he⟩
    rw [h x hx] at he
    simp at he

theorem mem_perm {eq : K → K → Bool} {l l' : List K} (h : l.Perm l') (k : K) : Mem eq l k ↔ Mem eq l' k :=
  ⟨fun ⟨x, hx, he⟩ => ⟨x, h.mem_iff.1 hx, he⟩, fun ⟨x, hx, he⟩ => ⟨x, h.mem_iff.2 hx, he⟩⟩

theorem distinct_perm (ok : W.Ok) {l l' : List K} (h : l.Perm l') (hd : Distinct W.eq l) : Distinct W.eq l' := by
  refine h.pairwise hd ?_
  intro x y hxy
  refine Bool.eq_false_iff.2 (fun he => ?_)
  rw [ok.symm _ _ he] at hxy
  simp at hxy

theorem Inv.room {s : SetObj K} {l : List K} (h : Inv W s l) : used s.table < s.table.length := by
  have h1 := h.fill
  have h2 := h.load
  have h3 := h.tok.pos
  unfold SetObj.size at h2
  omega

/-- The length of the represented list is the number of live entries. -/
theorem Inv.live_length {s : SetObj K} {l : List K} (h : Inv W s l) : (live s.table).length = l.length := h.perm.length_eq

/-- `B_set_lookkey`. -/
theorem lookkey_spec (hn : HOk W) {s : SetObj K} {l : List K} (h : Inv W s l) (key : K) :
    Term W (lookkey W s key (lhash W key)) (fun i => ∃ e, s.table[i]? = some e ∧
      ((e.key = .null ∧ ¬ Mem W.eq l key) ∨ ∃ k, e.key = .elem k ∧ W.eq k key = true)) := by
  have e0 : lookkey W s key (lhash W key) =
      lookLoop W s.table (lhash W key) key (fuel s.table.length) (istate s.table.length (lhash W key) 0) := rfl
  rw [e0]
  rcases h.tok.stop hn h.room key with ⟨hneg, hmiss⟩ | ⟨N, e, hN, he, hmiss, hcase⟩
  · exact Or.inl ⟨lookLoop_div hmiss _ 0 (by omega), hneg⟩
  · refine Or.inr ⟨islot s.table.length (lhash W key) N, ?_, e, he, ?_⟩
    · refine lookLoop_spec he ?_ hmiss _ 0 (by omega) (by omega)
      rcases hcase with hc | ⟨k, hc, _⟩
      · exact Or.inl hc.1
      · exact Or.inr hc
    · rcases hcase with hc | ⟨k, _, hc⟩
      · refine Or.inl ⟨visit_empty hc.1, ?_⟩
        rw [← mem_perm h.perm]
        exact not_mem_iff.2 hc.2
      · exact Or.inr ⟨k, hc⟩

theorem mem_of_elem {s : SetObj K} {l : List K} (h : Inv W s l) {i : Nat} {e : Entry K} {k : K}
    (he : s.table[i]? = some e) (hk : e.key = .elem k) : k ∈ l :=
  h.perm.mem_iff.1 (mem_live.2 ⟨i, e, he, hk⟩)

/-- `B_set_contains_entry` decides membership. -/
theorem containsEntry_spec (hn : HOk W) {s : SetObj K} {l : List K} (h : Inv W s l) (key : K) :
    Term W (containsEntry W s key (lhash W key)) (fun b => b = true ↔ Mem W.eq l key) := by
  unfold containsEntry
  refine (lookkey_spec hn h key).bind ?_
  rintro i ⟨e, h2, h3⟩
  rw [entryAt_of h2, Res.ok_bind]
  refine Term.pure ?_
  unfold Entry.nonNull
  rcases h3 with ⟨h3, h4⟩ | ⟨k, h3, h4⟩
  · rw [h3]; simpa using h4
  · rw [h3]
    simp only [true_iff]
    exact ⟨k, mem_of_elem h h2 h3, h4⟩

/-- Removing the element `k` equal to `key`. -/
theorem remove_at (ok : W.Ok) {s : SetObj K} {l : List K} (h : Inv W s l) {i : Nat} {e : Entry K} {k : K}
    (he : s.table[i]? = some e) (hk : e.key = .elem k) (finger : Int) :
    ∃ l', Inv W { s with num := s.num - 1, finger := finger, table := s.table.set i ⟨.dummy, -1⟩ } l' ∧ l.Perm (k :: l') := by
  have hi := (List.getElem?_eq_some_iff.1 he).1
  obtain ⟨h1, h2⟩ := set_dummy he hk
  refine ⟨live (s.table.set i ⟨.dummy, -1⟩), ⟨?_, List.Perm.refl _, ?_, ?_, ?_, ?_⟩, h.perm.symm.trans h1⟩
  · exact h.tok.set hi (by simp) (fun _ => rfl) (fun k hk => by simp at hk)
  · have := h.num
    have h3 := (h.perm.symm.trans h1).length_eq
    simp only [List.length_cons] at h3
    simp only
    omega
  · simp only
    rw [h2]; exact h.fill
  · have := h.load
    unfold SetObj.size at this ⊢
    simp only
    rw [List.length_set]; exact this
  · have := distinct_perm ok (h.perm.symm.trans h1) h.distinct
    exact (List.pairwise_cons.1 this).2

/-- After removing `k`, membership is membership before, of elements different from `k`. -/
theorem mem_removed (ok : W.Ok) {l l' : List K} {k : K} (hd : Distinct W.eq l) (hp : l.Perm (k :: l')) (x : K) :
    Mem W.eq l' x ↔ Mem W.eq l x ∧ ¬ W.eq k x = true := by
  rw [mem_perm hp]
  have hd' := List.pairwise_cons.1 (distinct_perm ok hp hd)
  constructor
  · rintro ⟨y, hy, he⟩
    refine ⟨⟨y, List.mem_cons_of_mem _ hy, he⟩, fun hk => ?_⟩
    have := hd'.1 y hy
    rw [ok.trans _ _ _ hk (ok.symm _ _ he)] at this
    simp at this
  · rintro ⟨⟨y, hy, he⟩, hk⟩
    rcases List.mem_cons.1 hy with rfl | hy
    · exact absurd he hk
    · exact ⟨y, hy, he⟩

theorem eq_congr (ok : W.Ok) {a b : K} (h : W.eq a b = true) (x : K) : W.eq a x = true ↔ W.eq b x = true :=
  ⟨fun h' => ok.trans _ _ _ (ok.symm _ _ h) h', fun h' => ok.trans _ _ _ h h'⟩

/-- `B_set_discard_entry`. -/
theorem discardEntry_spec (hn : HOk W) {s : SetObj K} {l : List K} (h : Inv W s l) (key : K) :
    Term W (discardEntry W s key (lhash W key)) (fun r => ∃ l', Inv W r.2 l' ∧ (r.1 = true ↔ Mem W.eq l key) ∧
      l'.length ≤ l.length ∧ (∀ x, Mem W.eq l' x ↔ Mem W.eq l x ∧ ¬ W.eq key x = true)) := by
  unfold discardEntry
  refine (lookkey_spec hn h key).bind ?_
  rintro i ⟨e, h2, h3⟩
  rw [entryAt_of h2, Res.ok_bind]
  rcases h3 with ⟨h3, h4⟩ | ⟨k, h3, h4⟩
  · have : e.nonNull = false := by unfold Entry.nonNull; rw [h3]
    rw [this]
    refine Term.pure ⟨l, h, by simpa using h4, Nat.le_refl _, fun x => ?_⟩
    constructor
    · rintro ⟨y, hy, he⟩
      refine ⟨⟨y, hy, he⟩, fun hk => h4 ⟨y, hy, hn.ok.trans _ _ _ he (hn.ok.symm _ _ hk)⟩⟩
    · exact fun hx => hx.1
  · have : e.nonNull = true := by unfold Entry.nonNull; rw [h3]
    rw [this]
    obtain ⟨l', hi, hp⟩ := remove_at hn.ok h h2 h3 s.finger
    have hlen := hp.length_eq
    rw [List.length_cons] at hlen
    refine Term.pure ⟨l', hi, by simpa using ⟨k, mem_of_elem h h2 h3, h4⟩, by omega, fun x => ?_⟩
    rw [mem_removed hn.ok h.distinct hp x, eq_congr hn.ok h4]

/-- `newsize` (set.c:52-55). -/
theorem newSizeLoop_spec (minsize : Int) (hm : minsize < 2 ^ 31) : ∀ f k, 3 ≤ k → k + f = 67 →
    ∃ k', newSizeLoop minsize f (2 ^ k) = .ok (2 ^ k') ∧ 3 ≤ k' ∧ minsize < ((2 ^ k' : Nat) : Int) ∨ f < 36 := by
  intro f
  induction f with
  | zero => intro k _ _; exact ⟨0, Or.inr (by omega)⟩
  | succ f ih =>
    intro k hk hf
    by_cases hlt : f + 1 < 36
    · exact ⟨0, Or.inr hlt⟩
    unfold newSizeLoop
    by_cases hc : ((2 ^ k : Nat) : Int) ≤ minsize
    · rw [if_pos hc, show 2 ^ k * 2 = 2 ^ (k + 1) from rfl]
      obtain ⟨k', h | h⟩ := ih (k + 1) (by omega) (by omega)
      · exact ⟨k', Or.inl h⟩
      · exfalso
        have : 32 ≤ k + 1 := by omega
        have h31 : 31 ≤ k := by omega
        have : 2 ^ 31 ≤ 2 ^ k := Nat.pow_le_pow_right (by omega) h31
        have : ((2 ^ 31 : Nat) : Int) ≤ ((2 ^ k : Nat) : Int) := Int.ofNat_le.2 this
        simp only [Nat.reducePow] at this
        omega
    · rw [if_neg hc]
      exact ⟨k, Or.inl ⟨rfl, hk, by omega⟩⟩

theorem newSize_spec (minsize : Int) (hm : minsize < 2 ^ 31) :
    ∃ k, newSizeLoop minsize 64 8 = .ok (2 ^ k) ∧ 3 ≤ k ∧ minsize < ((2 ^ k : Nat) : Int) := by
  obtain ⟨k, h | h⟩ := newSizeLoop_spec minsize hm 64 3 (by omega) (by omega)
  · exact ⟨k, h⟩
  · omega

/-- `B_set_insert_clean` into a table that is not full. -/
theorem insertClean_spec (hn : HOk W) {t : List (Entry K)} (h : TOk W t) (hu : used t < t.length) {e : Entry K} {k : K}
    (hk : e.key = .elem k) (hh : e.hash = lhash W k) :
    Term W (insertClean t e) (fun t' => TOk W t' ∧ t'.length = t.length ∧ used t' = used t + 1 ∧ (live t').Perm (k :: live t)) := by
  have hpos : 0 < t.length := by have := h.pos; omega
  have e0 : insertClean t e = (cleanLoop t (fuel t.length) (istate t.length e.hash 0) >>= fun i => .ok (t.set i e)) := rfl
  rw [e0, hh]
  by_cases hex : ∃ m, m < fuel t.length ∧ ∃ x, t[islot t.length (lhash W k) m]? = some x ∧ x.key = .null
  · obtain ⟨N0, hN0, hP0⟩ := hex
    obtain ⟨N, hle, ⟨x, hx, hxk⟩, hmin⟩ := exists_least (fun m => ∃ e, t[islot t.length (lhash W k) m]? = some e ∧ e.key = .null) N0 hP0
    have hpath : ∀ m < N, ∀ e', t[islot t.length (lhash W k) m]? = some e' → e'.key ≠ .null :=
      fun m hm e' he' hn => hmin m hm ⟨e', he', hn⟩
    have hi := (List.getElem?_eq_some_iff.1 hx).1
    have hloop := cleanLoop_spec hpos hx hxk hpath (fuel t.length) 0 (by omega) (by omega)
    obtain ⟨h1, h2⟩ := set_elem (e' := e) hx (by intro q; rw [hxk]; simp) hk
    rw [hloop, Res.ok_bind]
    refine Term.pure ⟨?_, List.length_set .., ?_, h1⟩
    · refine h.set hi (by rw [hk]; simp) (by rw [hk]; simp) ?_
      intro k' hk'
      rw [hk] at hk'
      have := Key.elem.inj hk'
      subst this
      exact ⟨hh, N, rfl, hpath⟩
    · rw [h2]
      have : x.nonNull = false := by unfold Entry.nonNull; rw [hxk]
      rw [this]; rfl
  · rw [cleanLoop_div hpos (M := fuel t.length) (fun m hm e' he' hn => hex ⟨m, hm, e', he', hn⟩) _ 0 (by omega)]
    refine Or.inl ⟨rfl, k, Nat.le_of_not_lt (fun hlt => hex ?_)⟩
    obtain ⟨N0, hN0, e0, he0, hk0⟩ := h.null hu (hn.ok.hash_lt k)
    rw [← lhash_nat hlt] at he0
    exact ⟨N0, by unfold fuel; omega, e0, he0, hk0⟩

theorem insertAll_spec (hn : HOk W) : ∀ (es : List (Entry K)) {t : List (Entry K)}, TOk W t →
    used t + es.length < t.length → (∀ e ∈ es, ∃ k, e.key = .elem k ∧ e.hash = lhash W k) →
    Term W (insertAll t es) (fun t' => TOk W t' ∧ t'.length = t.length ∧ used t' = used t + es.length ∧
      (live t').Perm (live es ++ live t)) := by
  intro es
  induction es with
  | nil => intro t h _ _; exact Term.pure ⟨h, rfl, by simp, by simp [live_nil]⟩
  | cons e es ih =>
    intro t h hu hes
    rw [List.length_cons] at hu
    obtain ⟨k, hk, hh⟩ := hes e List.mem_cons_self
    unfold insertAll
    refine (insertClean_spec hn h (by omega) hk hh).bind ?_
    rintro t1 ⟨h1, l1, u1, p1⟩
    refine (ih h1 (by omega) (fun e he => hes e (List.mem_cons_of_mem _ he))).mono ?_
    rintro t2 ⟨h2, l2, u2, p2⟩
    refine ⟨h2, by omega, by rw [List.length_cons]; omega, ?_⟩
    rw [live_cons, hk]
    refine p2.trans ?_
    refine (List.Perm.append_left _ p1).trans ?_
    exact List.perm_middle

theorem blank_live (n : Nat) : live (List.replicate n (blank : Entry K)) = [] := by
  unfold live
  induction n with
  | zero => rfl
  | succ n ih => rw [List.replicate_succ, List.filterMap_cons]; exact ih

theorem blank_used (n : Nat) : used (List.replicate n (blank : Entry K)) = 0 := by
  unfold used
  rw [List.countP_eq_zero]
  intro e he
  rw [(List.mem_replicate.1 he).2]
  simp [blank, Entry.nonNull]

theorem blank_tok (k : Nat) (hk : 3 ≤ k) : TOk W (List.replicate (2 ^ k) (blank : Entry K)) := by
  have hb : ∀ (i : Nat) (e : Entry K), (List.replicate (2 ^ k) (blank : Entry K))[i]? = some e → e = blank := by
    intro i e he
    have := List.mem_iff_getElem?.2 ⟨i, he⟩
    exact (List.mem_replicate.1 this).2
  refine ⟨⟨k, hk, List.length_replicate⟩, ?_, ?_, ?_⟩
  · intro i e q h1 h2
    rw [hb i e h1] at h2; simp [blank] at h2
  · intro i e h1 h2
    rw [hb i e h1] at h2; simp [blank] at h2
  · intro i e q h1 h2
    rw [hb i e h1] at h2; simp [blank] at h2

theorem live_filter_active (t : List (Entry K)) : live (t.filter Entry.active) = live t := by
  induction t with
  | nil => rfl
  | cons e t ih =>
    rw [List.filter_cons]
    cases hk : e.key with
    | null =>
      have : e.active = false := by unfold Entry.active; rw [hk]
      rw [live_cons, hk, this]; exact ih
    | dummy =>
      have : e.active = false := by unfold Entry.active; rw [hk]
      rw [live_cons, hk, this]; exact ih
    | elem k =>
      have : e.active = true := by unfold Entry.active; rw [hk]
      rw [this, if_pos rfl, live_cons, live_cons, hk]
      simp only
      rw [ih]

theorem filter_active_length (t : List (Entry K)) : (t.filter Entry.active).length = (live t).length := by
  rw [← live_filter_active t]
  induction t with
  | nil => rfl
  | cons e t ih =>
    rw [List.filter_cons]
    by_cases h : e.active = true
    · rw [if_pos h, List.length_cons, ih]
      unfold Entry.active at h
      cases hk : e.key with
      | null => rw [hk] at h; simp at h
      | dummy => rw [hk] at h; simp at h
      | elem k => rw [live_cons, hk]; rfl
    · rw [if_neg h]; exact ih

theorem used_ge (t : List (Entry K)) : (live t).length ≤ used t := by
  rw [← filter_active_length, ← List.countP_eq_length_filter]
  unfold used
  apply List.countP_mono_left
  intro e _ h
  unfold Entry.active at h
  unfold Entry.nonNull
  cases hk : e.key <;> simp_all

/-- Without dummies the two copying loops of the resize copy the same entries. -/
theorem filter_same : ∀ (t : List (Entry K)), used t = (live t).length → t.filter Entry.nonNull = t.filter Entry.active := by
  intro t
  induction t with
  | nil => intro _; rfl
  | cons e t ih =>
    intro h
    have hge := used_ge t
    have hc : used (e :: t) = used t + (if e.nonNull then 1 else 0) := by unfold used; rw [List.countP_cons]
    rw [hc, live_cons] at h
    rw [List.filter_cons, List.filter_cons]
    unfold Entry.nonNull at h
    cases hk : e.key with
    | null =>
      rw [hk] at h
      have e1 : e.nonNull = false := by unfold Entry.nonNull; rw [hk]
      have e2 : e.active = false := by unfold Entry.active; rw [hk]
      rw [e1, e2]
      exact ih (by simpa using h)
    | dummy => rw [hk] at h; simp at h; omega
    | elem k =>
      rw [hk] at h
      have e1 : e.nonNull = true := by unfold Entry.nonNull; rw [hk]
      have e2 : e.active = true := by unfold Entry.active; rw [hk]
      rw [e1, e2]
      simp only [if_true]
      rw [ih (by simpa using h)]

/-- `B_set_table_resize`: the same elements in a table large enough. -/
theorem resize_spec (hn : HOk W) {s : SetObj K} (ht : TOk W s.table) (hf : s.fill = used s.table)
    (hnum : s.num = (live s.table).length) (minsize : Int) (hm : minsize < 2 ^ 31) (hlive : s.num * 2 ≤ minsize) (h1 : 1 ≤ s.num) :
    Term W (resize s minsize) (fun s' => TOk W s'.table ∧ (live s'.table).Perm (live s.table) ∧ s'.num = s.num ∧
      s'.fill = used s'.table ∧ s'.fill * 5 < ((s'.size : Int) - 1) * 3) := by
  obtain ⟨k, ek, hk3, hk⟩ := newSize_spec minsize hm
  have hbt : TOk W (List.replicate (2 ^ k) (blank : Entry K)) := blank_tok k hk3
  have hlen : (s.table.filter Entry.active).length = (live s.table).length := filter_active_length _
  have hes : ∀ e ∈ s.table.filter Entry.active, ∃ q, e.key = .elem q ∧ e.hash = lhash W q := by
    intro e he
    obtain ⟨h1, h2⟩ := List.mem_filter.1 he
    obtain ⟨i, hi⟩ := List.mem_iff_getElem?.1 h1
    unfold Entry.active at h2
    cases hq : e.key with
    | null => rw [hq] at h2; simp at h2
    | dummy => rw [hq] at h2; simp at h2
    | elem q => exact ⟨q, rfl, ht.hash i e q hi hq⟩
  have hins := insertAll_spec hn (s.table.filter Entry.active) hbt
    (by rw [blank_used, List.length_replicate, hlen]; omega) hes
  rw [blank_used, hlen, blank_live, List.append_nil, live_filter_active, List.length_replicate] at hins
  unfold resize
  rw [ek, Res.ok_bind]
  by_cases hc : s.fill = s.num
  · rw [if_pos hc, filter_same _ (by omega)]
    refine hins.bind ?_
    rintro t' ⟨h2, h3, h4, h5⟩
    refine Term.pure ⟨h2, h5, rfl, ?_, ?_⟩
    · simp only; omega
    · unfold SetObj.size; simp only; rw [h3]; omega
  · rw [if_neg hc]
    refine hins.bind ?_
    rintro t' ⟨h2, h3, h4, h5⟩
    refine Term.pure ⟨h2, h5, rfl, ?_, ?_⟩
    · simp only; omega
    · unfold SetObj.size; simp only; rw [h3]; omega

theorem mem_cons {eq : K → K → Bool} {l : List K} {k x : K} : Mem eq (k :: l) x ↔ Mem eq l x ∨ eq k x = true := by
  unfold Mem
  constructor
  · rintro ⟨y, hy, he⟩
    rcases List.mem_cons.1 hy with rfl | hy
    · exact Or.inr he
    · exact Or.inl ⟨y, hy, he⟩
  · rintro (⟨y, hy, he⟩ | he)
    · exact ⟨y, List.mem_cons_of_mem _ hy, he⟩
    · exact ⟨k, List.mem_cons_self, he⟩

theorem distinct_cons (ok : W.Ok) {l : List K} (hd : Distinct W.eq l) {k : K} (h : ∀ x ∈ l, W.eq x k = false) : Distinct W.eq (k :: l) := by
  refine List.pairwise_cons.2 ⟨?_, hd⟩
  intro x hx
  refine Bool.eq_false_iff.2 (fun he => ?_)
  have := ok.symm _ _ he
  rw [h x hx] at this
  simp at this

/-- `B_set_add_entry`. -/
theorem addEntry_spec' (hn : HOk W) {s : SetObj K} {l : List K} (h : Inv W s l) (hl : l.length < 2 ^ 29) (key : K) :
    Term W (addEntry W s key (lhash W key)) (fun s' =>
      (Mem W.eq l key ∧ Inv W s' l) ∨ (¬ Mem W.eq l key ∧ Inv W s' (key :: l))) := by
  have e0 : addEntry W s key (lhash W key) =
      (addLoop W s.table (lhash W key) key (fuel s.table.length) (istate s.table.length (lhash W key) 0) none >>= fun r =>
        match r with
        | .active => .ok s
        | .free j => .ok { s with num := s.num + 1, table := s.table.set j ⟨.elem key, lhash W key⟩ }
        | .unused i => addUnused s i key (lhash W key)) := rfl
  rw [e0]
  rcases h.tok.stop hn h.room key with ⟨hneg, hmiss⟩ | ⟨N, e, hN, he, hmiss, hcase⟩
  · rw [addLoop_div hmiss _ 0 _ (by omega)]
    exact Or.inl ⟨rfl, hneg⟩
  have hi := (List.getElem?_eq_some_iff.1 he).1
  obtain ⟨a1, a2⟩ := addLoop_spec he hmiss (fuel s.table.length) 0 none (by omega) (by omega)
  have hnonnull : ∀ m < N, ∀ e', s.table[islot s.table.length (lhash W key) m]? = some e' → e'.key ≠ .null := by
    intro m hm e' he'
    obtain ⟨x, hx, hv⟩ := hmiss m hm
    rw [hx] at he'
    have := Option.some.inj he'
    subst this
    exact visit_nonnull hv
  rcases hcase with ⟨hv, hno⟩ | ⟨k, hv, hk, heq⟩
  · have hnull := visit_empty hv
    have hnm : ∀ x ∈ l, W.eq x key = false := fun x hx => hno x (h.perm.mem_iff.2 hx)
    obtain ⟨free, e1, e2⟩ := a2 hv
    rw [e1, Res.ok_bind]
    have hd := distinct_cons hn.ok h.distinct hnm
    have hnum := h.num
    have hfill := h.fill
    have hload := h.load
    have hpos := h.tok.pos
    unfold SetObj.size at hload
    have hfresh : Term W (addUnused s (islot s.table.length (lhash W key) N) key (lhash W key)) (fun s' => Inv W s' (key :: l)) := by
      obtain ⟨p1, p2⟩ := set_elem (e' := (⟨.elem key, lhash W key⟩ : Entry K)) he (by intro q; rw [hnull]; simp) rfl
      have hzero : e.nonNull = false := by unfold Entry.nonNull; rw [hnull]
      rw [hzero] at p2
      simp only [Bool.false_eq_true, if_false] at p2
      have ht' : TOk W (s.table.set (islot s.table.length (lhash W key) N) ⟨.elem key, lhash W key⟩) := by
        refine h.tok.set hi (by simp) (by simp) ?_
        intro k' hk'
        have := Key.elem.inj hk'
        subst this
        exact ⟨rfl, N, rfl, hnonnull⟩
      have hperm := p1.trans (List.Perm.cons key h.perm)
      have hlen := hperm.length_eq
      rw [List.length_cons] at hlen
      unfold addUnused
      simp only
      by_cases hc : (s.fill + 1) * 5 < ((s.size : Int) - 1) * 3
      · rw [if_pos hc]
        refine Term.pure ⟨ht', hperm, ?_, ?_, ?_, hd⟩
        · simp only [List.length_cons]; omega
        · simp only; omega
        · unfold SetObj.size at hc ⊢; simp only; rw [List.length_set]; exact hc
      · rw [if_neg hc]
        have hmin : ∃ m : Int, wrap32 (if s.num + 1 > 50000 then (s.num + 1) * 2 else (s.num + 1) * 4) = m ∧ m < 2 ^ 31 ∧ (s.num + 1) * 2 ≤ m := by
          by_cases h5 : s.num + 1 > 50000
          · rw [if_pos h5]
            refine ⟨_, wrap32_of_in ?_, ?_, ?_⟩
            · constructor <;> omega
            · omega
            · omega
          · rw [if_neg h5]
            refine ⟨_, wrap32_of_in ?_, ?_, ?_⟩
            · constructor <;> omega
            · omega
            · omega
        obtain ⟨m, em, hm1, hm2⟩ := hmin
        rw [em]
        refine (resize_spec hn
          (s := { s with fill := s.fill + 1, num := s.num + 1, table := s.table.set (islot s.table.length (lhash W key) N) ⟨.elem key, lhash W key⟩ })
          ht' (by simp only; omega) (by simp only; omega) m hm1 hm2 (by simp only; omega)).mono ?_
        rintro s' ⟨r2, r3, r4, r5, r6⟩
        refine ⟨r2, r3.trans hperm, ?_, r5, r6, hd⟩
        rw [r4]; simp only [List.length_cons]; omega
    rcases e2 with rfl | ⟨m, x, hm, rfl, hx, hx1⟩
    · exact hfresh.mono (fun s' q => Or.inr ⟨not_mem_iff.2 hnm, q⟩)
    · have hxk : x.key = .dummy := by
        cases hq : x.key with
        | null => exact absurd hq (hnonnull m hm x hx)
        | dummy => rfl
        | elem q =>
          have := h.tok.hash _ x q hx hq
          exact absurd (this.symm.trans hx1) (hn.ne q)
      have hi' := (List.getElem?_eq_some_iff.1 hx).1
      obtain ⟨p1, p2⟩ := set_elem (e' := (⟨.elem key, lhash W key⟩ : Entry K)) hx (by intro q; rw [hxk]; simp) rfl
      have hone : x.nonNull = true := by unfold Entry.nonNull; rw [hxk]
      rw [hone] at p2
      simp only [if_true, Nat.add_zero] at p2
      refine Term.pure (Or.inr ⟨not_mem_iff.2 hnm, ?_, p1.trans (List.Perm.cons key h.perm), ?_, ?_, ?_, hd⟩)
      · refine h.tok.set hi' (by simp) (by simp) ?_
        intro k' hk'
        have := Key.elem.inj hk'
        subst this
        exact ⟨rfl, m, rfl, fun m' hm' => hnonnull m' (by omega)⟩
      · simp only [List.length_cons]; omega
      · simp only; omega
      · unfold SetObj.size; simp only; rw [List.length_set]; exact hload
  · rw [a1 hv, Res.ok_bind]
    exact Term.pure (Or.inl ⟨⟨k, mem_of_elem h he hk, heq⟩, h⟩)

/-- Adding and membership. -/
theorem add_mem (ok : W.Ok) {l l' : List K} {key : K}
    (h : (Mem W.eq l key ∧ l' = l) ∨ (¬ Mem W.eq l key ∧ l' = key :: l)) (x : K) :
    Mem W.eq l' x ↔ Mem W.eq l x ∨ W.eq key x = true := by
  rcases h with ⟨⟨y, hy, he⟩, rfl⟩ | ⟨_, rfl⟩
  · exact ⟨Or.inl, fun h => h.elim id (fun h => ⟨y, hy, ok.trans _ _ _ he h⟩)⟩
  · exact mem_cons

theorem addEntry_spec (hn : HOk W) {s : SetObj K} {l : List K} (h : Inv W s l) (hl : l.length < 2 ^ 29) (key : K) :
    Term W (addEntry W s key (lhash W key)) (fun s' => ∃ l', Inv W s' l' ∧ l'.length ≤ l.length + 1 ∧
      ∀ x, Mem W.eq l' x ↔ Mem W.eq l x ∨ W.eq key x = true) := by
  refine (addEntry_spec' hn h hl key).mono ?_
  rintro s' (⟨h1, h2⟩ | ⟨h1, h2⟩)
  · exact ⟨l, h2, by omega, add_mem hn.ok (Or.inl ⟨h1, rfl⟩)⟩
  · exact ⟨key :: l, h2, by simp, add_mem hn.ok (Or.inr ⟨h1, rfl⟩)⟩

theorem popLoop_spec {t : List (Entry K)} {d : Nat} : ∀ f i, i < t.length → d < f →
    (∃ e k, t[(i + d) % t.length]? = some e ∧ e.key = .elem k) →
    ∃ j k e, popLoop t f i = .ok (j, k) ∧ t[j]? = some e ∧ e.key = .elem k := by
  intro f
  induction f generalizing d with
  | zero => intro i _ hf; omega
  | succ f ih =>
    intro i hi hd hex
    obtain ⟨e, he⟩ := getElem?_of_lt hi
    unfold popLoop
    rw [entryAt_of he, Res.ok_bind]
    have hnext : (∀ k, e.key ≠ .elem k) → ∃ j k e, popLoop t f (if i + 1 < t.length then i + 1 else 0) = .ok (j, k) ∧ t[j]? = some e ∧ e.key = .elem k := by
      intro hne
      have hd0 : d ≠ 0 := by
        rintro rfl
        rw [Nat.add_zero, Nat.mod_eq_of_lt hi] at hex
        obtain ⟨e', k, h1, h2⟩ := hex
        rw [he] at h1
        have := Option.some.inj h1
        subst this
        exact hne k h2
      have heq : ((if i + 1 < t.length then i + 1 else 0) + (d - 1)) % t.length = (i + d) % t.length := by
        by_cases hc : i + 1 < t.length
        · rw [if_pos hc]; congr 1; omega
        · rw [if_neg hc]
          have e1 : t.length = i + 1 := by omega
          have e2 : i + d = (d - 1) + t.length := by omega
          rw [e2, Nat.add_mod_right, Nat.zero_add]
      refine ih (d := d - 1) _ ?_ (by omega) (by rw [heq]; exact hex)
      split <;> omega
    cases hk : e.key with
    | null => exact hnext (by intro k; rw [hk]; simp)
    | dummy => exact hnext (by intro k; rw [hk]; simp)
    | elem k => exact ⟨i, k, e, rfl, he, hk⟩

/-- `pop`. -/
theorem pop_spec (ok : W.Ok) {s : SetObj K} {l : List K} (h : Inv W s l) :
    (l = [] → pop s = .raise .valueError) ∧
    (l ≠ [] → ∃ k s' l', pop s = .ok (k, s') ∧ Inv W s' l' ∧ l.Perm (k :: l')) := by
  have hnum := h.num
  constructor
  · rintro rfl
    unfold pop
    rw [if_pos (by simpa using hnum)]
  · intro hne
    have hpos : l.length ≠ 0 := fun hc => hne (List.length_eq_zero_iff.1 hc)
    have h8 := h.tok.pos
    obtain ⟨k, hk⟩ := List.exists_mem_of_ne_nil l hne
    obtain ⟨i, e, he, hek⟩ := mem_live.1 (h.perm.mem_iff.2 hk)
    have hi := (List.getElem?_eq_some_iff.1 he).1
    have hb : (s.finger % (s.size : Int)).toNat < s.table.length := by
      have h1 := Int.emod_nonneg s.finger (b := (s.size : Int)) (by unfold SetObj.size; omega)
      have h2 := Int.emod_lt_of_pos s.finger (b := (s.size : Int)) (by unfold SetObj.size; omega)
      unfold SetObj.size at h1 h2 ⊢
      omega
    generalize hi0 : (s.finger % (s.size : Int)).toNat = i0 at hb
    have hex : ∃ d, d < s.size + 1 ∧ (i0 + d) % s.table.length = i := by
      unfold SetObj.size
      by_cases hc : i0 ≤ i
      · exact ⟨i - i0, by omega, by rw [show i0 + (i - i0) = i by omega, Nat.mod_eq_of_lt hi]⟩
      · refine ⟨i + s.table.length - i0, by omega, ?_⟩
        rw [show i0 + (i + s.table.length - i0) = i + s.table.length by omega, Nat.add_mod_right, Nat.mod_eq_of_lt hi]
    obtain ⟨d, hd, ed⟩ := hex
    obtain ⟨j, k', e', p1, p2, p3⟩ := popLoop_spec (s.size + 1) i0 hb hd ⟨e, k, by rw [ed]; exact he, hek⟩
    obtain ⟨l', q1, q2⟩ := remove_at ok h p2 p3 ((j : Int) + 1)
    have : pop s = .ok (k', { s with num := s.num - 1, finger := (j : Int) + 1, table := s.table.set j ⟨.dummy, -1⟩ }) := by
      unfold pop
      rw [if_neg (by omega), hi0, p1, Res.ok_bind]
      rfl
    exact ⟨k', _, l', this, q1, q2⟩

end Verif.Set
