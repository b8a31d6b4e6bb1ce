import Verif.Dict.Inv
/-!
# Changes of the index; `dictresize`
-/
namespace Verif.Dict
open Verif
variable {K V : Type} {W : HashW K}

theorem set_get {α} {l : List α} {i : Nat} {a : α} (j : Nat) (h : i < l.length) :
    (l.set i a)[j]? = if i = j then some a else l[j]? := by
  rw [List.getElem?_set]
  by_cases hij : i = j
  · subst hij; simp [h]
  · simp [hij]

theorem count_set {l : List Int} {i : Nat} {x y : Int} (h : l[i]? = some y) :
    (l.set i x).countP (fun x => decide (x ≠ -1)) + (if y ≠ -1 then 1 else 0) =
    l.countP (fun x => decide (x ≠ -1)) + (if x ≠ -1 then 1 else 0) := by
  induction l generalizing i with
  | nil => simp at h
  | cons z l ih =>
    cases i with
    | zero =>
      simp at h
      subst h
      rw [List.set_cons_zero, List.countP_cons, List.countP_cons]
      simp only [decide_eq_true_eq]
      omega
    | succ i =>
      have := ih (i := i) (by simpa using h)
      rw [List.set_cons_succ, List.countP_cons, List.countP_cons]
      omega

/-- A new live entry in a free slot of its probe path. -/
theorem IndOk.insert {size : Nat} {ind : List Int} {es : List (Entry K V)} (h : IndOk size ind es) {e : Entry K V}
    (he : e.value.isSome) {N : Nat} {y : Int} (hN : ind[slot size e.hash N]? = some y) (hy : y < 0)
    (hlt : ∀ m < N, ind[slot size e.hash m]? ≠ some (-1)) :
    IndOk size (ind.set (slot size e.hash N) (es.length : Nat)) (es ++ [e]) := by
  have hb := (List.getElem?_eq_some_iff.1 hN).1
  have hold : ∀ j : Nat, j < es.length → (es ++ [e])[j]? = es[j]? := fun j hj => List.getElem?_append_left hj
  have hnew : (es ++ [e])[es.length]? = some e := by simp
  have hlen : ∀ (s : Nat) (x : Int), ind[s]? = some x → x ≠ (es.length : Nat) := by
    intro s x hx hc
    obtain ⟨j, e', h1, h2, -⟩ := h.valid s x hx (by omega) (by omega)
    have := (List.getElem?_eq_some_iff.1 h2).1
    omega
  refine ⟨by rw [List.length_set]; exact h.len, ?_, ?_, ?_⟩
  · intro s x hx h1 h2
    rw [set_get _ hb] at hx
    by_cases hs : slot size e.hash N = s
    · rw [if_pos hs] at hx
      simp at hx
      exact ⟨es.length, e, hx.symm, hnew, he⟩
    · rw [if_neg hs] at hx
      obtain ⟨j, e', e1, e2, e3⟩ := h.valid s x hx h1 h2
      exact ⟨j, e', e1, by rw [hold _ (List.getElem?_eq_some_iff.1 e2).1]; exact e2, e3⟩
  · intro s s' j h1 h2
    rw [set_get _ hb] at h1 h2
    by_cases hs : slot size e.hash N = s <;> by_cases hs' : slot size e.hash N = s'
    · omega
    · rw [if_pos hs] at h1; rw [if_neg hs'] at h2
      simp at h1
      exact absurd (by omega) (hlen s' _ h2)
    · rw [if_neg hs] at h1; rw [if_pos hs'] at h2
      simp at h2
      exact absurd (by omega) (hlen s _ h1)
    · rw [if_neg hs] at h1; rw [if_neg hs'] at h2
      exact h.uniq _ _ _ h1 h2
  · intro j e' hj hl
    by_cases hje : j < es.length
    · rw [hold j hje] at hj
      obtain ⟨m, h1, h2⟩ := h.path j e' hj hl
      refine ⟨m, ?_, ?_⟩
      · rw [set_get _ hb, if_neg, h1]
        intro hc
        rw [← hc, hN] at h1
        simp at h1; omega
      · intro m' hm'
        rw [set_get _ hb]
        by_cases hc : slot size e.hash N = slot size e'.hash m'
        · rw [if_pos hc]; simp
        · rw [if_neg hc]; exact h2 m' hm'
    · have : j = es.length := by
        have := (List.getElem?_eq_some_iff.1 hj).1
        rw [List.length_append, List.length_singleton] at this
        omega
      subst this
      rw [hnew] at hj
      simp at hj
      subst hj
      refine ⟨N, by rw [set_get _ hb, if_pos rfl], ?_⟩
      intro m' hm'
      rw [set_get _ hb]
      by_cases hc : slot size e.hash N = slot size e.hash m'
      · rw [if_pos hc]; simp
      · rw [if_neg hc]; exact hlt m' hm'

theorem build_spec (W : HashW K) (ok : W.Ok) (oldsize : Nat) {k : Nat} :
    ∀ (es P : List (Entry K V)) (ind : List Int),
    IndOk (2 ^ k) ind P → ind.countP (fun x => decide (x ≠ -1)) ≤ P.length → P.length + es.length < 2 ^ k →
    (∀ e ∈ es, e.value.isSome) → (∀ e ∈ es, entryHash W oldsize e = W.hash e.key) →
    ∃ ind', buildIndices W oldsize (2 ^ k) es (P.length : Nat) ind =
        .ok (es.map (fun e => { e with hash := W.hash e.key }), ind') ∧
      IndOk (2 ^ k) ind' (P ++ es.map (fun e => { e with hash := W.hash e.key })) ∧
      ind'.countP (fun x => decide (x ≠ -1)) ≤ P.length + es.length := by
  intro es
  induction es with
  | nil =>
    intro P ind h hc _ _ _
    exact ⟨ind, rfl, by simpa using h, by simpa using hc⟩
  | cons e es ih =>
    intro P ind h hc hn hlive hhash
    have he := hhash e (by simp)
    rw [List.length_cons] at hn
    obtain ⟨N0, hN0, hE0⟩ := probe_empty (k := k) (h := W.hash e.key) (ind := ind) (ok.hash_lt _) h.len
      (by rw [h.len]; omega)
    obtain ⟨N, hle, hP, hmin⟩ := exists_least (fun m => ind[slot (2 ^ k) (W.hash e.key) m]? = some (-1)) N0 hE0
    have hpos : 0 < 2 ^ k := by positivity
    have hloop := emptyLoop_spec h.len hpos hP hmin (2 ^ k + 14) 0 (by omega) (by omega)
    have hins := h.insert (e := { e with hash := W.hash e.key }) (hlive e (by simp)) hP (by omega) hmin
    have hcount := count_set (x := (P.length : Nat)) hP
    rw [if_neg (by simp), if_pos (by omega)] at hcount
    obtain ⟨ind', e1, e2, e3⟩ := ih (P ++ [{ e with hash := W.hash e.key }]) _ hins
      (by simp only at hcount ⊢; rw [List.length_append, List.length_singleton]; omega)
      (by rw [List.length_append, List.length_singleton]; omega)
      (fun x hx => hlive x (List.mem_cons_of_mem _ hx)) (fun x hx => hhash x (List.mem_cons_of_mem _ hx))
    refine ⟨ind', ?_, ?_, ?_⟩
    · unfold buildIndices
      rw [he, pstate_zero, hloop, Res.ok_bind]
      rw [List.length_append, List.length_singleton, Nat.cast_add, Nat.cast_one] at e1
      simp only at e1 ⊢
      rw [e1, Res.ok_bind]
      rfl
    · rw [List.map_cons, List.append_cons]; exact e2
    · rw [List.length_append, List.length_singleton] at e3
      rw [List.length_cons]; omega

theorem grow_spec {m : Int} : ∀ (f k : Nat), 0 < f → m - (2 ^ k : Nat) < f → ∃ k', k ≤ k' ∧ grow m f (2 ^ k) = .ok (2 ^ k') ∧
    m ≤ (2 ^ k' : Nat) ∧ (k' = k ∨ ((2 ^ k' : Nat) : Int) < 2 * m) := by
  intro f
  induction f with
  | zero => intro k h; omega
  | succ f ih =>
    intro k _ h
    unfold grow
    by_cases hc : ((2 ^ k : Nat) : Int) < m
    · rw [if_pos hc, ← pow_succ']
      have hp : 0 < 2 ^ k := by positivity
      have e : (2 ^ (k + 1) : Nat) = 2 * 2 ^ k := pow_succ' 2 k
      obtain ⟨k', h1, h2, h3, h4⟩ := ih (k + 1) (by omega) (by omega)
      exact ⟨k', by omega, h2, h3, Or.inr (by rcases h4 with rfl | h4 <;> omega)⟩
    · rw [if_neg hc]
      exact ⟨k, Nat.le_refl _, rfl, by omega, Or.inl rfl⟩

theorem live_filter (es : List (Entry K V)) : live (es.filter (fun e => e.value.isSome)) = live es := by
  induction es with
  | nil => rfl
  | cons e es ih =>
    cases hv : e.value with
    | none => rw [List.filter_cons, hv, live_cons_none hv]; exact ih
    | some v =>
      rw [List.filter_cons, hv, live_cons_some hv]
      show live (e :: _) = _
      rw [live_cons_some hv, ih]

theorem filter_length (es : List (Entry K V)) : (es.filter (fun e => e.value.isSome)).length = (live es).length := by
  induction es with
  | nil => rfl
  | cons e es ih =>
    cases hv : e.value with
    | none => rw [List.filter_cons, hv, live_cons_none hv]; exact ih
    | some v =>
      rw [List.filter_cons, hv, live_cons_some hv]
      show (e :: _).length = _
      rw [List.length_cons, List.length_cons, ih]

theorem collect_spec (es : List (Entry K V)) : collect es (live es).length = .ok (es.filter (fun e => e.value.isSome)) := by
  induction es with
  | nil => rfl
  | cons e es ih =>
    cases hv : e.value with
    | none =>
      rw [live_cons_none hv, List.filter_cons, hv]
      cases hn : (live es).length with
      | zero =>
        have := filter_length es
        rw [hn] at this
        rw [List.length_eq_zero_iff.1 this]; rfl
      | succ n =>
        unfold collect
        rw [hv, ← hn]
        exact ih
    | some v =>
      rw [live_cons_some hv, List.filter_cons, hv, List.length_cons]
      unfold collect
      rw [hv]
      show (do let r ← collect es (live es).length; return e :: r) = _
      rw [ih]; rfl

theorem live_map (W : HashW K) (es : List (Entry K V)) : live (es.map (fun e => { e with hash := W.hash e.key })) = live es := by
  unfold live
  rw [List.filterMap_map]; rfl

theorem Small.nentries_le {t : Table K V} (h : Small t) {n : Nat} (hn : n ≤ 2) (e : t.nentries = n) : t.entries.length = n := by
  have := h.low
  rw [e, wrap32_of_in (by unfold InI32; omega)] at this
  omega

theorem newEntries_spec {d : DictObj K V} {l : List (K × V)} (inv : Inv W d l) :
    ∃ sz es, newEntries d = .ok (sz, es) ∧ live es = l ∧ (∀ e ∈ es, e.value.isSome) ∧ es.length = l.length ∧
      (∀ t, d.table = some t → Small t → es = [] ∨ sz ≤ 4) ∧ (∀ e ∈ es, entryHash W sz e = W.hash e.key) := by
  have hnum := inv.num
  unfold newEntries
  by_cases h0 : d.num > 0
  · rw [if_pos h0]
    cases ht : d.table with
    | none =>
      rw [inv.none ht] at hnum
      simp at hnum; omega
    | some t =>
      obtain ⟨hsl, hlive⟩ := inv.some t ht
      simp only
      have hle := live_length_le t.entries
      rw [hlive] at hle
      have hfl := filter_length t.entries
      rw [hlive] at hfl
      have key : (if t.nentries = d.num then
          if d.num.toNat ≤ t.entries.length then Res.ok (t.size, t.entries.take d.num.toNat) else .ub
        else do
          let es ← collect t.entries d.num.toNat
          return (t.size, es)) = .ok (t.size, t.entries.filter (fun e => e.value.isSome)) := by
        rw [hnum, Int.toNat_natCast]
        by_cases hc : t.nentries = l.length
        · have hel : t.entries.length = l.length := by
            rcases hsl with s | g
            · have := s.cap; have := s.nonneg
              exact s.nentries_le (by omega) hc
            · have := g.low; omega
          rw [if_pos hc, if_pos (by omega), ← hel, List.take_length]
          congr 2
          symm
          rw [List.filter_eq_self]
          intro e he
          by_contra hcon
          have : (t.entries.filter (fun e => e.value.isSome)).length < t.entries.length :=
            List.length_filter_lt_length_iff_exists.2 ⟨e, he, hcon⟩
          omega
        · rw [if_neg hc]
          have := collect_spec t.entries
          rw [hlive] at this
          rw [this]; rfl
      refine ⟨t.size, _, key, by rw [live_filter, hlive], ?_, hfl, ?_, ?_⟩
      · intro e he; exact (List.mem_filter.1 he).2
      · intro t' ht' hs
        cases ht'
        right; exact hs.size.le
      · intro e he
        unfold entryHash
        rcases hsl with s | g
        · rw [if_neg (by have := s.size; omega)]
        · rw [if_pos (by have := g.pos; omega)]
          exact g.hash e (List.mem_filter.1 he).1
  · rw [if_neg h0]
    have : l = [] := List.length_eq_zero_iff.1 (by omega)
    subst this
    exact ⟨0, [], rfl, rfl, by simp, rfl, fun _ _ _ => Or.inl rfl, by simp⟩

/-- `dictresize` keeps the bindings and makes room. -/
theorem resize_spec (ok : W.Ok) {d : DictObj K V} {l : List (K × V)} (inv : Inv W d l) (hl : l.length < 2 ^ 28) :
    ∃ t, resize W d = .ok ⟨d.num, some t⟩ ∧ Good W ⟨d.num, some t⟩ l ∧ 0 < t.usable ∧
      (t.size ≤ 8 ∨ ∃ t0, d.table = some t0 ∧ t0.size ≠ 4) := by
  obtain ⟨sz, es, e1, e2, e3, e4, e5, e6⟩ := newEntries_spec inv
  have hnum := inv.num
  obtain ⟨k, hk, g1, g2, g3⟩ := grow_spec (m := 3 * d.num) ((3 * d.num).toNat + 1) 2 (by omega) (by omega)
  have h4 : (4 : Nat) ≤ 2 ^ k := Nat.pow_le_pow_right (n := 2) (by omega) hk
  have hsz : 2 ^ k ≤ 8 ∨ ∃ t0, d.table = some t0 ∧ t0.size ≠ 4 := by
    cases ht : d.table with
    | none =>
      left
      have := inv.none ht
      rw [this] at hnum
      simp at hnum
      rcases g3 with rfl | g3
      · omega
      · omega
    | some t =>
      rcases (inv.some t ht).1 with s | g
      · left
        have h1 := s.cap
        have h2 := s.nonneg
        have h3 := live_length_le t.entries
        rw [(inv.some t ht).2] at h3
        rcases g3 with rfl | g3
        · omega
        · by_contra hc
          have : 4 ≤ k := by
            by_contra hk4
            have : k ≤ 3 := by omega
            have := Nat.pow_le_pow_right (n := 2) (by omega) this
            omega
          have := Nat.pow_le_pow_right (n := 2) (by omega) this
          omega
      · right
        exact ⟨t, rfl, by have := g.pos; omega⟩
  have hcap : ((2 * 2 ^ k / 3 : Nat) : Int) - d.num > 0 := by omega
  unfold resize
  rw [show (4 : Nat) = 2 ^ 2 from rfl, g1, Res.ok_bind, e1, Res.ok_bind]
  simp only
  unfold newIndices
  by_cases hbuild : es ≠ [] ∧ 2 ^ k > 4
  · rw [if_pos hbuild]
    have hempty : IndOk (V := V) (K := K) (2 ^ k) (List.replicate (2 ^ k) (-1)) [] := by
      refine ⟨List.length_replicate, ?_, ?_, ?_⟩
      · intro s x hx h1; rw [List.getElem?_replicate] at hx; split at hx <;> simp at hx; omega
      · intro s s' j hx; rw [List.getElem?_replicate] at hx; split at hx <;> simp at hx
      · intro j e hj; simp at hj
    obtain ⟨ind, b1, b2, b3⟩ := build_spec W ok sz (k := k) es [] _ hempty
      (by simp [List.countP_replicate]) (by rw [List.length_nil]; omega) e3 e6
    rw [List.length_nil, Nat.cast_zero] at b1
    rw [List.nil_append] at b2
    rw [List.length_nil] at b3
    rw [b1, Res.ok_bind]
    refine ⟨_, rfl, ⟨?_, fun t ht => Or.inl (by cases ht; simp; omega)⟩, hcap, hsz⟩
    refine ⟨hnum, inv.distinct, fun h => by simp at h, ?_⟩
    intro t ht
    simp only [Option.some.injEq] at ht
    subst ht
    refine ⟨Or.inr ?_, ?_⟩
    · have hk3 : 3 ≤ k := by
        by_contra hc
        have : k = 2 := by omega
        subst this
        omega
      refine ⟨⟨k, hk3, rfl⟩, ?_, b2, ?_, ?_, ?_, ?_, ?_⟩
      · simp only
        rcases g3 with rfl | g3
        · omega
        · by_contra hc; omega
      · simp only [List.length_map]; omega
      · simp only [List.length_map]; omega
      · simp only; omega
      · simp only; omega
      · intro e he
        simp only [List.mem_map] at he
        obtain ⟨e', -, rfl⟩ := he
        rfl
    · simp only; rw [live_map, e2]
  · rw [if_neg hbuild, Res.ok_bind]
    refine ⟨_, rfl, ⟨?_, fun t ht => Or.inl (by cases ht; simp; omega)⟩, hcap, hsz⟩
    refine ⟨hnum, inv.distinct, fun h => by simp at h, ?_⟩
    intro t ht
    simp only [Option.some.injEq] at ht
    subst ht
    refine ⟨Or.inl ?_, e2⟩
    have hk2 : 2 ^ k = 4 := by
      by_contra hc
      have hes : es = [] := by
        by_contra h; exact hbuild ⟨h, by omega⟩
      rw [hes] at e4
      simp at e4
      rcases g3 with rfl | g3 <;> omega
    have hw : wrap32 (l.length : Nat) = (l.length : Nat) := wrap32_of_in (by unfold InI32; omega)
    refine ⟨hk2, ?_, ?_, ?_, ?_, ?_, ?_⟩
    · simp [hk2]
    · simp [hk2]
    · simp [hk2]
    · simp only; rw [hnum, e4]; exact hw
    · simp only; rw [hk2] at hcap ⊢; omega
    · simp only; omega

end Verif.Dict
