import Verif.Dict.Resize
/-!
# The operations refine those on association lists
-/
namespace Verif.Dict
open Verif
set_option linter.unusedSectionVars false
variable {K V : Type} {W : HashW K}

theorem modify_get {es : List (Entry K V)} {j : Nat} {f : Entry K V → Entry K V} (i : Nat) :
    (es.modify j f)[i]? = if j = i then es[i]?.map f else es[i]? := by
  rw [List.getElem?_modify]
  by_cases h : j = i
  · simp [h]
  · simp [h]

theorem IndOk.setValue {size : Nat} {ind : List Int} {es : List (Entry K V)} (h : IndOk size ind es) (j : Nat) (v : V)
    (hj : ∃ e, es[j]? = some e ∧ e.value.isSome) :
    IndOk size ind (es.modify j (fun e => { e with value := some v })) := by
  obtain ⟨ej, hej, hlive⟩ := hj
  refine ⟨h.len, ?_, h.uniq, ?_⟩
  · intro s x hx h1 h2
    obtain ⟨i, e, e1, e2, e3⟩ := h.valid s x hx h1 h2
    by_cases hc : j = i
    · exact ⟨i, { e with value := some v }, e1, by rw [modify_get, if_pos hc, e2]; rfl, rfl⟩
    · exact ⟨i, e, e1, by rw [modify_get, if_neg hc, e2], e3⟩
  · intro i e hi hl
    rw [modify_get] at hi
    by_cases hc : j = i
    · subst hc
      rw [if_pos rfl, hej, Option.map_some, Option.some.injEq] at hi
      have := h.path j ej hej hlive
      rw [← hi]; exact this
    · rw [if_neg hc] at hi
      exact h.path i e hi hl

theorem IndOk.remove {size : Nat} {ind : List Int} {es : List (Entry K V)} (h : IndOk size ind es) {s j : Nat}
    (hs : ind[s]? = some (j : Int)) :
    IndOk size (ind.set s (-2)) (es.modify j (fun e => { e with value := none })) := by
  have hb := (List.getElem?_eq_some_iff.1 hs).1
  refine ⟨by rw [List.length_set]; exact h.len, ?_, ?_, ?_⟩
  · intro s' x hx h1 h2
    rw [set_get _ hb] at hx
    by_cases hc : s = s'
    · rw [if_pos hc] at hx; simp at hx; omega
    · rw [if_neg hc] at hx
      obtain ⟨i, e, e1, e2, e3⟩ := h.valid s' x hx h1 h2
      have : j ≠ i := by
        intro hji
        rw [e1, ← hji] at hx
        exact hc (h.uniq _ _ _ hs hx)
      exact ⟨i, e, e1, by rw [modify_get, if_neg this, e2], e3⟩
  · intro s1 s2 i h1 h2
    rw [set_get _ hb] at h1 h2
    by_cases hc1 : s = s1
    · rw [if_pos hc1] at h1; simp at h1
    · by_cases hc2 : s = s2
      · rw [if_pos hc2] at h2; simp at h2
      · rw [if_neg hc1] at h1; rw [if_neg hc2] at h2
        exact h.uniq _ _ _ h1 h2
  · intro i e hi hl
    rw [modify_get] at hi
    by_cases hc : j = i
    · rw [if_pos hc] at hi
      cases hg : es[i]? with
      | none => rw [hg] at hi; simp at hi
      | some e' =>
        rw [hg] at hi
        simp at hi
        rw [← hi] at hl
        simp at hl
    · rw [if_neg hc] at hi
      obtain ⟨m, h1, h2⟩ := h.path i e hi hl
      refine ⟨m, ?_, ?_⟩
      · rw [set_get _ hb, if_neg, h1]
        intro hsm
        rw [← hsm, hs] at h1
        simp at h1
        exact hc h1
      · intro m' hm'
        rw [set_get _ hb]
        by_cases hsm : s = slot size e.hash m'
        · rw [if_pos hsm]; simp
        · rw [if_neg hsm]; exact h2 m' hm'

theorem IndOk.trunc {size : Nat} {ind : List Int} {es : List (Entry K V)} (h : IndOk size ind es) {s j : Nat}
    (hs : ind[s]? = some (j : Int)) (hdead : ∀ (i : Nat) e, j < i → es[i]? = some e → e.value = none) :
    IndOk size (ind.set s (-2)) (es.take j) := by
  have hb := (List.getElem?_eq_some_iff.1 hs).1
  have hr := h.remove hs
  refine ⟨hr.len, ?_, hr.uniq, ?_⟩
  · intro s' x hx h1 h2
    obtain ⟨i, e, e1, e2, e3⟩ := hr.valid s' x hx h1 h2
    rw [modify_get] at e2
    by_cases hc : j = i
    · rw [if_pos hc] at e2
      cases hg : es[i]? with
      | none => rw [hg] at e2; simp at e2
      | some e' =>
        rw [hg] at e2
        simp at e2
        rw [← e2] at e3
        simp at e3
    · rw [if_neg hc] at e2
      have : i < j := by
        by_contra hcon
        rw [hdead i e (by omega) e2] at e3
        simp at e3
      exact ⟨i, e, e1, by rw [List.getElem?_take_of_lt this]; exact e2, e3⟩
  · intro i e hi hl
    have hij : i < j := by
      have := (List.getElem?_eq_some_iff.1 hi).1
      rw [List.length_take] at this
      omega
    rw [List.getElem?_take_of_lt hij] at hi
    apply hr.path i e
    · rw [modify_get, if_neg (by omega)]; exact hi
    · exact hl

/-- In a large table `$lookdict_index` finds the slot of a live entry. -/
theorem Large.lookIndex (ok : W.Ok) {t : Table K V} (h : Large W t) {j : Nat} {e : Entry K V} (hj : t.entries[j]? = some e)
    (hl : e.value.isSome) : ∃ s, lookIndex t (W.hash e.key) (j : Int) = .ok (s : Nat) ∧ t.indices[s]? = some (j : Int) := by
  have hh := h.hash e (List.mem_iff_getElem?.2 ⟨j, hj⟩)
  obtain ⟨m, h1, h2⟩ := h.ok.path j e hj hl
  rw [hh] at h1 h2
  obtain ⟨n0, hn0, he0⟩ := h.empty (ok.hash_lt e.key)
  have hmn : m ≤ n0 := by
    by_contra hc
    exact h2 n0 (by omega) he0
  obtain ⟨N, hle, hP, hmin⟩ := exists_least (fun m => t.indices[slot t.size (W.hash e.key) m]? = some (j : Int)) m h1
  refine ⟨slot t.size (W.hash e.key) N, ?_, hP⟩
  unfold Verif.Dict.lookIndex
  rw [pstate_zero]
  apply lookIndexLoop_spec h.ok.len (by have := h.pos; omega) hP
  · intro m' hm'
    exact ⟨h2 m' (by omega), hmin m' hm'⟩
  · omega
  · omega

theorem getB {l : List Int} (h : l.length = 4) : ∃ a b c d, l = [a, b, c, d] := by
  match l, h with
  | [a, b, c, d], _ => exact ⟨a, b, c, d, rfl⟩

/-- In a small table `$lookdict_index` may find nothing. -/
theorem Small.lookIndex {t : Table K V} (h : Small t) (j : Nat) :
    ∃ i, lookIndex t 0 (j : Int) = .ok i ∧ (i = -1 ∨ i = 0 ∨ i = 1) := by
  obtain ⟨a, b, c, d, hi⟩ := getB h.len
  have h2 := h.two
  have h3 := h.three
  rw [hi] at h2 h3
  simp at h2 h3
  subst h2 h3
  have i0 : t.ind 0 = .ok a := ind_of (by rw [hi]; rfl)
  have i1 : t.ind 1 = .ok b := ind_of (by rw [hi]; rfl)
  have i2 : t.ind 2 = .ok (-1) := ind_of (by rw [hi]; rfl)
  unfold Verif.Dict.lookIndex
  rw [h.size]
  show ∃ i, lookIndexLoop t (j : Int) (17 + 1) (0, 0) = .ok i ∧ _
  unfold lookIndexLoop
  simp only [i0, Res.ok_bind]
  by_cases ha : a = j
  · rw [if_pos ha]; exact ⟨_, rfl, by simp⟩
  rw [if_neg ha]
  by_cases ha1 : a = -1
  · rw [if_pos ha1]; exact ⟨_, rfl, by simp⟩
  rw [if_neg ha1, h.size]
  show ∃ i, lookIndexLoop t (j : Int) (16 + 1) (1, 0) = .ok i ∧ _
  unfold lookIndexLoop
  simp only [i1, Res.ok_bind]
  by_cases hb : b = j
  · rw [if_pos hb]; exact ⟨_, rfl, by simp⟩
  rw [if_neg hb]
  by_cases hb1 : b = -1
  · rw [if_pos hb1]; exact ⟨_, rfl, by simp⟩
  rw [if_neg hb1, h.size]
  show ∃ i, lookIndexLoop t (j : Int) (15 + 1) (2, 0) = .ok i ∧ _
  unfold lookIndexLoop
  simp only [i2, Res.ok_bind]
  rw [if_neg (by omega), if_pos trivial]
  exact ⟨_, rfl, by simp⟩

/-- Garbage in the upper half of `tb_nentries` does not change its low half. -/
theorem wrap32_garbage {x : Int} {n : Nat} (h : wrap32 x = n) (v : Int) : wrap32 (wrap64 (x % 2 ^ 32 + v * 2 ^ 32)) = n := by
  rw [← h]
  unfold wrap32 wrap64
  have e1 : ((x % 2 ^ 32 + v * 2 ^ 32).bmod (2 ^ 64)).bmod (2 ^ 32) = (x % 2 ^ 32 + v * 2 ^ 32).bmod (2 ^ 32) := by
    rw [Int.bmod_bmod_of_dvd (by decide)]
  rw [e1]
  rw [show ((2 : Int) ^ 32) = ((2 ^ 32 : Nat) : Int) by norm_num, Int.add_mul_bmod_self_right, Int.emod_bmod]

variable [DecidableEq K]

/-- Replacing the value of a found key. -/
theorem Good.setValue (ok : W.Ok) {d : DictObj K V} {l : List (K × V)} {t : Table K V} (h : Good W d l) (ht : d.table = some t)
    {key : K} {ix : Nat} {v0 : V} (hf : Found W t key (some (ix, v0))) (v : V) :
    Good W { d with table := some (t.setValue ix (some v)) } (aset W.eq l key v) ∧ alookup W.eq l key = some v0 := by
  obtain ⟨e, he, hv, hk⟩ := hf
  obtain ⟨hsl, hlive⟩ := h.1.some t ht
  obtain ⟨A, B, hAB, hlen⟩ := split_at he
  have hl : l = live A ++ (e.key, v0) :: live B := by
    rw [← hlive, hAB, live_append, live_cons_some hv]
  have hd := h.1.distinct
  rw [hl] at hd
  have hmid := hd.mid ok hk
  have hset : aset W.eq l key v = live A ++ (e.key, v) :: live B := by rw [hl, aset_mid hmid.1 hk]
  have hes : (t.setValue ix (some v)).entries = A ++ { e with value := some v } :: B := by
    unfold Table.setValue
    simp only
    rw [hAB, ← hlen, modify_mid]
  have hlen2 : (t.setValue ix (some v)).entries.length = t.entries.length := by
    rw [hes, hAB, List.length_append, List.length_append, List.length_cons, List.length_cons]
  refine ⟨⟨⟨?_, ?_, ?_, ?_⟩, ?_⟩, by rw [hl, alookup_mid hmid.1 hk]⟩
  · simp only; rw [h.1.num, hset, hl]; simp
  · rw [hset]
    have := hd
    unfold Distinct at this ⊢
    rw [List.pairwise_append] at this ⊢
    rw [List.pairwise_cons] at this ⊢
    obtain ⟨p1, ⟨p2, p3⟩, p4⟩ := this
    refine ⟨p1, ⟨p2, p3⟩, ?_⟩
    intro a ha b hb
    rcases List.mem_cons.1 hb with rfl | hb
    · exact p4 a ha (e.key, v0) (by simp)
    · exact p4 a ha b (List.mem_cons_of_mem _ hb)
  · intro hc; simp at hc
  · intro t' ht'
    simp only [Option.some.injEq] at ht'
    subst ht'
    refine ⟨?_, by rw [hes, live_append, live_cons_some rfl, hset]⟩
    rcases hsl with s | g
    · left
      exact ⟨s.size, s.len, s.two, s.three, by rw [hlen2]; exact s.low, by rw [hlen2]; exact s.cap, s.nonneg⟩
    · right
      refine ⟨g.size, g.small, ?_, by rw [hlen2]; exact g.low, by rw [hlen2]; exact g.cap, g.used, g.nonneg, ?_⟩
      · exact g.ok.setValue ix v ⟨e, he, by rw [hv]; rfl⟩
      · intro x hx
        rw [hes] at hx
        have hgh := g.hash
        rw [hAB] at hgh
        rcases List.mem_append.1 hx with hx | hx
        · exact hgh x (by simp [hx])
        · rcases List.mem_cons.1 hx with rfl | hx
          · exact hgh e (by simp)
          · exact hgh x (by simp [hx])
  · intro t' ht'
    simp only [Option.some.injEq] at ht'
    subst ht'
    rw [hlen2]
    exact h.2 t ht

/-- Adding a new key to a table with room. -/
theorem insertNew_spec (ok : W.Ok) {d : DictObj K V} {l : List (K × V)} {t : Table K V} (h : Good W d l) (ht : d.table = some t)
    (hu : 0 < t.usable) {key : K} (hf : Found W t key none) (v : V) (hash : Nat) (hh : t.size ≠ 4 → hash = W.hash key) :
    ∃ d', insertNew d t hash key v = .ok d' ∧ Good W d' (aset W.eq l key v) ∧ alookup W.eq l key = none := by
  obtain ⟨hsl, hlive⟩ := h.1.some t ht
  have hnone : ∀ p ∈ l, W.eq key p.1 = false := by rw [← hlive]; exact hf
  have hset := aset_none v hnone
  have hne : t.nentries = t.entries.length := by
    rcases h.2 t ht with h1 | h1
    · exact h1
    · omega
  -- common part of the result
  have fin : ∀ (ind : List Int) (t' : Table K V),
      t' = { t with indices := ind, entries := t.entries ++ [⟨hash, key, some v⟩], usable := t.usable - 1, nentries := t.nentries + 1 } →
      (Small t' ∨ Large W t') → Good W ⟨d.num + 1, some t'⟩ (aset W.eq l key v) := by
    intro ind t' ht' hs
    have hn' : t'.nentries = t'.entries.length := by rw [ht']; simp [hne]
    refine ⟨⟨?_, ?_, fun hc => by simp at hc, ?_⟩, ?_⟩
    · rw [hset]; simp [h.1.num]
    · rw [hset]
      unfold Distinct
      rw [List.pairwise_append]
      refine ⟨h.1.distinct, by simp, ?_⟩
      intro a ha b hb
      rw [List.mem_singleton.1 hb]
      exact ok.symm_false (hnone a ha)
    · intro t'' ht''
      simp only [Option.some.injEq] at ht''
      subst ht''
      refine ⟨hs, ?_⟩
      rw [ht']
      simp only
      rw [live_append, hlive, hset]; rfl
    · intro t'' ht''
      simp only [Option.some.injEq] at ht''
      subst ht''
      exact Or.inl hn'
  unfold insertNew freeSlot
  rcases hsl with s | g
  · have hcap := s.cap
    have hlt : t.entries.length < 2 := by omega
    rw [if_pos s.size, Res.ok_bind]
    have e1 : t.setInd t.nentries t.nentries = .ok { t with indices := t.indices.set t.entries.length t.nentries } := by
      unfold Table.setInd
      have := s.len
      rw [if_neg (by omega), if_pos (by omega), hne]; rfl
    rw [e1, Res.ok_bind]
    unfold Table.putEntry
    simp only
    rw [if_pos (by have := s.size; omega), Res.ok_bind]
    refine ⟨_, rfl, fin _ _ rfl (Or.inl ?_), alookup_none_iff.2 hnone⟩
    refine ⟨s.size, ?_, ?_, ?_, ?_, ?_, ?_⟩
    · simp [s.len]
    · simp only; rw [List.getElem?_set_ne (by omega)]; exact s.two
    · simp only; rw [List.getElem?_set_ne (by omega)]; exact s.three
    · simp only [List.length_append, List.length_singleton]
      rw [hne, wrap32_of_in (by unfold InI32; omega)]; omega
    · simp only [List.length_append, List.length_singleton]; omega
    · simp only; omega
  · have h8 := g.pos
    rw [if_neg (by omega)]
    have hhash := hh (by omega)
    obtain ⟨n0, hn0, he0⟩ := g.empty (ok.hash_lt key)
    obtain ⟨N, hle, ⟨y, hP, hy⟩, hmin⟩ := exists_least (fun m => ∃ y : Int, t.indices[slot t.size (W.hash key) m]? = some y ∧ y < 0) n0
      ⟨-1, he0, by omega⟩
    have hpos : ∀ m < N, ∀ x, t.indices[slot t.size (W.hash key) m]? = some x → 0 ≤ x := by
      intro m hm x hx
      by_contra hc
      exact hmin m hm ⟨x, hx, by omega⟩
    have hloop := freeLoop_spec g.ok.len (by omega) hP hy hpos (t.size + 14) 0 (by omega) (by omega)
    rw [hhash, pstate_zero, hloop, Res.ok_bind]
    have hb := (List.getElem?_eq_some_iff.1 hP).1
    have e1 : t.setInd (slot t.size (W.hash key) N : Nat) t.nentries =
        .ok { t with indices := t.indices.set (slot t.size (W.hash key) N) t.nentries } := by
      unfold Table.setInd
      rw [if_neg (by omega), if_pos (by omega), Int.toNat_natCast]
    show ∃ d', (t.setInd (slot t.size (W.hash key) N : Nat) t.nentries >>= _) = _ ∧ _
    rw [e1, Res.ok_bind]
    unfold Table.putEntry
    simp only
    have hcap := g.cap
    rw [if_pos (by omega), Res.ok_bind]
    rw [hhash] at fin
    refine ⟨_, rfl, fin _ _ rfl (Or.inr ?_), alookup_none_iff.2 hnone⟩
    have hcount := count_set (x := t.nentries) hP
    have hused := g.used
    refine ⟨g.size, g.small, ?_, ?_, ?_, ?_, ?_, ?_⟩
    · simp only; rw [hne]
      exact g.ok.insert (e := ⟨W.hash key, key, some v⟩) rfl hP hy (fun m hm hc => by have := hpos m hm _ hc; omega)
    · simp [hne]
    · simp only [List.length_append, List.length_singleton]; omega
    · simp only
      rw [if_pos (by omega : t.nentries ≠ -1)] at hcount
      omega
    · simp only; omega
    · simp only
      intro e he
      rcases List.mem_append.1 he with he | he
      · exact g.hash e he
      · rw [List.mem_singleton.1 he]

theorem ensure_spec (ok : W.Ok) {d : DictObj K V} {l : List (K × V)} (h : Good W d l) (hl : l.length < 2 ^ 28) :
    ∃ d' t, ensure W d = .ok d' ∧ d'.table = some t ∧ Good W d' l ∧ 0 < t.usable ∧
      (t.size ≤ 8 ∨ ∃ t0, d.table = some t0 ∧ t0.size ≠ 4) := by
  unfold ensure
  cases ht : d.table with
  | none =>
    obtain ⟨t, e1, e2, e3, e4⟩ := resize_spec ok h.1 hl
    exact ⟨_, t, e1, rfl, e2, e3, by rw [ht] at e4; exact e4⟩
  | some t =>
    simp only
    by_cases hu : t.usable ≤ 0
    · rw [if_pos hu]
      obtain ⟨t', e1, e2, e3, e4⟩ := resize_spec ok h.1 hl
      exact ⟨_, t', e1, rfl, e2, e3, by rw [ht] at e4; exact e4⟩
    · rw [if_neg hu]
      refine ⟨d, t, rfl, ht, h, by omega, ?_⟩
      by_cases h4 : t.size = 4
      · left; omega
      · exact Or.inr ⟨t, rfl, h4⟩

theorem size_cases {d : DictObj K V} {l : List (K × V)} (h : Inv W d l) {t : Table K V} (ht : d.table = some t) :
    t.size = 4 ∨ 8 ≤ t.size := by
  rcases (h.some t ht).1 with s | g
  · exact Or.inl s.size
  · exact Or.inr g.pos

/-- Assignment. -/
theorem insertdict_spec (ok : W.Ok) {d : DictObj K V} {l : List (K × V)} (h : Good W d l) (hl : l.length < 2 ^ 28)
    (key : K) (v : V) (hash : Nat) (hh : ∀ t, d.table = some t → t.size ≠ 4 → hash = W.hash key) :
    ∃ d', insertdict W d hash key v = .ok d' ∧ Good W d' (aset W.eq l key v) := by
  obtain ⟨d1, t, e1, ht, hg, hu, hsz⟩ := ensure_spec ok h hl
  unfold insertdict
  rw [e1, Res.ok_bind, ht]
  simp only
  have hhash : t.size ≠ 4 → insertHash W t.size hash key = W.hash key := by
    intro h4
    unfold insertHash
    by_cases h8 : t.size = 8
    · rw [if_pos h8]
    · rw [if_neg h8]
      rcases hsz with hsz | ⟨t0, ht0, hs0⟩
      · have := size_cases (hg.1) ht; omega
      · exact hh t0 ht0 hs0
  unfold insertAt
  obtain ⟨r, e2, hf⟩ := lookdict_spec ok (hg.1.some t ht).1 key (insertHash W t.size hash key) hhash
  rw [e2, Res.ok_bind]
  cases r with
  | none =>
    obtain ⟨d', e3, h3, -⟩ := insertNew_spec ok hg ht hu hf v _ hhash
    exact ⟨d', e3, h3⟩
  | some q =>
    obtain ⟨ix, v0⟩ := q
    exact ⟨_, rfl, (hg.setValue ok ht hf v).1⟩

theorem tableHash_ok {d : DictObj K V} {l : List (K × V)} (h : Inv W d l) (key : K) :
    ∀ t, d.table = some t → t.size ≠ 4 → tableHash W d.table key = W.hash key := by
  intro t ht h4
  unfold tableHash
  rw [ht]
  simp only
  have := size_cases h ht
  rw [if_pos (by omega)]

/-- The result of a search as lookup in the association list. -/
theorem found_lookup (ok : W.Ok) {d : DictObj K V} {l : List (K × V)} {t : Table K V} (h : Inv W d l) (ht : d.table = some t)
    {key : K} {r : Option (Nat × V)} (hf : Found W t key r) : r.map Prod.snd = alookup W.eq l key := by
  obtain ⟨-, hlive⟩ := h.some t ht
  cases r with
  | none =>
    symm
    exact alookup_none_iff.2 (by rw [← hlive]; exact hf)
  | some q =>
    obtain ⟨ix, v⟩ := q
    obtain ⟨e, he, hv, hk⟩ := hf
    obtain ⟨A, B, hAB, -⟩ := split_at he
    have hd := h.distinct
    have hl : l = live A ++ (e.key, v) :: live B := by
      rw [← hlive, hAB, live_append, live_cons_some hv]
    rw [hl] at hd ⊢
    rw [alookup_mid (hd.mid ok hk).1 hk]; rfl

/-- `$lookdict` with the hash that all callers pass. -/
theorem lookup_spec (ok : W.Ok) {d : DictObj K V} {l : List (K × V)} {t : Table K V} (h : Inv W d l) (ht : d.table = some t) (key : K) :
    ∃ r, lookdict W (some t) (tableHash W (some t) key) key = .ok r ∧ Found W t key r ∧ r.map Prod.snd = alookup W.eq l key := by
  have := tableHash_ok h key t ht
  rw [ht] at this
  obtain ⟨r, e, hf⟩ := lookdict_spec ok (h.some t ht).1 key _ this
  exact ⟨r, e, hf, found_lookup ok h ht hf⟩

/-- Removing a found entry. -/
theorem removeAt_spec (ok : W.Ok) {d : DictObj K V} {l : List (K × V)} {t : Table K V} (h : Good W d l) (hl : l.length < 2 ^ 28)
    (ht : d.table = some t) {key : K} {ix : Nat} {v0 : V} (hf : Found W t key (some (ix, v0))) :
    ∃ d', removeAt W d t (tableHash W (some t) key) ix = .ok d' ∧ Good W d' (aerase W.eq l key) := by
  obtain ⟨e, he, hv, hk⟩ := hf
  obtain ⟨hsl, hlive⟩ := h.1.some t ht
  obtain ⟨A, B, hAB, hlen⟩ := split_at he
  have hle : l = live A ++ (e.key, v0) :: live B := by
    rw [← hlive, hAB, live_append, live_cons_some hv]
  have hd := h.1.distinct
  rw [hle] at hd
  have hmid := hd.mid ok hk
  have her : aerase W.eq l key = live A ++ live B := by rw [hle, aerase_mid hmid.1 hmid.2 hk]
  have hlen1 : l.length = (aerase W.eq l key).length + 1 := by rw [her, hle]; simp; omega
  -- the intermediate state
  have mid : ∀ (t1 : Table K V), t1.entries = t.entries → t1.size = t.size → t1.usable = t.usable →
      (Small (t1.setValue ix none) ∨ Large W (t1.setValue ix none)) →
      ((t1.setValue ix none).nentries = (t1.setValue ix none).entries.length ∨ t1.usable ≤ 0 ∨ aerase W.eq l key = []) →
      ∃ d', (if 10 * (d.num - 1) < (t1.setValue ix none).size then resize W ⟨d.num - 1, some (t1.setValue ix none)⟩
        else Res.ok ⟨d.num - 1, some (t1.setValue ix none)⟩) = .ok d' ∧ Good W d' (aerase W.eq l key) := by
    intro t1 h1 h2 h3 hs hfull
    have hes : (t1.setValue ix none).entries = A ++ { e with value := none } :: B := by
      unfold Table.setValue
      simp only
      rw [h1, hAB, ← hlen, modify_mid]
    have hinv : Inv W ⟨d.num - 1, some (t1.setValue ix none)⟩ (aerase W.eq l key) := by
      refine ⟨?_, ?_, fun hc => by simp at hc, ?_⟩
      · have := h.1.num; simp only; omega
      · rw [her]
        exact List.Pairwise.sublist (List.Sublist.append_left (List.sublist_cons_self _ _) _) hd
      · intro t' ht'
        simp only [Option.some.injEq] at ht'
        subst ht'
        exact ⟨hs, by rw [hes, live_append, live_cons_none rfl, her]⟩
    have hnum := hinv.num
    simp only at hnum
    by_cases hc : 10 * (d.num - 1) < (t1.setValue ix none).size
    · rw [if_pos hc]
      obtain ⟨t', e1, e2, -, -⟩ := resize_spec ok hinv (by omega)
      exact ⟨_, e1, e2⟩
    · rw [if_neg hc]
      refine ⟨_, rfl, hinv, ?_⟩
      intro t' ht'
      simp only [Option.some.injEq] at ht'
      subst ht'
      rcases hfull with hfull | hfull | hfull
      · exact Or.inl hfull
      · exact Or.inr hfull
      · exfalso
        rw [hfull] at hnum
        have hsz : 4 ≤ (t1.setValue ix none).size := by
          show 4 ≤ t1.size
          rw [h2]
          have := size_cases (h.1) ht; omega
        simp at hnum
        omega
  have hlenE : t.entries.length = (t.entries.modify ix (fun e => { e with value := none })).length := by simp
  unfold removeAt
  rcases hsl with s | g
  · have hth : tableHash W (some t) key = 0 := by
      unfold tableHash; simp only; rw [if_neg (by have := s.size; omega)]
    rw [hth]
    obtain ⟨i, e1, hi⟩ := s.lookIndex ix
    rw [e1, Res.ok_bind]
    by_cases hneg : i = -1
    · have e2 : t.setInd i (-2) = .ok { t with nentries := wrap64 (t.nentries % 2^32 + (-2) * 2^32) } := by
        unfold Table.setInd; rw [if_pos hneg]
      rw [e2, Res.ok_bind]
      apply mid { t with nentries := wrap64 (t.nentries % 2^32 + (-2) * 2^32) } rfl rfl rfl
      · left
        refine ⟨s.size, s.len, s.two, s.three, ?_, ?_, s.nonneg⟩
        · have := s.low
          show wrap32 (wrap64 (t.nentries % 2^32 + (-2) * 2^32)) = ((t.entries.modify ix _).length : Nat)
          rw [wrap32_garbage this, hlenE]
        · show (((t.entries.modify ix _).length : Nat) : Int) + _ ≤ _
          rw [← hlenE]; exact s.cap
      · right
        have hcap := s.cap
        have hnn := s.nonneg
        by_cases hz : t.usable ≤ 0
        · exact Or.inl hz
        · right
          have := live_length_le t.entries
          rw [hlive] at this
          exact List.length_eq_zero_iff.1 (by omega)
    · have hib : 0 ≤ i ∧ i < 2 := by omega
      have e2 : t.setInd i (-2) = .ok { t with indices := t.indices.set i.toNat (-2) } := by
        unfold Table.setInd
        have := s.len
        rw [if_neg hneg, if_pos (by omega)]
      rw [e2, Res.ok_bind]
      apply mid { t with indices := t.indices.set i.toNat (-2) } rfl rfl rfl
      · left
        refine ⟨s.size, ?_, ?_, ?_, ?_, ?_, s.nonneg⟩
        · show (t.indices.set _ _).length = 4
          rw [List.length_set, s.len]
        · show (t.indices.set _ _)[2]? = _
          rw [List.getElem?_set_ne (by omega)]; exact s.two
        · show (t.indices.set _ _)[3]? = _
          rw [List.getElem?_set_ne (by omega)]; exact s.three
        · show wrap32 t.nentries = ((t.entries.modify ix _).length : Nat)
          rw [← hlenE]; exact s.low
        · show (((t.entries.modify ix _).length : Nat) : Int) + _ ≤ _
          rw [← hlenE]; exact s.cap
      · rcases h.2 t ht with hf | hf
        · left
          show t.nentries = ((t.entries.modify ix _).length : Nat)
          rw [← hlenE]; exact hf
        · exact Or.inr (Or.inl hf)
  · have hth : tableHash W (some t) key = W.hash e.key := by
      unfold tableHash; simp only
      rw [if_pos (by have := g.pos; omega)]
      exact ok.hash_eq _ _ hk
    rw [hth]
    obtain ⟨sl, e1, hsl⟩ := g.lookIndex ok he (by rw [hv]; rfl)
    rw [e1, Res.ok_bind]
    have hb := (List.getElem?_eq_some_iff.1 hsl).1
    have e2 : t.setInd (sl : Nat) (-2) = .ok { t with indices := t.indices.set sl (-2) } := by
      unfold Table.setInd
      rw [if_neg (by omega), if_pos (by omega), Int.toNat_natCast]
    rw [e2, Res.ok_bind]
    apply mid { t with indices := t.indices.set sl (-2) } rfl rfl rfl
    · right
      have hcount := count_set (x := -2) hsl
      refine ⟨g.size, g.small, g.ok.remove hsl, ?_, ?_, ?_, g.nonneg, ?_⟩
      · show t.nentries = ((t.entries.modify ix _).length : Nat)
        rw [← hlenE]; exact g.low
      · show (((t.entries.modify ix _).length : Nat) : Int) + _ ≤ _
        rw [← hlenE]; exact g.cap
      · have := g.used
        show (((t.indices.set sl (-2)).countP _ : Nat) : Int) + t.usable ≤ _
        rw [if_pos (by omega), if_pos (by omega)] at hcount
        show _ ≤ ((2 * t.size / 3 : Nat) : Int)
        omega
      · intro x hx
        have hx' : x ∈ t.entries.modify ix (fun e => { e with value := none }) := hx
        obtain ⟨j, hj⟩ := List.mem_iff_getElem?.1 hx'
        rw [modify_get] at hj
        by_cases hc : ix = j
        · rw [if_pos hc] at hj
          cases hg : t.entries[j]? with
          | none => rw [hg] at hj; simp at hj
          | some y =>
            rw [hg] at hj
            simp at hj
            rw [← hj]
            exact g.hash y (List.mem_iff_getElem?.2 ⟨j, hg⟩)
        · rw [if_neg hc] at hj
          exact g.hash x (List.mem_iff_getElem?.2 ⟨j, hj⟩)
    · left
      show t.nentries = ((t.entries.modify ix _).length : Nat)
      rw [← hlenE]; exact g.low

theorem lastLive_spec {t : Table K V} : ∀ n, n ≤ t.entries.length →
    (lastLive t n = .ok none ∧ live (t.entries.take n) = []) ∨
    ∃ ix e v, lastLive t n = .ok (some (ix, e.key, v)) ∧ ix < n ∧ t.entries[ix]? = some e ∧ e.value = some v ∧
      (∀ (i : Nat) e', ix < i → i < n → t.entries[i]? = some e' → e'.value = none) ∧
      live (t.entries.take n) = live (t.entries.take ix) ++ [(e.key, v)] := by
  intro n
  induction n with
  | zero => intro _; left; exact ⟨rfl, rfl⟩
  | succ n ih =>
    intro h
    have hlt : n < t.entries.length := by omega
    have hg := List.getElem?_eq_getElem hlt
    have htake : t.entries.take (n + 1) = t.entries.take n ++ [t.entries[n]] := (List.take_append_getElem hlt).symm
    unfold lastLive
    rw [entry_of hg, Res.ok_bind, htake, live_append]
    cases hv : (t.entries[n]).value with
    | some v =>
      right
      refine ⟨n, t.entries[n], v, rfl, by omega, hg, hv, fun i _ h1 h2 => by omega, ?_⟩
      rw [live_cons_some hv]; rfl
    | none =>
      rw [live_cons_none hv]
      rcases ih (by omega) with ⟨h1, h2⟩ | ⟨ix, e, v, h1, h2, h3, h4, h5, h6⟩
      · left; exact ⟨h1, by rw [h2]; rfl⟩
      · right
        refine ⟨ix, e, v, h1, by omega, h3, h4, ?_, by rw [h6]; simp [live]⟩
        intro i e' hi1 hi2 hi3
        by_cases hin : i = n
        · subst hin
          rw [hg] at hi3
          simp at hi3
          rw [← hi3]; exact hv
        · exact h5 i e' hi1 (by omega) hi3

theorem popitem_spec (ok : W.Ok) {d : DictObj K V} {l : List (K × V)} (h : Good W d l) :
    ∃ d', popitem W d = .ok (l.getLast?, d') ∧ Good W d' l.dropLast := by
  have hnum := h.1.num
  unfold popitem
  by_cases h0 : d.num = 0
  · have : l = [] := List.length_eq_zero_iff.1 (by omega)
    subst this
    rw [if_pos h0]
    exact ⟨d, rfl, h⟩
  rw [if_neg h0]
  cases ht : d.table with
  | none => rw [h.1.none ht] at hnum; simp at hnum; omega
  | some t =>
    obtain ⟨hsl, hlive⟩ := h.1.some t ht
    simp only
    have hlow : wrap32 t.nentries = t.entries.length := by
      rcases hsl with s | g
      · exact s.low
      · have h1 := g.cap
        have h2 := g.nonneg
        have h3 := g.small
        rw [g.low, wrap32_of_in (by unfold InI32; omega)]
    rw [hlow, Int.toNat_natCast]
    rcases lastLive_spec (t := t) t.entries.length (Nat.le_refl _) with ⟨h1, h2⟩ | ⟨ix, e, v, h1, h2, h3, h4, h5, h6⟩
    · rw [List.take_length, hlive] at h2
      rw [h2] at hnum; simp at hnum; omega
    rw [List.take_length, hlive] at h6
    rw [h1, Res.ok_bind]
    simp only
    have hdl : l.dropLast = live (t.entries.take ix) := by rw [h6, List.dropLast_concat]
    have hgl : l.getLast? = some (e.key, v) := by rw [h6, List.getLast?_concat]
    have htl : (t.entries.take ix).length = ix := by rw [List.length_take]; omega
    have fin : ∀ t1 : Table K V, (Small { t1 with nentries := (ix : Int), entries := t.entries.take ix } ∨
        Large W { t1 with nentries := (ix : Int), entries := t.entries.take ix }) →
        Good W ⟨d.num - 1, some { t1 with nentries := (ix : Int), entries := t.entries.take ix }⟩ l.dropLast := by
      intro t1 hs
      refine ⟨⟨?_, ?_, fun hc => by simp at hc, ?_⟩, ?_⟩
      · simp only; rw [List.length_dropLast]; omega
      · exact List.Pairwise.sublist (List.dropLast_sublist l) h.1.distinct
      · intro t' ht'
        simp only [Option.some.injEq] at ht'
        subst ht'
        exact ⟨hs, hdl.symm⟩
      · intro t' ht'
        simp only [Option.some.injEq] at ht'
        subst ht'
        left
        simp only [htl]
    unfold dropIndex
    rcases hsl with s | g
    · rw [if_neg (by have := s.size; omega), Res.ok_bind, hgl]
      refine ⟨_, rfl, fin t (Or.inl ?_)⟩
      have hcap := s.cap
      refine ⟨s.size, s.len, s.two, s.three, ?_, ?_, s.nonneg⟩
      · simp only [htl]; rw [wrap32_of_in]; unfold InI32; have := s.nonneg; omega
      · simp only [htl]; omega
    · rw [if_pos (by have := g.pos; omega)]
      obtain ⟨sl, e1, hsl⟩ := g.lookIndex ok h3 (by rw [h4]; rfl)
      rw [e1, Res.ok_bind]
      have hb := (List.getElem?_eq_some_iff.1 hsl).1
      have e2 : t.setInd (sl : Nat) (-2) = .ok { t with indices := t.indices.set sl (-2) } := by
        unfold Table.setInd
        rw [if_neg (by omega), if_pos (by omega), Int.toNat_natCast]
      rw [e2, Res.ok_bind, hgl]
      refine ⟨_, rfl, fin { t with indices := t.indices.set sl (-2) } (Or.inr ?_)⟩
      have hcount := count_set (x := -2) hsl
      have hused := g.used
      have hcap := g.cap
      rw [if_pos (by omega), if_pos (by omega)] at hcount
      refine ⟨g.size, g.small, ?_, ?_, ?_, ?_, g.nonneg, ?_⟩
      · apply g.ok.trunc hsl
        intro i e' hi1 hi2
        exact h5 i e' hi1 (List.getElem?_eq_some_iff.1 hi2).1 hi2
      · simp only [htl]
      · simp only [htl]; omega
      · simp only; omega
      · intro x hx
        exact g.hash x (List.mem_of_mem_take hx)

theorem itemsLoop_spec {t : Table K V} : ∀ n i, i + n = t.entries.length →
    itemsLoop t n i = .ok (live (t.entries.drop i)) := by
  intro n
  induction n with
  | zero => intro i h; rw [List.drop_eq_nil_of_le (by omega)]; rfl
  | succ n ih =>
    intro i h
    have hi : i < t.entries.length := by omega
    unfold itemsLoop
    rw [entry_of (List.getElem?_eq_getElem hi), Res.ok_bind, ih (i + 1) (by omega), Res.ok_bind,
      List.drop_eq_getElem_cons hi]
    cases hv : (t.entries[i]).value with
    | none => rw [live_cons_none hv]
    | some v => rw [live_cons_some hv]

end Verif.Dict
