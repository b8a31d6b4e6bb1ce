import Verif.CList.Spec
import Verif.Slice.Lemmas
/-! Helper lemmas for the list refinement. -/
namespace Verif.CList
open Verif

/-- The buffer holds the sequence `l` in its first cells. -/
def Holds (b : List (Option α)) (l : List α) : Prop := ∀ i, i < l.length → b[i]? = some (l[i]?)

theorem Holds.le {b : List (Option α)} {l : List α} (h : Holds b l) : l.length ≤ b.length := by
  by_cases hl : l.length = 0
  · omega
  · have := h (l.length - 1) (by omega)
    have := (List.getElem?_eq_some_iff.1 this).1
    omega

theorem rd_holds {b : List (Option α)} {l : List α} (h : Holds b l) (i : Nat) (hi : i < l.length) :
    rd b i = .ok l[i] := by
  unfold rd
  rw [if_neg (by omega)]
  simp only [Int.toNat_natCast, h i hi, List.getElem?_eq_getElem hi]

theorem rd_holds' {b : List (Option α)} {l : List α} (h : Holds b l) (i : Int) (h0 : 0 ≤ i)
    (hi : i.toNat < l.length) : rd b i = .ok l[i.toNat] := by
  have := rd_holds h i.toNat hi
  rwa [Int.toNat_of_nonneg h0] at this

theorem memmove_eq {b : List (Option α)} {dst src n : Nat} (h1 : dst + n ≤ b.length)
    (h2 : src + n ≤ b.length) :
    ∃ b', memmove b dst src n = .ok b' ∧ b'.length = b.length ∧
      ∀ i, b'[i]? = if dst ≤ i ∧ i < dst + n then b[i - dst + src]? else b[i]? := by
  unfold memmove
  by_cases hn : n = 0
  · subst hn
    refine ⟨b, by simp, rfl, ?_⟩
    intro i; rw [if_neg (by omega)]
  · rw [if_neg (by omega), if_pos (by omega)]
    refine ⟨_, rfl, ?_, ?_⟩
    · simp only [List.length_append, List.length_take, List.length_drop]; omega
    · intro i
      have e1 : ((dst:Int) + (n:Int)).toNat = dst + n := by omega
      simp only [Int.toNat_natCast, e1]
      rw [List.getElem?_append, List.getElem?_append]
      simp only [List.length_append, List.length_take, List.length_drop,
        List.getElem?_take, List.getElem?_drop]
      split
      · split
        · rw [if_pos (by omega), if_neg (by omega)]
        · rw [if_pos (by omega), if_pos (by omega)]; congr 1; omega
      · rw [if_neg (by omega)]; congr 1; omega

theorem memmove_eq' {b : List (Option α)} {dst src n : Int} (h : 0 ≤ dst ∧ 0 ≤ src ∧ 0 ≤ n)
    (h1 : dst + n ≤ b.length) (h2 : src + n ≤ b.length) :
    ∃ b', memmove b dst src n = .ok b' ∧ b'.length = b.length ∧
      ∀ i : Nat, b'[i]? = if dst ≤ i ∧ (i:Int) < dst + n then b[i - dst.toNat + src.toNat]? else b[i]? := by
  obtain ⟨b', e1, e2, e3⟩ := memmove_eq (b := b) (dst := dst.toNat) (src := src.toNat) (n := n.toNat)
    (by omega) (by omega)
  refine ⟨b', ?_, e2, ?_⟩
  · rwa [Int.toNat_of_nonneg h.1, Int.toNat_of_nonneg h.2.1, Int.toNat_of_nonneg h.2.2] at e1
  · intro i
    rw [e3 i]
    by_cases hh : dst ≤ i ∧ (i:Int) < dst + n
    · rw [if_pos hh, if_pos (by omega)]
    · rw [if_neg hh, if_neg (by omega)]

theorem wr_eq {b : List (Option α)} {i : Int} {v : Option α} (h0 : 0 ≤ i) (h1 : i < b.length) :
    wr b i v = .ok (b.set i.toNat v) := by
  unfold wr; rw [if_pos ⟨h0, h1⟩]

theorem growLoop_spec (need : Nat) : ∀ cap : Nat, 0 < cap → need ≤ 2^30 →
    ∃ nc, growLoop need cap = .ok nc ∧ need ≤ nc ∧ cap ≤ nc := by
  intro cap
  induction hd : need - cap using Nat.strongRecOn generalizing cap with
  | _ d ih =>
    intro hc hneed
    rw [growLoop]
    split
    · rename_i hlt
      rw [dif_neg (by omega)]
      obtain ⟨nc, h1, h2, h3⟩ := ih (need - 2 * cap) (by omega) (2 * cap) rfl (by omega) hneed
      exact ⟨nc, h1, h2, by omega⟩
    · exact ⟨cap, rfl, by omega, by omega⟩

theorem expand_spec {c : CList α} {l : List α} (hr : Rep c l) (n : Nat) (hn : l.length + n ≤ 2^30) :
    ∃ c', expand c n = .ok c' ∧ Rep c' l ∧ l.length + n ≤ c'.buf.length := by
  obtain ⟨hlen, hh⟩ := hr
  unfold expand
  rw [if_neg (by omega)]
  split
  · rename_i h
    exact ⟨c, rfl, ⟨hlen, hh⟩, by unfold CList.cap at h; omega⟩
  · rename_i h
    obtain ⟨nc, h1, h2, h3⟩ := growLoop_spec (c.len + n) (if c.cap = 0 then 1 else c.cap)
      (by split <;> omega) (by omega)
    have h4 : c.cap ≤ nc := by split at h3 <;> omega
    rw [h1, Res.ok_bind]
    refine ⟨_, rfl, ⟨hlen, ?_⟩, ?_⟩
    · intro i hi
      have := (Holds.le hh)
      simp only
      rw [List.getElem?_append_left (by omega)]
      exact hh i hi
    · simp only [List.length_append, List.length_replicate]
      unfold CList.cap at *
      omega

theorem shrink_rep {c : CList α} {l : List α} (h : Rep c l) : Rep (shrink c) l := by
  unfold shrink
  split
  · obtain ⟨h1, h2⟩ := h
    refine ⟨h1, ?_⟩
    intro i hi
    simp only
    rw [List.getElem?_take, if_pos (by omega)]
    exact h2 i hi
  · exact h

theorem append_spec {c : CList α} {l : List α} (hr : Rep c l) (a : α) (hn : l.length + 1 ≤ 2^30) :
    ∃ c', append c a = .ok c' ∧ Rep c' (l ++ [a]) := by
  obtain ⟨c1, h1, ⟨h2, h2'⟩, h3⟩ := expand_spec hr 1 hn
  unfold append
  rw [h1, Res.ok_bind, wr_eq (by omega) (by omega), Res.ok_bind]
  refine ⟨_, rfl, by simp [h2], ?_⟩
  intro i hi
  simp only [List.length_append, List.length_singleton] at hi
  simp only [Int.toNat_natCast]
  rw [List.getElem?_set, List.getElem?_append]
  by_cases hil : i < l.length
  · rw [if_neg (by omega), if_pos hil]; exact h2' i hil
  · rw [if_pos (by omega), if_pos (by omega), if_neg hil]
    have : i - l.length = 0 := by omega
    simp [this]

theorem insert_spec {c : CList α} {l : List α} (hr : Rep c l) (n : Int) (a : α)
    (hn : l.length + 1 ≤ 2^30) :
    ∃ c', insert c n a = .ok c' ∧ Rep c' (spec l (.insert n a)).1 := by
  obtain ⟨c1, h1, ⟨h2, h2'⟩, h3⟩ := expand_spec hr 1 hn
  have hl := hr.1
  unfold insert
  simp only [h1, Res.ok_bind]
  generalize hix : (if n < 0 then (if (c.len:Int) + n < 0 then 0 else (c.len:Int) + n)
    else (if n < c.len then n else c.len)) = ix
  have hix0 : 0 ≤ ix ∧ ix ≤ l.length ∧
      ix.toNat = (min (max 0 (if n < 0 then (l.length:Int) + n else n)) l.length).toNat := by
    subst hix; split <;> split <;> omega
  obtain ⟨b', m1, m2, m3⟩ := memmove_eq' (b := c1.buf) (dst := ix + 1) (src := ix) (n := c.len - ix)
    (by omega) (by omega) (by omega)
  rw [m1, Res.ok_bind, wr_eq (by omega) (by omega), Res.ok_bind]
  refine ⟨_, rfl, ?_⟩
  unfold spec
  simp only [← hix0.2.2]
  refine ⟨by simp [h2]; omega, ?_⟩
  intro i hi
  simp only [List.length_append, List.length_take, List.length_cons, List.length_drop] at hi
  simp only
  rw [List.getElem?_set, List.getElem?_append]
  simp only [List.length_take, List.getElem?_take, List.getElem?_cons, List.getElem?_drop]
  by_cases e1 : i < ix.toNat
  · rw [if_neg (by omega), m3, if_neg (by omega), if_pos (by omega), if_pos (by omega)]
    exact h2' i (by omega)
  · by_cases e2 : i = ix.toNat
    · rw [if_pos (by omega), if_pos (by omega), if_neg (by omega), if_pos (by omega)]
    · rw [if_neg (by omega), m3, if_pos (by omega), if_neg (by omega), if_neg (by omega)]
      have e3 : i - (ix + 1).toNat + ix.toNat = i - 1 := by omega
      have e4 : ix.toNat + (i - min ix.toNat l.length - 1) = i - 1 := by omega
      rw [e3, e4]
      exact h2' (i - 1) (by omega)

theorem removeAt_spec {c : CList α} {l : List α} (hr : Rep c l) (k : Nat) (hk : k < l.length) :
    ∃ c', removeAt c k = .ok c' ∧ Rep c' (l.eraseIdx k) := by
  obtain ⟨h1, h2⟩ := hr
  have hle := Holds.le h2
  unfold removeAt
  obtain ⟨b', m1, m2, m3⟩ := memmove_eq' (b := c.buf) (dst := k) (src := k + 1) (n := c.len - (k + 1))
    (by omega) (by omega) (by omega)
  rw [m1, Res.ok_bind, wr_eq (by omega) (by omega), Res.ok_bind]
  refine ⟨_, rfl, shrink_rep ?_⟩
  refine ⟨by simp [List.length_eraseIdx, hk, h1], ?_⟩
  intro i hi
  simp only [List.length_eraseIdx, hk, if_true] at hi
  simp only
  rw [List.getElem?_set, if_neg (by omega), m3, List.getElem?_eraseIdx]
  by_cases e : i < k
  · rw [if_neg (by omega), if_pos e]; exact h2 i (by omega)
  · rw [if_pos (by omega), if_neg e]
    have : i - ((k:Int)).toNat + ((k:Int) + 1).toNat = i + 1 := by omega
    rw [this]; exact h2 (i + 1) (by omega)

theorem extend_spec {c : CList α} {l : List α} (hr : Rep c l) (o : List α)
    (hn : l.length + o.length ≤ 2^30) :
    ∃ c', extend c o = .ok c' ∧ Rep c' (l ++ o) := by
  unfold extend
  split
  · rename_i h
    refine ⟨c, rfl, ?_⟩
    have : o = [] := List.length_eq_zero_iff.1 h
    subst this; simpa using hr
  · obtain ⟨c1, h1, ⟨h2, h2'⟩, h3⟩ := expand_spec hr o.length hn
    rw [h1, Res.ok_bind, if_pos (by unfold CList.cap; omega)]
    refine ⟨_, rfl, by simp [h2], ?_⟩
    intro i hi
    simp only [List.length_append] at hi
    simp only
    rw [List.append_assoc, List.getElem?_append, List.getElem?_append, List.getElem?_append]
    simp only [List.length_take, List.getElem?_take, List.length_map, List.getElem?_map]
    by_cases e : i < l.length
    · rw [if_pos (by omega), if_pos (by omega), if_pos e]; exact h2' i e
    · rw [if_neg (by omega), if_pos (by omega), if_neg e]
      have : i - min c1.len c1.buf.length = i - l.length := by omega
      rw [this, List.getElem?_eq_getElem (by omega)]; rfl

theorem revLoop_spec (l : List α) : ∀ (i : Nat) (b : List (Option α)), i ≤ l.length / 2 →
    l.length ≤ b.length →
    (∀ j, j < l.length → b[j]? = some (if j < i ∨ l.length - i ≤ j then l[l.length - 1 - j]? else l[j]?)) →
    ∃ b', revLoop l.length b i = .ok b' ∧ Holds b' l.reverse := by
  intro i
  induction hd : l.length / 2 - i using Nat.strongRecOn generalizing i with
  | _ d ih =>
    intro b hi hle hb
    rw [revLoop]
    split
    · rename_i hlt
      have r1 : rd b i = .ok l[i] := by
        unfold rd; rw [if_neg (by omega)]
        simp only [Int.toNat_natCast, hb i (by omega)]
        rw [if_neg (by omega), List.getElem?_eq_getElem (by omega)]
      have r2 : rd b ((l.length:Int) - 1 - i) = .ok l[l.length - 1 - i] := by
        unfold rd; rw [if_neg (by omega)]
        have : ((l.length:Int) - 1 - i).toNat = l.length - 1 - i := by omega
        simp only [this, hb (l.length - 1 - i) (by omega)]
        rw [if_neg (by omega), List.getElem?_eq_getElem (by omega)]
      rw [r1, Res.ok_bind, r2, Res.ok_bind, wr_eq (by omega) (by omega), Res.ok_bind,
        wr_eq (by omega) (by simp; omega), Res.ok_bind]
      apply ih (l.length / 2 - (i + 1)) (by omega) (i + 1) rfl _ (by omega) (by simp; omega)
      intro j hj
      have e1 : ((l.length:Int) - 1 - i).toNat = l.length - 1 - i := by omega
      rw [e1, List.getElem?_set, List.getElem?_set]
      simp only [List.length_set, Int.toNat_natCast]
      by_cases c1 : l.length - 1 - i = j
      · rw [if_pos c1, if_pos (by omega), if_pos (by omega)]
        rw [List.getElem?_eq_getElem (by omega)]
        congr 2; congr 1; omega
      · by_cases c2 : i = j
        · rw [if_neg c1, if_pos c2, if_pos (by omega), if_pos (by omega)]
          rw [List.getElem?_eq_getElem (by omega)]
          congr 2; congr 1; omega
        · rw [if_neg c1, if_neg c2, hb j hj]
          congr 1
          by_cases c3 : j < i ∨ l.length - i ≤ j
          · rw [if_pos c3, if_pos (by omega)]
          · rw [if_neg c3, if_neg (by omega)]
    · rename_i hlt
      refine ⟨b, rfl, ?_⟩
      intro j hj
      rw [List.length_reverse] at hj
      rw [hb j hj, List.getElem?_reverse hj]
      split
      · rfl
      · have : l.length - 1 - j = j := by omega
        rw [this]

theorem reverse_spec {c : CList α} {l : List α} (hr : Rep c l) :
    ∃ c', reverse c = .ok c' ∧ Rep c' l.reverse := by
  obtain ⟨h1, h2⟩ := hr
  unfold reverse
  rw [h1]
  obtain ⟨b', e1, e2⟩ := revLoop_spec l 0 c.buf (by omega) (Holds.le h2) (by
    intro j hj; rw [if_neg (by omega)]; exact h2 j hj)
  rw [e1, Res.ok_bind]
  exact ⟨_, rfl, by simp [h1], e2⟩

theorem sliceLoop_holds {b : List (Option α)} {l : List α} (h : Holds b l) (step : Int) (n : Nat) :
    ∀ t : Int, (∀ k : Nat, k < n → 0 ≤ t + k * step ∧ t + k * step < l.length) →
      sliceLoop b step t n = Slice.sliceLoop l step t n := by
  induction n with
  | zero => intro t _; rfl
  | succ n ih =>
    intro t ht
    have h0 := ht 0 (by omega)
    simp only [Int.natCast_zero, Int.zero_mul, Int.add_zero] at h0
    unfold sliceLoop Slice.sliceLoop
    rw [rd_holds' h t h0.1 (by omega), ih (t + step) (by
      intro k hk
      have := ht (k + 1) (by omega)
      have e : t + ((k + 1 : Nat) : Int) * step = t + step + k * step := by
        push_cast; rw [Int.add_mul]; omega
      rw [e] at this; exact this)]
    unfold Slice.rd
    rw [if_neg (by omega), List.getElem?_eq_getElem (by omega)]

theorem storeLoop_spec (step : Int) (o : List α) : ∀ (b : List (Option α)) (l : List α) (t : Int),
    Holds b l →
    (∀ k : Nat, k < o.length → 0 ≤ t + k * step ∧ t + k * step < l.length) →
    ∃ b', storeLoop step b t o = .ok b' ∧ b'.length = b.length ∧
      Holds b' (assignPositions l ((List.range o.length).map (fun k : Nat => (t + k * step).toNat)) o) ∧
      (assignPositions l ((List.range o.length).map (fun k : Nat => (t + k * step).toNat)) o).length
        = l.length := by
  induction o with
  | nil => intro b l t h _; exact ⟨b, rfl, rfl, h, rfl⟩
  | cons a o ih =>
    intro b l t h ht
    have h0 := ht 0 (by simp)
    simp only [Int.natCast_zero, Int.zero_mul, Int.add_zero] at h0
    have hle := h.le
    unfold storeLoop
    rw [wr_eq h0.1 (by omega), Res.ok_bind]
    obtain ⟨b', e1, e2, e3, e4⟩ := ih (b.set t.toNat (some a)) (l.set t.toNat a) (t + step) (by
        intro i hi
        simp only [List.length_set] at hi
        rw [List.getElem?_set, List.getElem?_set]
        by_cases c : t.toNat = i
        · rw [if_pos c, if_pos (by omega), if_pos c, if_pos (by omega)]
        · rw [if_neg c, if_neg c]; exact h i hi)
      (by
        intro k hk
        have := ht (k + 1) (by simp; omega)
        have e : t + ((k + 1 : Nat) : Int) * step = t + step + k * step := by
          push_cast; rw [Int.add_mul]; omega
        rw [e] at this; simpa using this)
    refine ⟨b', e1, by simpa using e2, ?_⟩
    have e5 : assignPositions l ((List.range (a :: o).length).map (fun k : Nat => (t + k * step).toNat)) (a :: o)
        = assignPositions (l.set t.toNat a) ((List.range o.length).map (fun k : Nat => (t + step + k * step).toNat)) o := by
      unfold assignPositions
      rw [List.length_cons, List.range_succ_eq_map, List.map_cons, List.map_map, List.zip_cons_cons,
        List.foldl_cons]
      simp only [Int.natCast_zero, Int.zero_mul, Int.add_zero]
      congr 2
      apply List.map_congr_left
      intro k _
      simp only [Function.comp, Nat.succ_eq_add_one]
      congr 1
      push_cast; rw [Int.add_mul]; omega
    rw [e5]
    exact ⟨e3, by simpa using e4⟩

/-- Storing into consecutive cells. -/
theorem storeLoop_one (o : List α) : ∀ (b : List (Option α)) (t : Nat), t + o.length ≤ b.length →
    ∃ b', storeLoop 1 b t o = .ok b' ∧ b'.length = b.length ∧
      ∀ i, b'[i]? = if t ≤ i ∧ i < t + o.length then some (o[i - t]?) else b[i]? := by
  induction o with
  | nil => intro b t _; exact ⟨b, rfl, rfl, fun i => by rw [if_neg (by simp)]⟩
  | cons a o ih =>
    intro b t ht
    simp only [List.length_cons] at ht
    obtain ⟨b', e1, e2, e3⟩ := ih (b.set t (some a)) (t + 1) (by simp; omega)
    unfold storeLoop
    rw [wr_eq (by omega) (by omega), Res.ok_bind]
    refine ⟨b', by simpa using e1, by simpa using e2, ?_⟩
    intro i
    rw [e3, List.getElem?_set, List.length_cons, List.getElem?_cons]
    by_cases c1 : t = i
    · rw [if_neg (by omega), if_pos c1, if_pos (by omega), if_pos (by omega), if_pos (by omega)]
    · by_cases c2 : t + 1 ≤ i ∧ i < t + 1 + o.length
      · rw [if_pos c2, if_pos (by omega), if_neg (by omega)]; congr 1
      · rw [if_neg c2, if_neg c1, if_neg (by omega)]

theorem assign_length (ps : List Nat) : ∀ (l o : List α), (assignPositions l ps o).length = l.length := by
  induction ps with
  | nil => intro l o; simp [assignPositions]
  | cons p ps ih =>
    intro l o
    cases o with
    | nil => simp [assignPositions]
    | cons a o =>
      have := ih (l.set p a) o
      simpa [assignPositions] using this

/-- Filtering a list by position. -/
def keepIdx (P : Nat → Bool) (l : List α) : List α := (l.zipIdx.filter (fun p => P p.2)).map Prod.fst

theorem keepIdx_nil (P : Nat → Bool) : keepIdx P ([] : List α) = [] := rfl

theorem keepIdx_append (P : Nat → Bool) (l₁ l₂ : List α) :
    keepIdx P (l₁ ++ l₂) = keepIdx P l₁ ++ keepIdx (fun i => P (i + l₁.length)) l₂ := by
  unfold keepIdx
  rw [List.zipIdx_append, List.filter_append, List.map_append]
  congr 1
  simp only [Nat.zero_add]
  have : l₂.zipIdx l₁.length = (l₂.zipIdx).map (fun p => (p.1, p.2 + l₁.length)) := by
    apply List.ext_getElem?
    intro i
    simp only [List.getElem?_zipIdx, List.getElem?_map, Option.map_map]
    congr 1
    funext a
    simp only [Function.comp]
    congr 1; omega
  rw [this, List.filter_map, List.map_map]
  rfl

theorem keepIdx_all (P : Nat → Bool) (l : List α) (h : ∀ i, i < l.length → P i = true) :
    keepIdx P l = l := by
  unfold keepIdx
  rw [List.filter_eq_self.2]
  · exact List.zipIdx_map_fst 0 l
  · rintro ⟨a, i⟩ hm
    have := List.snd_lt_of_mem_zipIdx hm
    exact h i (by simpa using this)

theorem keepIdx_congr (P Q : Nat → Bool) (l : List α) (h : ∀ i, i < l.length → P i = Q i) :
    keepIdx P l = keepIdx Q l := by
  unfold keepIdx
  congr 1
  apply List.filter_congr
  rintro ⟨a, i⟩ hm
  have := List.snd_lt_of_mem_zipIdx hm
  exact h i (by simpa using this)

theorem keepIdx_step (P : Nat → Bool) (l : List α) (m w : Nat) (hm : m < l.length)
    (h0 : P m = false) (h1 : ∀ j, m < j → j < m + (w + 1) → P j = true) :
    keepIdx P (l.take (m + (w + 1))) = keepIdx P (l.take m) ++ (l.drop (m + 1)).take w := by
  have e1 : l.take (m + (w + 1)) = l.take m ++ ([l[m]] ++ (l.drop (m + 1)).take w) := by
    rw [List.take_add, List.drop_eq_getElem_cons hm, List.take_succ_cons]; rfl
  have hl : (l.take m).length = m := by rw [List.length_take]; omega
  rw [e1, keepIdx_append, keepIdx_append, hl]
  congr 1
  have e2 : keepIdx (fun i => P (i + m)) [l[m]] = [] := by simp [keepIdx, h0]
  rw [e2, List.nil_append, keepIdx_all]
  intro i hi
  rw [List.length_take] at hi
  exact h1 _ (by simp only [List.length_singleton]; omega) (by simp only [List.length_singleton]; omega)

/-- Invariant of the gap closing loop. -/
structure DelInv (P : Nat → Bool) (l : List α) (b0 b : List (Option α)) (a w i : Nat) : Prop where
  len : b.length = b0.length
  klen : (keepIdx P (l.take (a + i * (w + 1)))).length = a + i * w
  lo : ∀ j, j < a + i * w → b[j]? = some ((keepIdx P (l.take (a + i * (w + 1))))[j]?)
  hi : ∀ j, a + i * w ≤ j → b[j]? = b0[j]?

theorem delInv_step {P : Nat → Bool} {l : List α} {b0 b : List (Option α)} {a w i n : Nat}
    (hb0 : Holds b0 l) (h : DelInv P l b0 b a w i) (hm : a + i * (w + 1) + 1 + n ≤ l.length)
    (hn : n ≤ w ∧ (n < w → a + i * (w + 1) + 1 + n = l.length))
    (hP0 : P (a + i * (w + 1)) = false)
    (hP1 : ∀ j, a + i * (w + 1) < j → j < a + i * (w + 1) + (w + 1) → P j = true) :
    ∃ b', memmove b ((a + i * w : Nat) : Int) ((a + i * (w + 1) + 1 : Nat) : Int) (n : Int) = .ok b' ∧
      b'.length = b0.length ∧
      (keepIdx P (l.take (a + i * (w + 1) + (w + 1)))).length = a + i * w + n ∧
      (∀ j, j < a + i * w + n → b'[j]? = some ((keepIdx P (l.take (a + i * (w + 1) + (w + 1))))[j]?)) ∧
      (∀ j, a + i * w + n ≤ j → b'[j]? = b0[j]?) := by
  have hle := hb0.le
  have hle2 := h.len
  have e : i * w ≤ i * (w + 1) := Nat.mul_le_mul_left _ (by omega)
  obtain ⟨b', m1, m2, m3⟩ := memmove_eq (b := b) (dst := a + i * w) (src := a + i * (w + 1) + 1) (n := n)
    (by omega) (by omega)
  have hk := keepIdx_step P l (a + i * (w + 1)) w (by omega) hP0 hP1
  have hk2 : (keepIdx P (l.take (a + i * (w + 1) + (w + 1)))).length = a + i * w + n := by
    rw [hk, List.length_append, h.klen, List.length_take, List.length_drop]
    have := hn.1
    by_cases c : n < w
    · have := hn.2 c; omega
    · omega
  refine ⟨b', m1, by omega, hk2, ?_, ?_⟩
  · intro j hj
    rw [m3, hk, List.getElem?_append, h.klen]
    by_cases c : j < a + i * w
    · rw [if_neg (by omega), if_pos c]; exact h.lo j c
    · rw [if_pos (by omega), if_neg c, h.hi _ (by omega), List.getElem?_take, if_pos (by omega),
        List.getElem?_drop, hb0 _ (by omega)]
      congr 2; omega
  · intro j hj
    rw [m3, if_neg (by omega)]; exact h.hi j (by omega)

theorem delLoop_spec {P : Nat → Bool} {l : List α} {b0 : List (Option α)} {a w N : Nat}
    (hb0 : Holds b0 l) (hm : a + N * (w + 1) < l.length)
    (hP0 : ∀ i, i ≤ N → P (a + i * (w + 1)) = false)
    (hP1 : ∀ i, i ≤ N → ∀ j, a + i * (w + 1) < j → j < a + i * (w + 1) + (w + 1) → P j = true) :
    ∀ (k i : Nat) (b : List (Option α)), i + k = N → DelInv P l b0 b a w i →
      ∃ b', delLoop ((w + 1 : Nat) : Int) b ((a + i * w : Nat) : Int) i k
          = .ok (b', ((a + N * w : Nat) : Int)) ∧ DelInv P l b0 b' a w N := by
  intro k
  induction k with
  | zero => intro i b hi h; have : i = N := by omega
            subst this; exact ⟨b, rfl, h⟩
  | succ k ih =>
    intro i b hi h
    have e0 : (i + 1) * (w + 1) = i * (w + 1) + (w + 1) := by rw [Nat.add_mul, Nat.one_mul]
    have e1 : (i + 1) * (w + 1) ≤ N * (w + 1) := Nat.mul_le_mul_right _ (by omega)
    have e2 : (i + 1) * w = i * w + w := by rw [Nat.add_mul, Nat.one_mul]
    have e3 : i * (w + 1) = i * w + i := by rw [Nat.mul_add, Nat.mul_one]
    obtain ⟨b', m1, m2, m3, m4, m5⟩ := delInv_step (n := w) hb0 h (by omega) (by omega)
      (hP0 i (by omega)) (hP1 i (by omega))
    unfold delLoop
    have c1 : ((a + i * w : Nat) : Int) + i + 1 = ((a + i * (w + 1) + 1 : Nat) : Int) := by omega
    have c2 : ((w + 1 : Nat) : Int) - 1 = w := by omega
    have c3 : ((a + i * w : Nat) : Int) + w = ((a + (i + 1) * w : Nat) : Int) := by omega
    rw [c1, c2, m1, Res.ok_bind, c3]
    have c4 : (i : Int) + 1 = ((i + 1 : Nat) : Int) := by omega
    rw [c4]
    apply ih (i + 1) b' (by omega)
    have c5 : a + (i + 1) * (w + 1) = a + i * (w + 1) + (w + 1) := by omega
    have c6 : a + (i + 1) * w = a + i * w + w := by omega
    exact ⟨m2, by rw [c5, c6]; exact m3, by rw [c5, c6]; exact m4, by rw [c6]; exact m5⟩

theorem prog_inj {w i k r : Nat} (h : k * (w + 1) = i * (w + 1) + r) (hr : r < w + 1) : r = 0 := by
  have h1 : (k * (w + 1)) % (w + 1) = 0 := Nat.mul_mod_left _ _
  rw [h, Nat.add_comm, Nat.add_mul_mod_self_right, Nat.mod_eq_of_lt hr] at h1
  exact h1

theorem delslice_spec {c : CList α} {l : List α} (hr : Rep c l) (s : Slice.Slc)
    (hs : 0 < s.step.getD 1) :
    ∃ c', delslice c s = .ok (c', .ok none) ∧
      Rep c' (removePositions l (Slice.positions l.length s.start s.stop (s.step.getD 1))) := by
  obtain ⟨n, hn, -, -, ha0, ha1, -, -, -⟩ := Slice.normalize_pos l.length s hs
  obtain ⟨h1, h2⟩ := hr
  have hle := Holds.le h2
  unfold delslice
  rw [h1, hn.eq, ← hn.step, hn.pos]
  simp only
  have hst : 0 < n.step := by rw [hn.step]; exact hs
  have hsl := hn.slen
  have hrange := hn.range
  obtain ⟨sl, hsl'⟩ := Int.eq_ofNat_of_zero_le hsl
  obtain ⟨a, ha⟩ := Int.eq_ofNat_of_zero_le ha0
  obtain ⟨w, hw⟩ : ∃ w : Nat, n.step = ((w + 1 : Nat) : Int) := ⟨(n.step - 1).toNat, by omega⟩
  simp only [hsl', ha, hw, Int.toNat_natCast] at hrange ⊢
  have hps : (List.range sl).map (fun k : Nat => ((a:Int) + k * ((w + 1 : Nat) : Int)).toNat)
      = (List.range sl).map (fun k : Nat => a + k * (w + 1)) := by
    apply List.map_congr_left; intro k _
    have : ((a:Int) + k * ((w + 1 : Nat) : Int)) = ((a + k * (w + 1) : Nat) : Int) := by push_cast; rfl
    rw [this, Int.toNat_natCast]
  rw [hps]
  by_cases h0 : sl = 0
  · subst h0
    rw [if_pos (by rfl)]
    refine ⟨c, rfl, ?_⟩
    have : removePositions l ((List.range 0).map (fun k : Nat => a + k * (w + 1))) = l :=
      keepIdx_all (fun _ => true) l (by simp)
    rw [this]; exact ⟨h1, h2⟩
  · obtain ⟨N, rfl⟩ : ∃ N, sl = N + 1 := ⟨sl - 1, by omega⟩
    rw [if_neg (by omega)]
    have hlast := (hrange N (by omega)).2
    have hcast : ((a:Int) + N * ((w + 1 : Nat) : Int)) = ((a + N * (w + 1) : Nat) : Int) := by push_cast; rfl
    rw [hcast] at hlast
    generalize hPdef : (fun i : Nat => decide (i ∉ (List.range (N + 1)).map (fun k : Nat => a + k * (w + 1)))) = P
    have hP : ∀ i, P i = true ↔ ∀ k, k ≤ N → a + k * (w + 1) ≠ i := by
      intro i; subst hPdef
      simp only [decide_eq_true_eq, List.mem_map, List.mem_range, not_exists, not_and]
      exact ⟨fun h k hk => h k (by omega), fun h k hk => h k (by omega)⟩
    have hremove : removePositions l ((List.range (N + 1)).map (fun k : Nat => a + k * (w + 1))) = keepIdx P l := by
      subst hPdef; rfl
    have hP0 : ∀ i, i ≤ N → P (a + i * (w + 1)) = false := by
      intro i hi
      cases hc : P (a + i * (w + 1)) with
      | false => rfl
      | true => exact absurd rfl ((hP _).1 hc i hi)
    have hP1 : ∀ i, i ≤ N → ∀ j, a + i * (w + 1) < j → j < a + i * (w + 1) + (w + 1) → P j = true := by
      intro i _ j hj1 hj2
      rw [hP]
      intro k _ he
      have := prog_inj (w := w) (i := i) (k := k) (r := j - a - i * (w + 1)) (by omega) (by omega)
      omega
    have hPend : ∀ j, a + N * (w + 1) < j → P j = true := by
      intro j hj
      rw [hP]
      intro k hk he
      have : k * (w + 1) ≤ N * (w + 1) := Nat.mul_le_mul_right _ hk
      omega
    have hPbeg : ∀ j, j < a → P j = true := by
      intro j hj
      rw [hP]; intro k hk he; omega
    have hbeg : keepIdx P (l.take a) = l.take a :=
      keepIdx_all _ _ (by intro i hi; rw [List.length_take] at hi; exact hPbeg i (by omega))
    have hla : (l.take a).length = a := by rw [List.length_take]; omega
    have inv0 : DelInv P l c.buf c.buf a w 0 := by
      refine ⟨rfl, ?_, ?_, ?_⟩
      · simp only [Nat.zero_mul, Nat.add_zero, hbeg, hla]
      · intro j hj
        simp only [Nat.zero_mul, Nat.add_zero, hbeg] at hj ⊢
        rw [List.getElem?_take, if_pos hj]; exact h2 j (by omega)
      · intro j _; rfl
    obtain ⟨b', d1, d2⟩ := delLoop_spec (N := N) h2 (by omega) hP0 hP1 N 0 c.buf (by omega) inv0
    have e1 : (((N + 1 : Nat) : Int) - 1).toNat = N := by omega
    simp only [Nat.zero_mul, Nat.add_zero] at d1
    rw [e1]
    have d1' : delLoop ((w + 1 : Nat) : Int) c.buf (a:Int) 0 N = .ok (b', ((a + N * w : Nat) : Int)) := d1
    rw [d1', Res.ok_bind]
    simp only
    -- the final move: treat the tail as one more (possibly short) block
    have e3 : N * (w + 1) = N * w + N := by rw [Nat.mul_add, Nat.mul_one]
    have c1 : ((a + N * w : Nat) : Int) + ((N + 1 : Nat) : Int) = ((a + N * (w + 1) + 1 : Nat) : Int) := by
      omega
    have c2 : (l.length : Int) - 1 - ((a:Int) + ((w + 1 : Nat):Int) * (((N + 1 : Nat):Int) - 1))
        = ((l.length - 1 - (a + N * (w + 1)) : Nat) : Int) := by
      have : ((w + 1 : Nat):Int) * (((N + 1 : Nat):Int) - 1) = ((N * (w + 1) : Nat) : Int) := by
        push_cast; rw [Int.mul_comm]; congr 1; omega
      rw [this]; omega
    rw [c1, c2]
    have hlen := d2.len
    obtain ⟨b'', m1, m2, m3⟩ := memmove_eq (b := b') (dst := a + N * w) (src := a + N * (w + 1) + 1)
      (n := l.length - 1 - (a + N * (w + 1))) (by omega) (by omega)
    rw [m1, Res.ok_bind]
    refine ⟨_, rfl, ?_⟩
    rw [hremove]
    have hk : keepIdx P l = keepIdx P (l.take (a + N * (w + 1))) ++ l.drop (a + N * (w + 1) + 1) := by
      have hk1 := keepIdx_step P l (a + N * (w + 1)) l.length (by omega) (hP0 N (by omega))
        (fun j hj _ => hPend j hj)
      rw [List.take_of_length_le (i := a + N * (w + 1) + (l.length + 1)) (by omega),
        List.take_of_length_le (i := l.length) (by simp)] at hk1
      exact hk1
    rw [hk]
    have hkl := d2.klen
    refine ⟨?_, ?_⟩
    · simp only [List.length_append, List.length_drop, hkl]; omega
    · intro j hj
      simp only [List.length_append, List.length_drop, hkl] at hj
      simp only
      rw [m3, List.getElem?_append, hkl]
      by_cases cc : j < a + N * w
      · rw [if_neg (by omega), if_pos cc]; exact d2.lo j cc
      · rw [if_pos (by omega), if_neg cc, d2.hi _ (by omega), List.getElem?_drop, h2 _ (by omega)]
        congr 2; omega

theorem getslice_spec {c : CList α} {l : List α} (hr : Rep c l) (s : Slice.Slc) (n : Slice.Norm)
    (hn : Slice.NormOk l.length s n) :
    getslice c s = .ok (c, .ok (some
      ((Slice.positions l.length s.start s.stop (s.step.getD 1)).filterMap (fun i => l[i]?)))) := by
  obtain ⟨h1, h2⟩ := hr
  unfold getslice
  rw [h1, hn.eq, ← hn.step, hn.pos]
  simp only
  obtain ⟨out, o1, o2⟩ := Slice.sliceLoop_spec l n.step n.slen.toNat n.start hn.range
  rw [sliceLoop_holds h2 _ _ _ hn.range, o1, Res.ok_bind]
  have : out = ((List.range n.slen.toNat).map (fun k : Nat => (n.start + k * n.step).toNat)).filterMap
      (fun i => l[i]?) := by
    rw [List.filterMap_map]
    have h3 : (out.map some).filterMap id = out := by simp
    rw [← h3, o2, List.filterMap_map]; rfl
  rw [this]; rfl

theorem setslice_ext {c : CList α} {l : List α} (hr : Rep c l) (s : Slice.Slc) (n : Slice.Norm)
    (hn : Slice.NormOk l.length s n) (hs : s.step.getD 1 ≠ 1) (h0 : s.step.getD 1 ≠ 0) (o : List α) :
    ∃ c', setslice c s o = .ok (c', (spec l (.setslice s o)).2) ∧ Rep c' (spec l (.setslice s o)).1 := by
  have hr' := hr
  obtain ⟨h1, h2⟩ := hr
  have hsl := hn.slen
  have hsp : spec l (.setslice s o) = if n.slen.toNat ≠ o.length then (l, .error .valueError)
      else (assignPositions l ((List.range n.slen.toNat).map (fun k : Nat => (n.start + k * n.step).toNat)) o,
        .ok none) := by
    unfold spec
    simp only [if_neg h0, if_neg hs]
    rw [← hn.step, hn.pos, List.length_map, List.length_range]
  rw [hsp]
  unfold setslice
  rw [h1, hn.eq]
  have hs' : n.step ≠ 1 := by rw [hn.step]; exact hs
  simp only
  by_cases he : (o.length : Int) = n.slen
  · have e1 : n.slen.toNat = o.length := by omega
    rw [if_neg (c := n.slen.toNat ≠ o.length) (by omega), if_neg (by omega), if_pos (c := (o.length:Int) ≤ n.slen) (by omega),
      List.take_of_length_le (by omega)]
    obtain ⟨b', e2, e3, e4, e5⟩ := storeLoop_spec n.step o c.buf l n.start h2 (by rw [← e1]; exact hn.range)
    rw [e2, Res.ok_bind, if_pos he, e1]
    exact ⟨_, rfl, by rw [e5], e4⟩
  · rw [if_pos ⟨hs', he⟩, if_pos (c := n.slen.toNat ≠ o.length) (by omega)]
    exact ⟨c, rfl, hr'⟩

theorem setslice_one {c : CList α} {l : List α} (hr : Rep c l) (s : Slice.Slc)
    (hs : s.step.getD 1 = 1) (o : List α) (hbig : l.length + o.length ≤ 2^30) :
    ∃ c', setslice c s o = .ok (c', (spec l (.setslice s o)).2) ∧ Rep c' (spec l (.setslice s o)).1 := by
  obtain ⟨n, hn, hstart, hstop, ha0, ha1, hb0, hb1, hslen⟩ := Slice.normalize_pos l.length s (by omega)
  obtain ⟨h1, h2⟩ := hr
  have hle := Holds.le h2
  have hst : n.step = 1 := by rw [hn.step]; exact hs
  have hsl := hslen hst
  rw [hs] at hstart hstop
  have hsp : spec l (.setslice s o) =
      (l.take (min (l.length:Int) (max 0 ((s.start.map (Slice.fromEnd l.length)).getD 0))).toNat ++ o ++
       l.drop (min (l.length:Int) (max (min (l.length:Int) (max 0 ((s.start.map (Slice.fromEnd l.length)).getD 0))) ((s.stop.map (Slice.fromEnd l.length)).getD l.length))).toNat, .ok none) := by
    unfold spec
    simp [hs]
  rw [hsp]
  unfold setslice
  rw [h1, hn.eq]
  simp only [hst]
  rw [if_neg (by omega)]
  generalize hA : min (l.length:Int) (max 0 ((s.start.map (Slice.fromEnd l.length)).getD 0)) = A
  generalize hB : min (l.length:Int) (max A ((s.stop.map (Slice.fromEnd l.length)).getD l.length)) = B
  have eA : A = n.start := by
    rw [hstart, ← hA]; unfold Slice.normStart
    cases s.start with
    | none => simp <;> omega
    | some x =>
      simp only [Option.map_some, Option.getD_some, Slice.fromEnd]
      unfold Slice.normBound; split <;> split <;> omega
  have eB : B = max A n.stop := by
    rw [hstop, ← hB, eA]; unfold Slice.normStop
    cases s.stop with
    | none => simp <;> omega
    | some x =>
      simp only [Option.map_some, Option.getD_some, Slice.fromEnd]
      unfold Slice.normBound; split <;> split <;> omega
  have eS : n.slen = B - A := by omega
  have hA0 : 0 ≤ A := by omega
  have hAB : A ≤ B := by omega
  have hBl : B ≤ l.length := by omega
  rw [eS, ← eA]
  clear eS hsl hslen eB eA hB hA hstart hstop hst hn hb0 hb1 ha0 ha1
  obtain ⟨a, rfl⟩ := Int.eq_ofNat_of_zero_le hA0
  obtain ⟨b, rfl⟩ := Int.eq_ofNat_of_zero_le (by omega : 0 ≤ B)
  simp only [Int.toNat_natCast]
  by_cases c1 : o.length ≤ b - a
  · rw [if_pos (c := (o.length:Int) ≤ (b:Int) - a) (by omega), Int.toNat_natCast, List.take_of_length_le (Nat.le_refl _)]
    obtain ⟨b', s1, s2, s3⟩ := storeLoop_one o c.buf a (by omega)
    rw [s1, Res.ok_bind]
    by_cases c2 : o.length = b - a
    · rw [if_pos (by omega)]
      refine ⟨_, rfl, ?_, ?_⟩
      · simp only [List.length_append, List.length_take, List.length_drop]; omega
      · intro i hi
        simp only [List.length_append, List.length_take, List.length_drop] at hi
        simp only
        rw [s3, List.append_assoc, List.getElem?_append, List.getElem?_append]
        simp only [List.length_take, List.getElem?_take, List.getElem?_drop]
        by_cases d1 : i < a
        · rw [if_neg (by omega), if_pos (by omega), if_pos d1]; exact h2 i (by omega)
        · by_cases d2 : i < a + o.length
          · rw [if_pos (by omega), if_neg (by omega), if_pos (by omega)]; congr 2; omega
          · rw [if_neg (by omega), if_neg (by omega), if_neg (by omega), h2 i (by omega)]
            congr 2; omega
    · rw [if_neg (by omega), if_pos (by omega)]
      obtain ⟨b'', m1, m2, m3⟩ := memmove_eq' (b := b') (dst := (a:Int) + o.length) (src := (a:Int) + ((b:Int) - a))
        (n := (l.length:Int) - (a + ((b:Int) - a))) (by omega) (by omega) (by omega)
      rw [m1, Res.ok_bind]
      refine ⟨_, rfl, ?_, ?_⟩
      · simp only [List.length_append, List.length_take, List.length_drop]; omega
      · intro i hi
        simp only [List.length_append, List.length_take, List.length_drop] at hi
        simp only
        rw [m3, List.append_assoc, List.getElem?_append, List.getElem?_append]
        simp only [List.length_take, List.getElem?_take, List.getElem?_drop]
        by_cases d1 : i < a
        · rw [if_neg (by omega), s3, if_neg (by omega), if_pos (by omega), if_pos d1]; exact h2 i (by omega)
        · by_cases d2 : i < a + o.length
          · rw [if_neg (by omega), s3, if_pos (by omega), if_neg (by omega), if_pos (by omega)]; congr 2; omega
          · rw [if_pos (by omega), s3, if_neg (by omega), if_neg (by omega), if_neg (by omega), h2 _ (by omega)]
            congr 2; omega
  · rw [if_neg (c := (o.length:Int) ≤ (b:Int) - a) (by omega)]
    have e1 : ((b:Int) - a).toNat = b - a := by omega
    rw [e1]
    have tl : (o.take (b - a)).length = b - a := by rw [List.length_take]; omega
    obtain ⟨b', s1, s2, s3⟩ := storeLoop_one (o.take (b - a)) c.buf a (by omega)
    rw [s1, Res.ok_bind, if_neg (by omega), if_neg (by omega)]
    rw [tl] at s3
    -- the list after the first stores
    have hrep : Rep (⟨b', l.length⟩ : CList α) (l.take a ++ o.take (b - a) ++ l.drop b) := by
      refine ⟨?_, ?_⟩
      · simp only [List.length_append, List.length_take, List.length_drop]; omega
      · intro i hi
        simp only [List.length_append, List.length_take, List.length_drop] at hi
        simp only
        rw [s3, List.append_assoc, List.getElem?_append, List.getElem?_append]
        simp only [List.length_take, List.getElem?_take, List.getElem?_drop]
        by_cases d1 : i < a
        · rw [if_neg (by omega), if_pos (by omega), if_pos d1]; exact h2 i (by omega)
        · by_cases d2 : i < b
          · ifs
            congr 2; omega
          · rw [if_neg (by omega), if_neg (by omega), if_neg (by omega), h2 i (by omega)]
            congr 2; omega
    have hl1 : (l.take a ++ o.take (b - a) ++ l.drop b).length = l.length := by
      simp only [List.length_append, List.length_take, List.length_drop]; omega
    obtain ⟨c1', x1, ⟨x2, x3⟩, x4⟩ := expand_spec hrep ((o.length:Int) - (b - a)).toNat (by omega)
    rw [x1, Res.ok_bind]
    rw [hl1] at x4 x2 x3
    obtain ⟨b2, m1, m2, m3⟩ := memmove_eq' (b := c1'.buf) (dst := (a:Int) + ((b:Int) - a) + ((o.length:Int) - (b - a)))
      (src := (a:Int) + ((b:Int) - a)) (n := (l.length:Int) - (a + ((b:Int) - a))) (by omega) (by omega) (by omega)
    have dl : (o.drop (b - a)).length = o.length - (b - a) := List.length_drop
    obtain ⟨b3, y1, y2, y3⟩ := storeLoop_one (o.drop (b - a)) b2 b (by omega)
    rw [dl] at y3
    have e2 : (a:Int) + ((b:Int) - a) = b := by omega
    rw [m1, Res.ok_bind, e2, y1, Res.ok_bind]
    refine ⟨_, rfl, ?_, ?_⟩
    · simp only [List.length_append, List.length_take, List.length_drop]; omega
    · intro i hi
      simp only [List.length_append, List.length_take, List.length_drop] at hi
      simp only
      rw [y3, List.append_assoc, List.getElem?_append, List.getElem?_append]
      simp only [List.length_take, List.getElem?_take, List.getElem?_drop]
      by_cases d1 : i < b
      · rw [if_neg (by omega), m3, if_neg (by omega), x3 i (by omega), List.append_assoc,
          List.getElem?_append, List.getElem?_append]
        simp only [List.length_take, List.getElem?_take, List.getElem?_drop]
        by_cases d2 : i < a
        · ifs
        · rw [if_neg (by omega), if_pos (by omega), if_pos (by omega), if_neg (by omega), if_pos (by omega)]
      · by_cases d2 : i < a + o.length
        · rw [if_pos (by omega), if_neg (by omega), if_pos (by omega)]; congr 2; omega
        · rw [if_neg (by omega), m3, if_pos (by omega), if_neg (by omega), if_neg (by omega), x3 _ (by omega),
            List.append_assoc, List.getElem?_append, List.getElem?_append]
          simp only [List.length_take, List.getElem?_take, List.getElem?_drop]
          rw [if_neg (by omega), if_neg (by omega)]
          congr 2; omega

end Verif.CList
