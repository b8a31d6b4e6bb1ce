import Verif.Dict.Assoc
/-!
# Invariant of the hash table, and the search loops
-/
namespace Verif.Dict
open Verif
variable {K V : Type} {W : HashW K}

/-- Table of the initial size: linear search. `tb_indices` is not maintained; the upper half of
`tb_nentries` may be garbage. -/
structure Small (t : Table K V) : Prop where
  size : t.size = 4
  len : t.indices.length = 4
  two : t.indices[2]? = some (-1)
  three : t.indices[3]? = some (-1)
  low : wrap32 t.nentries = t.entries.length
  cap : (t.entries.length : Int) + t.usable ≤ 2
  nonneg : 0 ≤ t.usable

/-- The index `ind` of `size` slots leads to exactly the live entries among `es`. -/
structure IndOk (size : Nat) (ind : List Int) (es : List (Entry K V)) : Prop where
  len : ind.length = size
  valid : ∀ (s : Nat) (x : Int), ind[s]? = some x → x ≠ -1 → x ≠ -2 →
    ∃ (j : Nat) (e : Entry K V), x = j ∧ es[j]? = some e ∧ e.value.isSome
  uniq : ∀ s s' j : Nat, ind[s]? = some (j : Int) → ind[s']? = some (j : Int) → s = s'
  path : ∀ (j : Nat) (e : Entry K V), es[j]? = some e → e.value.isSome →
    ∃ m, ind[slot size e.hash m]? = some (j : Int) ∧ ∀ m' < m, ind[slot size e.hash m']? ≠ some (-1)

/-- Table with a hash index. -/
structure Large (W : HashW K) (t : Table K V) : Prop where
  size : ∃ k, 3 ≤ k ∧ t.size = 2 ^ k
  small : t.size ≤ 2 ^ 31
  ok : IndOk t.size t.indices t.entries
  low : t.nentries = t.entries.length
  cap : (t.entries.length : Int) + t.usable ≤ (2 * t.size / 3 : Nat)
  used : (t.indices.countP (fun x => decide (x ≠ -1)) : Int) + t.usable ≤ (2 * t.size / 3 : Nat)
  nonneg : 0 ≤ t.usable
  hash : ∀ e ∈ t.entries, e.hash = W.hash e.key

/-- The dict `d` represents the association list `l`. -/
structure Inv (W : HashW K) (d : DictObj K V) (l : List (K × V)) : Prop where
  num : d.num = l.length
  distinct : Distinct W.eq l
  none : d.table = none → l = []
  some : ∀ t, d.table = some t → (Small t ∨ Large W t) ∧ live t.entries = l

/-- If `tb_nentries` is not the number of entries then there is no usable entry left. -/
def Full (d : DictObj K V) : Prop :=
  ∀ t, d.table = some t → t.nentries = t.entries.length ∨ t.usable ≤ 0

/-- Invariant between calls. -/
def Good (W : HashW K) (d : DictObj K V) (l : List (K × V)) : Prop := Inv W d l ∧ Full d

theorem pstate_succ (size h n : Nat) : pstep size (pstate size h n) = pstate size h (n + 1) := rfl

theorem pstate_zero (size h : Nat) : (h % size, h) = pstate size h 0 := rfl

/-- A list with fewer than all elements different from -1 has a -1. -/
theorem exists_empty : ∀ (l : List Int), l.countP (fun x => decide (x ≠ -1)) < l.length → ∃ s : Nat, l[s]? = some (-1) := by
  intro l
  induction l with
  | nil => intro h; simp at h
  | cons x l ih =>
    intro h
    by_cases hx : x = -1
    · exact ⟨0, by rw [hx]; rfl⟩
    · rw [List.countP_cons, if_pos (by simpa using hx), List.length_cons] at h
      obtain ⟨s, hs⟩ := ih (by omega)
      exact ⟨s + 1, hs⟩

/-- On every probe path there is an empty slot within `13 + size` steps. -/
theorem probe_empty {k h : Nat} {ind : List Int} (hh : h < 2 ^ 64) (hl : ind.length = 2 ^ k)
    (hc : ind.countP (fun x => decide (x ≠ -1)) < ind.length) :
    ∃ n, n < 13 + 2 ^ k ∧ ind[slot (2 ^ k) h n]? = some (-1) := by
  obtain ⟨s, hs⟩ := exists_empty ind hc
  have : s < 2 ^ k := by
    have := (List.getElem?_eq_some_iff.1 hs).1; omega
  obtain ⟨n, hn, e⟩ := slot_cover hh this
  exact ⟨n, hn, by rw [e]; exact hs⟩

/-- Least index with a property. -/
theorem exists_least (P : Nat → Prop) : ∀ n, P n → ∃ m, m ≤ n ∧ P m ∧ ∀ m' < m, ¬ P m' := by
  intro n
  induction n using Nat.strongRecOn with
  | _ n ih =>
    intro h
    by_cases hc : ∃ m, m < n ∧ P m
    · obtain ⟨m, hm, hp⟩ := hc
      obtain ⟨m', h1, h2, h3⟩ := ih m hm hp
      exact ⟨m', by omega, h2, h3⟩
    · exact ⟨n, Nat.le_refl _, h, fun m' hm' hp => hc ⟨m', hm', hp⟩⟩

theorem getElem?_of_lt {α} {l : List α} {i : Nat} (h : i < l.length) : ∃ x, l[i]? = some x :=
  ⟨l[i], List.getElem?_eq_getElem h⟩

/-- `build_indices` finds the first empty slot. -/
theorem emptyLoop_spec {ind : List Int} {size h N : Nat} (hl : ind.length = size) (hs : 0 < size)
    (hN : ind[slot size h N]? = some (-1)) (hlt : ∀ m < N, ind[slot size h m]? ≠ some (-1)) :
    ∀ f n, n ≤ N → N - n < f → emptyLoop ind size f (pstate size h n) = .ok (slot size h N) := by
  intro f
  induction f with
  | zero => intro n _ hf; omega
  | succ f ih =>
    intro n hn hf
    have hb := slot_lt (h := h) hs n
    unfold emptyLoop
    show (match ind[slot size h n]? with
      | none => Res.ub
      | some x => if x = -1 then .ok (slot size h n) else emptyLoop ind size f (pstep size (pstate size h n))) = _
    by_cases hnN : n = N
    · subst hnN; rw [hN]; rfl
    · have h1 := hlt n (by omega)
      obtain ⟨x, hx⟩ := getElem?_of_lt (l := ind) (i := slot size h n) (by omega)
      rw [hx] at h1 ⊢
      have : x ≠ -1 := fun h => h1 (by rw [h])
      show (if x = -1 then _ else _) = _
      rw [if_neg this, pstate_succ]
      exact ih (n + 1) (by omega) (by omega)

theorem ind_of {t : Table K V} {i : Nat} {x : Int} (h : t.indices[i]? = some x) : t.ind i = .ok x := by
  unfold Table.ind; rw [h]

theorem entry_of {t : Table K V} {j : Nat} {e : Entry K V} (h : t.entries[j]? = some e) : t.entry j = .ok e := by
  unfold Table.entry
  rw [if_neg (by omega), Int.toNat_natCast, h]

theorem lookIndexLoop_spec {t : Table K V} {h N : Nat} {index : Int} (hl : t.indices.length = t.size) (hs : 0 < t.size)
    (hN : t.indices[slot t.size h N]? = some index)
    (hlt : ∀ m < N, t.indices[slot t.size h m]? ≠ some (-1) ∧ t.indices[slot t.size h m]? ≠ some index) :
    ∀ f n, n ≤ N → N - n < f → lookIndexLoop t index f (pstate t.size h n) = .ok (slot t.size h N : Nat) := by
  intro f
  induction f with
  | zero => intro n _ hf; omega
  | succ f ih =>
    intro n hn hf
    have hb := slot_lt (h := h) hs n
    unfold lookIndexLoop
    show (t.ind (slot t.size h n) >>= fun ix => if ix = index then .ok ((slot t.size h n : Nat) : Int) else
      if ix = -1 then .ok (-1) else lookIndexLoop t index f (pstep t.size (pstate t.size h n))) = _
    by_cases hnN : n = N
    · subst hnN; rw [ind_of hN, Res.ok_bind, if_pos rfl]
    · have h1 := hlt n (by omega)
      obtain ⟨x, hx⟩ := getElem?_of_lt (l := t.indices) (i := slot t.size h n) (by omega)
      rw [hx] at h1
      rw [ind_of hx, Res.ok_bind, if_neg (fun h => h1.2 (by rw [h])), if_neg (fun h => h1.1 (by rw [h])), pstate_succ]
      exact ih (n + 1) (by omega) (by omega)

theorem freeLoop_spec {t : Table K V} {h N : Nat} (hl : t.indices.length = t.size) (hs : 0 < t.size) {y : Int}
    (hN : t.indices[slot t.size h N]? = some y) (hy : y < 0)
    (hlt : ∀ m < N, ∀ x, t.indices[slot t.size h m]? = some x → 0 ≤ x) :
    ∀ f n, n ≤ N → N - n < f → freeLoop t f (pstate t.size h n) = .ok (slot t.size h N) := by
  intro f
  induction f with
  | zero => intro n _ hf; omega
  | succ f ih =>
    intro n hn hf
    have hb := slot_lt (h := h) hs n
    unfold freeLoop
    show (t.ind (slot t.size h n) >>= fun ix => if ix ≥ 0 then freeLoop t f (pstep t.size (pstate t.size h n))
      else .ok (slot t.size h n)) = _
    by_cases hnN : n = N
    · subst hnN; rw [ind_of hN, Res.ok_bind, if_neg (by omega)]
    · obtain ⟨x, hx⟩ := getElem?_of_lt (l := t.indices) (i := slot t.size h n) (by omega)
      have h1 := hlt n (by omega) x hx
      rw [ind_of hx, Res.ok_bind, if_pos h1, pstate_succ]
      exact ih (n + 1) (by omega) (by omega)

theorem Large.pos {t : Table K V} (h : Large W t) : 8 ≤ t.size := by
  obtain ⟨k, hk, e⟩ := h.size
  rw [e]
  calc 8 = 2 ^ 3 := rfl
    _ ≤ 2 ^ k := Nat.pow_le_pow_right (by omega) hk

/-- In a large table every probe path reaches an empty slot. -/
theorem Large.empty {t : Table K V} (h : Large W t) {hash : Nat} (hh : hash < 2 ^ 64) :
    ∃ n, n < 13 + t.size ∧ t.indices[slot t.size hash n]? = some (-1) := by
  have h8 := h.pos
  have hu := h.used
  have hn := h.nonneg
  have hl := h.ok.len
  obtain ⟨k, hk, e⟩ := h.size
  rw [e]
  apply probe_empty hh (by omega)
  omega

variable [DecidableEq K]

/-- What a search result means. -/
def Found (W : HashW K) (t : Table K V) (key : K) (r : Option (Nat × V)) : Prop :=
  match r with
  | none => ∀ p ∈ live t.entries, W.eq key p.1 = false
  | some (ix, v) => ∃ e, t.entries[ix]? = some e ∧ e.value = some v ∧ W.eq key e.key = true

theorem hashMatch_some {W : HashW K} (ok : W.Ok) {h : Nat} {key : K} {e : Entry K V} {v : V} (hm : hashMatch W h key e = some v) :
    e.value = some v ∧ W.eq key e.key = true := by
  unfold hashMatch at hm
  cases hv : e.value with
  | none => rw [hv] at hm; simp at hm
  | some w =>
    rw [hv] at hm
    simp only at hm
    by_cases hc : e.key = key ∨ (e.hash = h ∧ W.eq key e.key)
    · rw [if_pos hc] at hm
      simp at hm
      refine ⟨by rw [hm], ?_⟩
      rcases hc with hc | hc
      · rw [hc]; exact ok.refl _
      · exact hc.2
    · rw [if_neg hc] at hm; simp at hm

theorem hashLoop_spec {t : Table K V} (inv : Large W t) (key : K) {N : Nat}
    (hlt : ∀ m < N, t.indices[slot t.size (W.hash key) m]? ≠ some (-1) ∧
      ∀ (j : Nat) e, t.indices[slot t.size (W.hash key) m]? = some (j : Int) → t.entries[j]? = some e →
        hashMatch W (W.hash key) key e = none) (r : Option (Nat × V))
    (hN : (t.indices[slot t.size (W.hash key) N]? = some (-1) ∧ r = none) ∨
      ∃ (j : Nat) (e : Entry K V) (v : V), t.indices[slot t.size (W.hash key) N]? = some (j : Int) ∧ t.entries[j]? = some e ∧
        hashMatch W (W.hash key) key e = some v ∧ r = some (j, v)) :
    ∀ f n, n ≤ N → N - n < f → hashLoop W t (W.hash key) key f (pstate t.size (W.hash key) n) = .ok r := by
  intro f
  induction f with
  | zero => intro n _ hf; omega
  | succ f ih =>
    intro n hn hf
    have hb := slot_lt (size := t.size) (h := W.hash key) (by have := inv.pos; omega) n
    have hl := inv.ok.len
    unfold hashLoop
    rw [show (pstate t.size (W.hash key) n).1 = slot t.size (W.hash key) n from rfl, pstate_succ]
    by_cases hnN : n = N
    · subst hnN
      rcases hN with ⟨h1, rfl⟩ | ⟨j, e, v, h1, h2, h3, rfl⟩
      · rw [ind_of h1, Res.ok_bind, if_pos rfl]
      · rw [ind_of h1, Res.ok_bind, if_neg (by omega), if_pos (by omega), entry_of h2, Res.ok_bind, h3]
        simp
    · have h1 := hlt n (by omega)
      obtain ⟨x, hx⟩ := getElem?_of_lt (l := t.indices) (i := slot t.size (W.hash key) n) (by omega)
      have hx1 : x ≠ -1 := fun h => h1.1 (by rw [hx, h])
      have hrec := ih (n + 1) (by omega) (by omega)
      rw [ind_of hx, Res.ok_bind, if_neg hx1]
      by_cases hx2 : x = -2
      · rw [if_neg (by omega)]; exact hrec
      · obtain ⟨j, e, rfl, he, -⟩ := inv.ok.valid _ _ hx hx1 hx2
        rw [if_pos (by omega), entry_of he, Res.ok_bind, h1.2 j e hx he]
        exact hrec

theorem Large.search (ok : W.Ok) {t : Table K V} (inv : Large W t) (key : K) :
    ∃ r, hashLoop W t (W.hash key) key (t.size + 14) (W.hash key % t.size, W.hash key) = .ok r ∧ Found W t key r := by
  obtain ⟨N0, hN0, he0⟩ := inv.empty (ok.hash_lt key)
  obtain ⟨N, hle, hP, hmin⟩ := exists_least (fun m => t.indices[slot t.size (W.hash key) m]? = some (-1) ∨
      ∃ (j : Nat) (e : Entry K V) (v : V), t.indices[slot t.size (W.hash key) m]? = some (j : Int) ∧ t.entries[j]? = some e ∧
        hashMatch W (W.hash key) key e = some v) N0 (Or.inl he0)
  have hlt : ∀ m < N, t.indices[slot t.size (W.hash key) m]? ≠ some (-1) ∧
      ∀ (j : Nat) e, t.indices[slot t.size (W.hash key) m]? = some (j : Int) → t.entries[j]? = some e →
        hashMatch W (W.hash key) key e = none := by
    intro m hm
    have := hmin m hm
    refine ⟨fun h => this (Or.inl h), ?_⟩
    intro j e h1 h2
    cases h3 : hashMatch W (W.hash key) key e with
    | none => rfl
    | some v => exact absurd (Or.inr ⟨j, e, v, h1, h2, h3⟩) this
  rw [pstate_zero]
  rcases hP with hE | ⟨j, e, v, h1, h2, h3⟩
  · refine ⟨none, hashLoop_spec inv key hlt none (Or.inl ⟨hE, rfl⟩) _ 0 (by omega) (by omega), ?_⟩
    intro p hp
    obtain ⟨j, e, hj, h1, h2⟩ := mem_live.1 hp
    cases hq : W.eq key p.1 with
    | false => rfl
    | true =>
      exfalso
      rw [← h1] at hq
      obtain ⟨m, hm1, hm2⟩ := inv.ok.path j e hj (by rw [h2]; rfl)
      have hh : e.hash = W.hash key := by
        rw [inv.hash e (List.mem_iff_getElem?.2 ⟨j, hj⟩)]; exact (ok.hash_eq _ _ hq).symm
      rw [hh] at hm1 hm2
      rcases Nat.lt_trichotomy m N with hlt' | heq | hgt
      · have := (hlt m hlt').2 j e hm1 hj
        unfold hashMatch at this
        rw [h2] at this
        simp only at this
        rw [if_pos (Or.inr ⟨hh, hq⟩)] at this
        exact absurd this (by simp)
      · rw [heq] at hm1; rw [hm1] at hE; simp at hE
      · exact hm2 N hgt hE
  · refine ⟨some (j, v), hashLoop_spec inv key hlt _ (Or.inr ⟨j, e, v, h1, h2, h3, rfl⟩) _ 0 (by omega) (by omega), ?_⟩
    obtain ⟨hv, he⟩ := hashMatch_some ok h3
    exact ⟨e, h2, hv, he⟩

theorem linearLoop_spec (ok : W.Ok) {t : Table K V} (key : K) : ∀ n ix, ix + n = t.entries.length →
    ∃ r, linearLoop W t key n ix = .ok r ∧
      match r with
      | none => ∀ p ∈ live (t.entries.drop ix), W.eq key p.1 = false
      | some (jx, v) => ∃ e, t.entries[jx]? = some e ∧ e.value = some v ∧ W.eq key e.key = true := by
  intro n
  induction n with
  | zero =>
    intro ix h
    refine ⟨none, rfl, ?_⟩
    rw [List.drop_eq_nil_of_le (by omega)]
    intro p hp; exact absurd hp (by simp [live])
  | succ n ih =>
    intro ix h
    have hix : ix < t.entries.length := by omega
    have hget := List.getElem?_eq_getElem hix
    obtain ⟨r, e, hr⟩ := ih (ix + 1) (by omega)
    unfold linearLoop
    rw [entry_of hget, Res.ok_bind, List.drop_eq_getElem_cons hix]
    cases hv : (t.entries[ix]).value with
    | none =>
      refine ⟨r, e, ?_⟩
      cases r with
      | none => simp only at hr ⊢; rw [live_cons_none hv]; exact hr
      | some q => exact hr
    | some v =>
      simp only
      by_cases hc : (t.entries[ix]).key = key ∨ W.eq key (t.entries[ix]).key
      · rw [if_pos hc]
        refine ⟨_, rfl, t.entries[ix], hget, hv, ?_⟩
        rcases hc with hc | hc
        · rw [hc]; exact ok.refl _
        · exact hc
      · rw [if_neg hc]
        refine ⟨r, e, ?_⟩
        cases r with
        | none =>
          simp only at hr ⊢
          rw [live_cons_some hv]
          intro p hp
          rcases List.mem_cons.1 hp with rfl | hp
          · exact Bool.eq_false_iff.2 (fun h => hc (Or.inr h))
          · exact hr p hp
        | some q => exact hr

/-- `$lookdict` finds the entry of an equal key, if any. -/
theorem lookdict_spec (ok : W.Ok) {t : Table K V} (inv : Small t ∨ Large W t) (key : K) (h : Nat)
    (hh : t.size ≠ 4 → h = W.hash key) : ∃ r, lookdict W (some t) h key = .ok r ∧ Found W t key r := by
  unfold lookdict
  simp only
  rcases inv with s | l
  · rw [if_pos s.size, s.low, Int.toNat_natCast]
    obtain ⟨r, e, hr⟩ := linearLoop_spec ok (t := t) key t.entries.length 0 (by omega)
    refine ⟨r, e, ?_⟩
    unfold Found
    cases r with
    | none => simpa using hr
    | some q => exact hr
  · have h8 := l.pos
    rw [if_neg (by omega), hh (by omega)]
    exact l.search ok key

end Verif.Dict
