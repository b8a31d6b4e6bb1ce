import Verif.Set.Spec
import Verif.Dict.Inv
/-!
# Invariant of the set table, and the search loops

For hashes below 2^63 (nonnegative as `long`) the probe sequence is that of dict, and reaches every
slot. For other hashes the loops may run forever (`Term`), but if they end the result is right.
-/
namespace Verif.Set
open Verif
open Verif.Dict (HashW pstep pstate slot slot_lt slot_cover exists_least getElem?_of_lt)
variable {K : Type} {W : HashW K}

/-- Elements in table order. -/
def live (t : List (Entry K)) : List K :=
  t.filterMap (fun e => match e.key with
    | .elem k => some k
    | _ => none)

theorem live_nil : live ([] : List (Entry K)) = [] := rfl

theorem live_cons (e : Entry K) (t : List (Entry K)) :
    live (e :: t) = match e.key with
      | .elem k => k :: live t
      | _ => live t := by
  unfold live
  rw [List.filterMap_cons]
  cases e.key <;> rfl

theorem live_append (a b : List (Entry K)) : live (a ++ b) = live a ++ live b := by
  unfold live; rw [List.filterMap_append]

theorem mem_live {t : List (Entry K)} {k : K} : k ∈ live t ↔ ∃ (i : Nat) (e : Entry K), t[i]? = some e ∧ e.key = .elem k := by
  unfold live
  rw [List.mem_filterMap]
  constructor
  · rintro ⟨e, he, h⟩
    obtain ⟨i, hi⟩ := List.mem_iff_getElem?.1 he
    refine ⟨i, e, hi, ?_⟩
    cases hk : e.key with
    | null => rw [hk] at h; simp at h
    | dummy => rw [hk] at h; simp at h
    | elem q => rw [hk] at h; simp at h; rw [h]
  · rintro ⟨i, e, hi, hk⟩
    exact ⟨e, List.mem_iff_getElem?.2 ⟨i, hi⟩, by rw [hk]⟩

/-- Probe state after `n` steps. -/
def istate (size : Nat) (h : Int) : Nat → Nat × Int
  | 0 => sstart size h
  | n + 1 => sstep size (istate size h n)

/-- The slot looked at in step `n`. -/
def islot (size : Nat) (h : Int) (n : Nat) : Nat := (istate size h n).1

theorem istate_succ (size : Nat) (h : Int) (n : Nat) : sstep size (istate size h n) = istate size h (n + 1) := rfl

theorem islot_lt {size : Nat} (hs : 0 < size) (h : Int) (n : Nat) : islot size h n < size := by
  have key : ∀ x : Int, (x % (size : Int)).toNat < size := by
    intro x
    have h1 := Int.emod_nonneg x (b := (size : Int)) (by omega)
    have h2 := Int.emod_lt_of_pos x (b := (size : Int)) (by omega)
    omega
  unfold islot
  cases n with
  | zero => exact key _
  | succ n => exact key _

/-- The table is a hash table of power-of-two size in which every element can be reached. -/
structure TOk (W : HashW K) (t : List (Entry K)) : Prop where
  size : ∃ k, 3 ≤ k ∧ t.length = 2 ^ k
  hash : ∀ (i : Nat) (e : Entry K) (k : K), t[i]? = some e → e.key = .elem k → e.hash = lhash W k
  dum : ∀ (i : Nat) (e : Entry K), t[i]? = some e → e.key = .dummy → e.hash = -1
  path : ∀ (i : Nat) (e : Entry K) (k : K), t[i]? = some e → e.key = .elem k →
    ∃ m, islot t.length (lhash W k) m = i ∧
      ∀ m' < m, ∀ e', t[islot t.length (lhash W k) m']? = some e' → e'.key ≠ .null

/-- Number of slots in use, dummies included. -/
def used (t : List (Entry K)) : Nat := t.countP Entry.nonNull

/-- The set object represents the elements `l` (in any order). -/
structure Inv (W : HashW K) (s : SetObj K) (l : List K) : Prop where
  tok : TOk W s.table
  perm : (live s.table).Perm l
  num : s.num = l.length
  fill : s.fill = used s.table
  load : s.fill * 5 < ((s.size : Int) - 1) * 3
  distinct : Distinct W.eq l

theorem TOk.pos {t : List (Entry K)} (h : TOk W t) : 8 ≤ t.length := by
  obtain ⟨k, hk, e⟩ := h.size
  rw [e]
  calc 8 = 2 ^ 3 := rfl
    _ ≤ 2 ^ k := Nat.pow_le_pow_right (by omega) hk

theorem sstep_nat (size : Nat) (s : Nat × Nat) :
    sstep size (s.1, (s.2 : Int)) = ((pstep size s).1, ((pstep size s).2 : Int)) := by
  unfold sstep pstep
  simp only
  congr 1
  have : ((s.1 : Int) * 5 + 1 + (s.2 : Int) / 32) % (size : Int) = (((s.1 * 5 + s.2 / 32 + 1) % size : Nat) : Int) := by
    push_cast
    congr 1
    omega
  rw [this, Int.toNat_natCast]

theorem istate_nat (size h n : Nat) : istate size (h : Int) n = ((pstate size h n).1, ((pstate size h n).2 : Int)) := by
  induction n with
  | zero => rfl
  | succ n ih => rw [← istate_succ, ih, sstep_nat]; rfl

/-- For a nonnegative hash the slots are those of dict. -/
theorem islot_nat (size h n : Nat) : islot size (h : Int) n = slot size h n := by
  unfold islot; rw [istate_nat]; rfl

theorem entryAt_of {t : List (Entry K)} {i : Nat} {e : Entry K} (h : t[i]? = some e) : entryAt t i = .ok e := by
  unfold entryAt; rw [h]

/-- A table that is not full has an empty slot. -/
theorem exists_null : ∀ (t : List (Entry K)), used t < t.length → ∃ (i : Nat) (e : Entry K), t[i]? = some e ∧ e.key = .null := by
  intro t
  unfold used
  induction t with
  | nil => intro h; simp at h
  | cons x t ih =>
    intro h
    by_cases hx : x.nonNull = true
    · rw [List.countP_cons, if_pos hx, List.length_cons] at h
      obtain ⟨i, e, h1, h2⟩ := ih (by omega)
      exact ⟨i + 1, e, h1, h2⟩
    · refine ⟨0, x, rfl, ?_⟩
      unfold Entry.nonNull at hx
      cases hk : x.key with
      | null => rfl
      | dummy => rw [hk] at hx; simp at hx
      | elem k => rw [hk] at hx; simp at hx

/-- Every probe path with a nonnegative hash reaches an empty slot. -/
theorem TOk.null {t : List (Entry K)} (h : TOk W t) (hu : used t < t.length) {hash : Nat} (hh : hash < 2 ^ 64) :
    ∃ n, n < 13 + t.length ∧ ∃ e, t[islot t.length hash n]? = some e ∧ e.key = .null := by
  obtain ⟨i, e, h1, h2⟩ := exists_null t hu
  have hi := (List.getElem?_eq_some_iff.1 h1).1
  obtain ⟨k, hk, el⟩ := h.size
  rw [el] at hi ⊢
  obtain ⟨n, hn, en⟩ := slot_cover hh hi
  exact ⟨n, hn, e, by rw [islot_nat, en]; exact h1, h2⟩

/-- `B_set_insert_clean` finds the first empty slot of the path. -/
theorem cleanLoop_spec {t : List (Entry K)} (hs : 0 < t.length) {h : Int} {N : Nat} {e : Entry K}
    (hN : t[islot t.length h N]? = some e) (he : e.key = .null)
    (hlt : ∀ m < N, ∀ e', t[islot t.length h m]? = some e' → e'.key ≠ .null) :
    ∀ f n, n ≤ N → N - n < f → cleanLoop t f (istate t.length h n) = .ok (islot t.length h N) := by
  intro f
  induction f with
  | zero => intro n _ hf; omega
  | succ f ih =>
    intro n hn hf
    have hb := islot_lt hs h n
    unfold cleanLoop
    rw [show (istate t.length h n).1 = islot t.length h n from rfl, istate_succ]
    by_cases hnN : n = N
    · subst hnN
      rw [entryAt_of hN, Res.ok_bind, he]
      rfl
    · obtain ⟨x, hx⟩ := getElem?_of_lt hb
      have h1 := hlt n (by omega) x hx
      rw [entryAt_of hx, Res.ok_bind]
      have h2 := ih (n + 1) (by omega) (by omega)
      cases hk : x.key with
      | null => exact absurd hk h1
      | dummy => exact h2
      | elem k => exact h2

theorem cleanLoop_div {t : List (Entry K)} (hs : 0 < t.length) {h : Int} {M : Nat}
    (hlt : ∀ m < M, ∀ e', t[islot t.length h m]? = some e' → e'.key ≠ .null) :
    ∀ f n, n + f = M → cleanLoop t f (istate t.length h n) = .diverge := by
  intro f
  induction f with
  | zero => intro n _; rfl
  | succ f ih =>
    intro n hn
    obtain ⟨x, hx⟩ := getElem?_of_lt (islot_lt hs h n)
    unfold cleanLoop
    rw [show (istate t.length h n).1 = islot t.length h n from rfl, istate_succ, entryAt_of hx, Res.ok_bind]
    have h1 := hlt n (by omega) x hx
    have h2 := ih (n + 1) (by omega)
    cases hk : x.key with
    | null => exact absurd hk h1
    | dummy => exact h2
    | elem k => exact h2

theorem getElem?_set_cases {α} {t : List α} {i j : Nat} {e x : α} (hi : i < t.length) (h : (t.set i e)[j]? = some x) :
    (j = i ∧ x = e) ∨ (j ≠ i ∧ t[j]? = some x) := by
  by_cases hj : j = i
  · subst hj
    rw [List.getElem?_set_self hi] at h
    exact Or.inl ⟨rfl, (Option.some.inj h).symm⟩
  · rw [List.getElem?_set_ne (Ne.symm hj)] at h
    exact Or.inr ⟨hj, h⟩

/-- Writing a non-null entry keeps the table in order. -/
theorem TOk.set {t : List (Entry K)} (h : TOk W t) {i : Nat} (hi : i < t.length) {e : Entry K}
    (hn : e.key ≠ .null) (hd : e.key = .dummy → e.hash = -1)
    (he : ∀ k, e.key = .elem k → e.hash = lhash W k ∧ ∃ m, islot t.length (lhash W k) m = i ∧
      ∀ m' < m, ∀ e', t[islot t.length (lhash W k) m']? = some e' → e'.key ≠ .null) :
    TOk W (t.set i e) := by
  have hpath : ∀ (hash : Int) (m : Nat), (∀ m' < m, ∀ e', t[islot t.length hash m']? = some e' → e'.key ≠ .null) →
      ∀ m' < m, ∀ e', (t.set i e)[islot t.length hash m']? = some e' → e'.key ≠ .null := by
    intro hash m hp m' hm' e' he'
    rcases getElem?_set_cases hi he' with ⟨_, rfl⟩ | ⟨_, h'⟩
    · exact hn
    · exact hp m' hm' e' h'
  refine ⟨by rw [List.length_set]; exact h.size, ?_, ?_, ?_⟩
  · intro j x k hj hx
    rcases getElem?_set_cases hi hj with ⟨_, rfl⟩ | ⟨_, h'⟩
    · exact (he k hx).1
    · exact h.hash j x k h' hx
  · intro j x hj hx
    rcases getElem?_set_cases hi hj with ⟨_, rfl⟩ | ⟨_, h'⟩
    · exact hd hx
    · exact h.dum j x h' hx
  · intro j x k hj hx
    rw [List.length_set]
    rcases getElem?_set_cases hi hj with ⟨rfl, rfl⟩ | ⟨_, h'⟩
    · obtain ⟨_, m, hm, hp⟩ := he k hx
      exact ⟨m, hm, hpath _ _ hp⟩
    · obtain ⟨m, hm, hp⟩ := h.path j x k h' hx
      exact ⟨m, hm, hpath _ _ hp⟩

theorem split_at {α} {t : List α} {i : Nat} {e : α} (h : t[i]? = some e) :
    ∃ a b, t = a ++ e :: b ∧ a.length = i := by
  have hi := (List.getElem?_eq_some_iff.1 h).1
  refine ⟨t.take i, t.drop (i + 1), ?_, by rw [List.length_take]; omega⟩
  have := (List.getElem?_eq_some_iff.1 h).2
  rw [← this, ← List.drop_eq_getElem_cons hi, List.take_append_drop]

theorem set_mid {α} (a b : List α) (e e' : α) : (a ++ e :: b).set a.length e' = a ++ e' :: b := by
  rw [List.set_append_right _ _ (Nat.le_refl _), Nat.sub_self]; rfl

theorem live_elem {e : Entry K} {k : K} (h : e.key = .elem k) (a b : List (Entry K)) :
    live (a ++ e :: b) = live a ++ k :: live b := by
  rw [live_append, live_cons, h]

theorem live_other {e : Entry K} (h : ∀ k, e.key ≠ .elem k) (a b : List (Entry K)) :
    live (a ++ e :: b) = live a ++ live b := by
  rw [live_append, live_cons]
  cases hk : e.key with
  | null => rfl
  | dummy => rfl
  | elem k => exact absurd hk (h k)

theorem used_mid (a b : List (Entry K)) (e : Entry K) :
    used (a ++ e :: b) = used a + used b + (if e.nonNull then 1 else 0) := by
  unfold used
  rw [List.countP_append, List.countP_cons]
  omega

/-- Writing an element into a slot without one. -/
theorem set_elem {t : List (Entry K)} {i : Nat} {e e' : Entry K} {k : K} (h : t[i]? = some e)
    (h0 : ∀ q, e.key ≠ .elem q) (h1 : e'.key = .elem k) :
    (live (t.set i e')).Perm (k :: live t) ∧ used (t.set i e') = used t + (if e.nonNull then 0 else 1) := by
  obtain ⟨a, b, rfl, rfl⟩ := split_at h
  rw [set_mid]
  refine ⟨?_, ?_⟩
  · rw [live_elem h1, live_other h0]
    exact List.perm_middle
  · rw [used_mid, used_mid]
    have : e'.nonNull = true := by unfold Entry.nonNull; rw [h1]
    rw [this]
    cases e.nonNull <;> simp

/-- Replacing an element by the dummy. -/
theorem set_dummy {t : List (Entry K)} {i : Nat} {e : Entry K} {k : K} (h : t[i]? = some e)
    (h0 : e.key = .elem k) :
    (live t).Perm (k :: live (t.set i ⟨.dummy, -1⟩)) ∧ used (t.set i ⟨.dummy, -1⟩) = used t := by
  obtain ⟨a, b, rfl, rfl⟩ := split_at h
  rw [set_mid]
  refine ⟨?_, ?_⟩
  · rw [live_elem h0, live_other (by intro k; simp)]
    exact List.perm_middle
  · rw [used_mid, used_mid]
    have : e.nonNull = true := by unfold Entry.nonNull; rw [h0]
    rw [this]
    simp [Entry.nonNull]

set_option linter.unusedSectionVars false
variable [DecidableEq K]

/-- Consistent equality and hash; no element has the hash reserved for the dummy entry. -/
structure HOk (W : HashW K) : Prop where
  ok : W.Ok
  ne : ∀ k, lhash W k ≠ -1

/-- Some element has a hash that is negative as a `long`. -/
def Neg (W : HashW K) : Prop := ∃ k, 2 ^ 63 ≤ W.hash k

/-- The result satisfies `P`, or the call runs forever, which needs a negative hash. -/
def Term (W : HashW K) {α : Type} (r : Res α) (P : α → Prop) : Prop :=
  (r = .diverge ∧ Neg W) ∨ ∃ a, r = .ok a ∧ P a

theorem Term.mono {α : Type} {r : Res α} {P Q : α → Prop} (h : Term W r P) (hpq : ∀ a, P a → Q a) : Term W r Q := by
  rcases h with h | ⟨a, e, h⟩
  · exact Or.inl h
  · exact Or.inr ⟨a, e, hpq a h⟩

theorem Term.pure {α : Type} {a : α} {P : α → Prop} (h : P a) : Term W (.ok a) P := Or.inr ⟨a, rfl, h⟩

theorem Term.bind {α β : Type} {r : Res α} {f : α → Res β} {P : α → Prop} {Q : β → Prop} (h : Term W r P)
    (hf : ∀ a, P a → Term W (f a) Q) : Term W (r >>= f) Q := by
  rcases h with ⟨e, hn⟩ | ⟨a, e, h⟩
  · rw [e]; exact Or.inl ⟨rfl, hn⟩
  · rw [e, Res.ok_bind]; exact hf a h

theorem lhash_nat {k : K} (h : W.hash k < 2 ^ 63) : lhash W k = (W.hash k : Int) := by
  unfold lhash
  apply wrap64_of_in
  constructor <;> omega

theorem lhash_congr (ok : W.Ok) {a b : K} (h : W.eq a b = true) : lhash W a = lhash W b := by
  unfold lhash; rw [ok.hash_eq _ _ h]

theorem visit_empty {h : Int} {key : K} {e : Entry K} (hv : visit W h key e = .empty) : e.key = .null := by
  unfold visit at hv
  cases hk : e.key with
  | null => rfl
  | dummy => rw [hk] at hv; simp only at hv; split at hv <;> simp at hv
  | elem k => rw [hk] at hv; simp only at hv; split at hv <;> simp at hv

theorem visit_hit (ok : W.Ok) {h : Int} {key : K} {e : Entry K} (hv : visit W h key e = .hit) :
    ∃ k, e.key = .elem k ∧ W.eq k key = true := by
  unfold visit at hv
  cases hk : e.key with
  | null => rw [hk] at hv; simp at hv
  | dummy => rw [hk] at hv; simp only at hv; split at hv <;> simp at hv
  | elem k =>
    rw [hk] at hv
    simp only at hv
    by_cases hc : e.hash = h ∧ (k = key ∨ W.eq k key = true)
    · refine ⟨k, rfl, ?_⟩
      rcases hc.2 with rfl | h
      · exact ok.refl _
      · exact h
    · rw [if_neg hc] at hv; simp at hv

/-- What the probe of a key sees: either nothing but other entries, or it stops at the first slot
that is empty or holds an equal element. -/
theorem TOk.stop (hn : HOk W) {t : List (Entry K)} (h : TOk W t) (hu : used t < t.length) (key : K) :
    (Neg W ∧ ∀ m < fuel t.length, ∃ e', t[islot t.length (lhash W key) m]? = some e' ∧ visit W (lhash W key) key e' = .miss) ∨
    ∃ N e, N < fuel t.length ∧ t[islot t.length (lhash W key) N]? = some e ∧
      (∀ m < N, ∃ e', t[islot t.length (lhash W key) m]? = some e' ∧ visit W (lhash W key) key e' = .miss) ∧
      ((visit W (lhash W key) key e = .empty ∧ ∀ k ∈ live t, W.eq k key = false) ∨
        ∃ k, visit W (lhash W key) key e = .hit ∧ e.key = .elem k ∧ W.eq k key = true) := by
  have hpos : 0 < t.length := by have := h.pos; omega
  have hbad : ∀ (i : Nat) (x : Entry K), t[i]? = some x → visit W (lhash W key) key x ≠ .bad := by
    intro i x hx hv
    unfold visit at hv
    cases hk : x.key with
    | null => rw [hk] at hv; simp at hv
    | dummy =>
      rw [hk] at hv
      simp only at hv
      have h1 := h.dum _ x hx hk
      rw [if_neg (by rw [h1]; exact (hn.ne key).symm)] at hv
      simp at hv
    | elem k => rw [hk] at hv; simp only at hv; split at hv <;> simp at hv
  by_cases hex : ∃ m, m < fuel t.length ∧ ∃ e, t[islot t.length (lhash W key) m]? = some e ∧
      (visit W (lhash W key) key e = .empty ∨ visit W (lhash W key) key e = .hit)
  · right
    obtain ⟨N0, hN0, hP0⟩ := hex
    obtain ⟨N, hle, ⟨e, he, hP⟩, hmin⟩ := exists_least (fun m => ∃ e, t[islot t.length (lhash W key) m]? = some e ∧
      (visit W (lhash W key) key e = .empty ∨ visit W (lhash W key) key e = .hit)) N0 hP0
    have hmiss : ∀ m < N, ∃ e', t[islot t.length (lhash W key) m]? = some e' ∧ visit W (lhash W key) key e' = .miss := by
      intro m hm
      obtain ⟨x, hx⟩ := getElem?_of_lt (islot_lt hpos (lhash W key) m)
      refine ⟨x, hx, ?_⟩
      have := hmin m hm
      cases hv : visit W (lhash W key) key x with
      | empty => exact absurd ⟨x, hx, Or.inl hv⟩ this
      | hit => exact absurd ⟨x, hx, Or.inr hv⟩ this
      | miss => rfl
      | bad => exact absurd hv (hbad _ x hx)
    refine ⟨N, e, by omega, he, hmiss, ?_⟩
    rcases hP with hP | hP
    · refine Or.inl ⟨hP, ?_⟩
      intro k hk
      cases hq : W.eq k key with
      | false => rfl
      | true =>
        exfalso
        obtain ⟨j, x, hj, hx⟩ := mem_live.1 hk
        obtain ⟨m, hm, hp⟩ := h.path j x k hj hx
        rw [lhash_congr hn.ok hq] at hm hp
        rcases Nat.lt_trichotomy m N with hlt | heq | hgt
        · obtain ⟨e', h1, h2⟩ := hmiss m hlt
          rw [hm, hj] at h1
          have := Option.some.inj h1
          subst this
          unfold visit at h2
          rw [hx] at h2
          simp only at h2
          have hh := h.hash j x k hj hx
          rw [lhash_congr hn.ok hq] at hh
          rw [if_pos ⟨hh, Or.inr hq⟩] at h2
          simp at h2
        · rw [← heq, hm, hj] at he
          have := Option.some.inj he
          subst this
          have := visit_empty hP
          rw [hx] at this
          simp at this
        · exact hp N hgt e he (visit_empty hP)
    · obtain ⟨k, h1, h2⟩ := visit_hit hn.ok hP
      exact Or.inr ⟨k, hP, h1, h2⟩
  · left
    refine ⟨⟨key, ?_⟩, ?_⟩
    · refine Nat.le_of_not_lt (fun hlt => hex ?_)
      obtain ⟨N0, hN0, e0, he0, hk0⟩ := h.null hu (hn.ok.hash_lt key)
      rw [← lhash_nat hlt] at he0
      exact ⟨N0, by unfold fuel; omega, e0, he0, Or.inl (by unfold visit; rw [hk0])⟩
    · intro m hm
      obtain ⟨x, hx⟩ := getElem?_of_lt (islot_lt hpos (lhash W key) m)
      refine ⟨x, hx, ?_⟩
      cases hv : visit W (lhash W key) key x with
      | empty => exact absurd ⟨m, hm, x, hx, Or.inl hv⟩ hex
      | hit => exact absurd ⟨m, hm, x, hx, Or.inr hv⟩ hex
      | miss => rfl
      | bad => exact absurd hv (hbad _ x hx)

theorem lookLoop_spec {t : List (Entry K)} {key : K} {h : Int} {N : Nat} {e : Entry K}
    (he : t[islot t.length h N]? = some e)
    (hv : visit W h key e = .empty ∨ visit W h key e = .hit)
    (hmiss : ∀ m < N, ∃ e', t[islot t.length h m]? = some e' ∧ visit W h key e' = .miss) :
    ∀ f n, n ≤ N → N - n < f → lookLoop W t h key f (istate t.length h n) = .ok (islot t.length h N) := by
  intro f
  induction f with
  | zero => intro n _ hf; omega
  | succ f ih =>
    intro n hn hf
    unfold lookLoop
    rw [show (istate t.length h n).1 = islot t.length h n from rfl, istate_succ]
    by_cases hnN : n = N
    · subst hnN
      rw [entryAt_of he, Res.ok_bind]
      rcases hv with hv | hv <;> rw [hv] <;> rfl
    · obtain ⟨x, hx, hm⟩ := hmiss n (by omega)
      rw [entryAt_of hx, Res.ok_bind, hm]
      exact ih (n + 1) (by omega) (by omega)

theorem lookLoop_div {t : List (Entry K)} {key : K} {h : Int} {M : Nat}
    (hmiss : ∀ m < M, ∃ e', t[islot t.length h m]? = some e' ∧ visit W h key e' = .miss) :
    ∀ f n, n + f = M → lookLoop W t h key f (istate t.length h n) = .diverge := by
  intro f
  induction f with
  | zero => intro n _; rfl
  | succ f ih =>
    intro n hn
    unfold lookLoop
    obtain ⟨x, hx, hm⟩ := hmiss n (by omega)
    rw [show (istate t.length h n).1 = islot t.length h n from rfl, istate_succ, entryAt_of hx, Res.ok_bind, hm]
    exact ih (n + 1) (by omega)

theorem addLoop_spec {t : List (Entry K)} {key : K} {h : Int} {N : Nat} {e : Entry K}
    (he : t[islot t.length h N]? = some e)
    (hmiss : ∀ m < N, ∃ e', t[islot t.length h m]? = some e' ∧ visit W h key e' = .miss) :
    ∀ f n free, n ≤ N → N - n < f →
      (visit W h key e = .hit → addLoop W t h key f (istate t.length h n) free = .ok .active) ∧
      (visit W h key e = .empty → ∃ free', addLoop W t h key f (istate t.length h n) free =
          .ok (stopEmpty free' (islot t.length h N)) ∧
        (free' = free ∨ ∃ m e', m < N ∧ free' = some (islot t.length h m) ∧ t[islot t.length h m]? = some e' ∧ e'.hash = -1)) := by
  intro f
  induction f with
  | zero => intro n _ _ hf; omega
  | succ f ih =>
    intro n free hn hf
    unfold addLoop
    rw [show (istate t.length h n).1 = islot t.length h n from rfl, istate_succ]
    by_cases hnN : n = N
    · subst hnN
      rw [entryAt_of he, Res.ok_bind]
      refine ⟨fun hv => by rw [hv]; rfl, fun hv => ⟨free, by rw [hv]; rfl, Or.inl rfl⟩⟩
    · obtain ⟨x, hx, hm⟩ := hmiss n (by omega)
      rw [entryAt_of hx, Res.ok_bind, hm]
      obtain ⟨h1, h2⟩ := ih (n + 1) (nextFree h x (islot t.length h n) free) (by omega) (by omega)
      refine ⟨h1, fun hv => ?_⟩
      obtain ⟨free', e1, e2⟩ := h2 hv
      refine ⟨free', e1, ?_⟩
      rcases e2 with e2 | e2
      · unfold nextFree at e2
        split at e2
        · rename_i hc
          exact Or.inr ⟨n, x, by omega, e2, hx, hc.2⟩
        · exact Or.inl e2
      · exact Or.inr e2

theorem addLoop_div {t : List (Entry K)} {key : K} {h : Int} {M : Nat}
    (hmiss : ∀ m < M, ∃ e', t[islot t.length h m]? = some e' ∧ visit W h key e' = .miss) :
    ∀ f n free, n + f = M → addLoop W t h key f (istate t.length h n) free = .diverge := by
  intro f
  induction f with
  | zero => intro n _ _; rfl
  | succ f ih =>
    intro n free hn
    unfold addLoop
    obtain ⟨x, hx, hm⟩ := hmiss n (by omega)
    rw [show (istate t.length h n).1 = islot t.length h n from rfl, istate_succ, entryAt_of hx, Res.ok_bind, hm]
    exact ih (n + 1) _ (by omega)

end Verif.Set
