import Verif.Str.Find
import Verif.Str.Occ
/-!
# C10: `partition`, `split`, `join`, `count`, `replace`
-/
namespace Verif.Str
open Verif Verif.Search

theorem bmh_bytes {s sub : Str} {t p : List Nat} (h : Repr s t) (hp : Repr sub p)
    (hmax : s.nbytes + sub.nbytes < 2^31) {k : Nat} (hk : IsFirst t p (k : Int)) :
    bmh s.bytes sub.bytes = .ok ((off t k : Nat) : Int) := by
  obtain ⟨r, hr, hf⟩ := C09_bmh_partial (enc t) (enc p) (by rw [h.nb, hp.nb] at hmax; exact hmax)
  rw [h.bytes_eq, hp.bytes_eq, hr]
  rcases first_enc h.cp hp.cp hf with ⟨rfl, hf'⟩ | ⟨i, hi, rfl, hf'⟩
  · have := isFirst_unique hf' hk; omega
  · have := isFirst_unique hf' hk
    rw [show i = k by omega]

theorem isLast_unique {t p : List Nat} {r r' : Int} (h : IsLast t p r) (h' : IsLast t p r') : r = r' := by
  rcases h with ⟨i, rfl, h1, h2⟩ | ⟨rfl, h1⟩ <;> rcases h' with ⟨i', rfl, h1', h2'⟩ | ⟨rfl, h1'⟩
  · rcases Nat.lt_trichotomy i i' with h | h | h
    · exact absurd h1' (h2 _ h)
    · rw [h]
    · exact absurd h1 (h2' _ h)
  · exact absurd h1 (h1' _)
  · exact absurd h1' (h1 _)
  · rfl

theorem rbmh_bytes {s sub : Str} {t p : List Nat} (h : Repr s t) (hp : Repr sub p)
    {k : Nat} (hk : IsLast t p (k : Int)) :
    rbmh s.bytes sub.bytes = .ok ((off t k : Nat) : Int) := by
  obtain ⟨r, hr, hf⟩ := C09_rbmh (enc t) (enc p) (by have := h.small; omega)
  rw [h.bytes_eq, hp.bytes_eq, hr]
  rcases last_enc h.cp hp.cp hf with ⟨rfl, hf'⟩ | ⟨i, hi, rfl, hf'⟩
  · have := isLast_unique hf' hk; omega
  · have := isLast_unique hf' hk
    rw [show i = k by omega]

/-- A string from a stretch of another one. -/
theorem Repr.sub {s : Str} {t : List Nat} (h : Repr s t) {j k : Nat} (hjk : j ≤ k) (hk : k ≤ t.length) :
    ∃ b r, copy s.buf (off t j : Nat) ((off t k : Int) - off t j) = .ok b ∧
      mkStr ((k : Int) - j) ((off t k : Int) - off t j) b = .ok r ∧ Repr r ((t.drop j).take (k - j)) := by
  have h1 := off_mono (t := t) hjk
  have h2 := off_le_len t k
  have hlen : (enc ((t.drop j).take (k - j))).length = off t k - off t j := by
    have := off_add t j (k - j)
    rw [show j + (k - j) = k by omega] at this
    unfold off at this ⊢; omega
  obtain ⟨r, hr, hR⟩ := mkStr_repr (window_cp h.cp j (k - j)) (by have := h.small; omega)
    (a := (k : Int) - j) (b := (off t k : Int) - off t j)
    (by rw [List.length_take, List.length_drop]; omega) (by omega)
  exact ⟨_, r, h.copy_spec hjk, hr, hR⟩

/-- `partition` cuts the string at the first occurrence. -/
theorem partition_spec {s sep : Str} {t p : List Nat} (h : Repr s t) (hp : Repr sep p)
    (hmax : s.nbytes + sep.nbytes < 2^31) :
    (Free p t ∧ partition s sep = .ok (s, nullStr, nullStr)) ∨
    ∃ l r a c, partition s sep = .ok (l, sep, r) ∧ Repr l a ∧ Repr r c ∧ t = a ++ p ++ c ∧
      (∀ j, j < a.length → ¬ OccursAt t p j) := by
  obtain ⟨n, hn, hf⟩ := C09_find_partial h hp hmax
  unfold partition
  rw [hn, Res.ok_bind]
  by_cases hneg : n < 0
  · left
    obtain ⟨-, hfree⟩ := isFirst_neg hf hneg
    rw [if_pos hneg]
    exact ⟨hfree, rfl⟩
  · right
    obtain ⟨k, rfl⟩ : ∃ k : Nat, n = k := ⟨n.toNat, by omega⟩
    obtain ⟨ho, hfirst⟩ := isFirst_nat hf
    have hk1 := ho.1
    rw [if_neg hneg, bmh_bytes h hp hmax hf, Res.ok_bind]
    obtain ⟨b1, l, e1, e2, hl⟩ := h.sub (j := 0) (k := k) (by omega) (by omega)
    rw [off_zero] at e1 e2
    simp only [Int.natCast_zero, Int.sub_zero, List.drop_zero, Nat.sub_zero] at e1 e2 hl
    rw [e1, Res.ok_bind, e2, Res.ok_bind]
    have hoff : (off t k : Int) + sep.nbytes = ((off t (k + p.length) : Nat) : Int) := by
      have h1 := off_add t k p.length
      have h2 : off (t.drop k) p.length = (enc p).length := by unfold off; rw [ho.2]
      rw [hp.nb]; omega
    obtain ⟨b2, r, e3, e4, hr⟩ := h.sub (j := k + p.length) (k := t.length) (by omega) (by omega)
    rw [off_all t (Nat.le_refl _), ← h.nb, ← hoff] at e3
    rw [off_all t (Nat.le_refl _), ← h.nb, ← h.nc, ← hoff] at e4
    rw [show s.nbytes - sep.nbytes - (off t k : Int) = s.nbytes - ((off t k : Int) + sep.nbytes) by omega]
    simp only
    rw [e3, Res.ok_bind]
    rw [show s.nchars - (k : Int) - sep.nchars = s.nchars - ((k + p.length : Nat) : Int) by rw [hp.nc]; omega,
      e4, Res.ok_bind]
    have htk : (t.drop (k + p.length)).take (t.length - (k + p.length)) = t.drop (k + p.length) := by
      apply List.take_of_length_le; rw [List.length_drop]; omega
    rw [htk] at hr
    refine ⟨l, r, t.take k, t.drop (k + p.length), rfl, hl, hr, occurs_split ho, ?_⟩
    rw [List.length_take, Nat.min_eq_left (by omega)]
    exact hfirst

/-- `rpartition` cuts the string at the last occurrence. -/
theorem rpartition_spec {s sep : Str} {t p : List Nat} (h : Repr s t) (hp : Repr sep p) :
    (Free p t ∧ rpartition s sep = .ok (nullStr, nullStr, s)) ∨
    ∃ l r a c, rpartition s sep = .ok (l, sep, r) ∧ Repr l a ∧ Repr r c ∧ t = a ++ p ++ c ∧
      (∀ j, a.length < j → ¬ OccursAt t p j) := by
  obtain ⟨n, hn, hf⟩ := C09_rfind h hp
  unfold rpartition
  rw [hn, Res.ok_bind]
  by_cases hneg : n < 0
  · left
    rcases hf with ⟨k, rfl, -⟩ | ⟨rfl, hfree⟩
    · omega
    rw [if_pos hneg]
    exact ⟨hfree, rfl⟩
  · right
    obtain ⟨k, rfl⟩ : ∃ k : Nat, n = k := ⟨n.toNat, by omega⟩
    have hf' := hf
    obtain ⟨ho, hlast⟩ : OccursAt t p k ∧ ∀ j, k < j → ¬ OccursAt t p j := by
      rcases hf' with ⟨k', hk, ho, hlast⟩ | ⟨e, -⟩
      · have : k = k' := by omega
        subst this
        exact ⟨ho, hlast⟩
      · omega
    have hk1 := ho.1
    rw [if_neg hneg, rbmh_bytes h hp hf, Res.ok_bind]
    obtain ⟨b1, l, e1, e2, hl⟩ := h.sub (j := 0) (k := k) (by omega) (by omega)
    rw [off_zero] at e1 e2
    simp only [Int.natCast_zero, Int.sub_zero, List.drop_zero, Nat.sub_zero] at e1 e2 hl
    rw [e1, Res.ok_bind, e2, Res.ok_bind]
    have hoff : (off t k : Int) + sep.nbytes = ((off t (k + p.length) : Nat) : Int) := by
      have h1 := off_add t k p.length
      have h2 : off (t.drop k) p.length = (enc p).length := by unfold off; rw [ho.2]
      rw [hp.nb]; omega
    obtain ⟨b2, r, e3, e4, hr⟩ := h.sub (j := k + p.length) (k := t.length) (by omega) (by omega)
    rw [off_all t (Nat.le_refl _), ← h.nb, ← hoff] at e3
    rw [off_all t (Nat.le_refl _), ← h.nb, ← h.nc, ← hoff] at e4
    rw [show s.nbytes - sep.nbytes - (off t k : Int) = s.nbytes - ((off t k : Int) + sep.nbytes) by omega]
    simp only
    rw [e3, Res.ok_bind]
    rw [show s.nchars - (k : Int) - sep.nchars = s.nchars - ((k + p.length : Nat) : Int) by rw [hp.nc]; omega,
      e4, Res.ok_bind]
    have htk : (t.drop (k + p.length)).take (t.length - (k + p.length)) = t.drop (k + p.length) := by
      apply List.take_of_length_le; rw [List.length_drop]; omega
    rw [htk] at hr
    refine ⟨l, r, t.take k, t.drop (k + p.length), rfl, hl, hr, occurs_split ho, ?_⟩
    rw [List.length_take, Nat.min_eq_left (by omega)]
    exact hlast

theorem Reprs.append {a b : List Str} {x y : List (List Nat)} (h : Reprs a x) (h' : Reprs b y) :
    Reprs (a ++ b) (x ++ y) := by
  induction h with
  | nil => exact h'
  | cons h _ ih => exact .cons h ih

theorem enc_len_append (a b : List Nat) : (enc (a ++ b)).length = (enc a).length + (enc b).length := by
  rw [enc_append, List.length_append]

/-- The loop of `split` for a non-empty text and a positive number `m` of splits left. -/
theorem splitLoop_spec {sep : Str} {p : List Nat} (hp : Repr sep p) (hne : p ≠ []) (maxs : Int) :
    ∀ (f : Nat) (s : Str) (t : List Nat) (ssep : Option Str) (len : Int),
      Repr s t → s.nbytes + sep.nbytes < 2^31 → t.length < f → t ≠ [] → len < maxs →
      ∃ ps x rs last qs,
        splitLoop sep maxs f s ssep len = .ok (ps, some x, rs) ∧ Repr rs last ∧
        ((x.nchars > 0 ∧ Reprs ps qs ∧ SplitsTo p (some (maxs - len).toNat) t (qs ++ [last])) ∨
         (x.nchars = 0 ∧ Reprs ps qs ∧ SplitsTo p (some (maxs - len).toNat) t qs)) := by
  have hpl : 0 < p.length := List.length_pos_iff.2 hne
  intro f
  induction f with
  | zero => intro s t _ _ _ _ hf; omega
  | succ f ih =>
    intro s t ssep len h hmax hf htne hlen
    have htl : 0 < t.length := List.length_pos_iff.2 htne
    unfold splitLoop
    rw [if_pos ⟨by rw [h.nc]; omega, hlen⟩]
    rcases partition_spec h hp hmax with ⟨hfree, e⟩ | ⟨l, r, a, c, e, hl, hr, ht, hfirst⟩
    · rw [e, Res.ok_bind]
      simp only
      have hl : splitLoop sep maxs f nullStr (some nullStr) (len + 1) = .ok ([], some nullStr, nullStr) := by
        cases f with
        | zero => omega
        | succ f => unfold splitLoop; rw [if_neg (by rintro ⟨h1, -⟩; exact absurd h1 (by decide))]
      rw [hl, Res.ok_bind]
      exact ⟨[s], nullStr, nullStr, [], [t], rfl, null_repr, Or.inr ⟨rfl, .cons h .nil, .last _ _ hfree⟩⟩
    · rw [e, Res.ok_bind]
      simp only
      have hlenc : c.length < t.length := by rw [ht]; simp only [List.length_append]; omega
      have hmap : (some (maxs - len).toNat : Option Nat).map (· - 1) = some (maxs - (len + 1)).toNat := by
        rw [Option.map_some]; congr 1; omega
      have hm0 : (some (maxs - len).toNat : Option Nat) ≠ some 0 := by
        intro h0; injection h0 with h0; omega
      have stop : (c = [] ∨ ¬ len + 1 < maxs) →
          splitLoop sep maxs f r (some sep) (len + 1) = .ok ([], some sep, r) := by
        intro hc
        cases f with
        | zero => omega
        | succ f =>
          unfold splitLoop
          rw [if_neg]
          rintro ⟨h1, h2⟩
          rcases hc with rfl | hc
          · rw [hr.nc] at h1; simp at h1
          · exact hc h2
      have hsepn : sep.nchars > 0 := by rw [hp.nc]; omega
      by_cases hc : c = [] ∨ ¬ len + 1 < maxs
      · rw [stop hc, Res.ok_bind]
        refine ⟨[l], sep, r, c, [a], rfl, hr, Or.inl ⟨hsepn, .cons hl .nil, ?_⟩⟩
        refine .more _ t a c [c] ht hfirst ?_ hm0
        rw [hmap]
        by_cases hc0 : c = []
        · exact .last _ _ (by rw [hc0]; exact free_nil hne)
        · have : (maxs - (len + 1)).toNat = 0 := by
            rcases hc with hc | hc
            · exact absurd hc hc0
            · omega
          rw [this]; exact .stop c
      · have hc1 : c ≠ [] := fun h0 => hc (Or.inl h0)
        have hc2 : len + 1 < maxs := by
          by_cases h2 : len + 1 < maxs
          · exact h2
          · exact absurd (Or.inr h2) hc
        have hrn : r.nbytes + sep.nbytes < 2^31 := by
          have : (enc c).length ≤ (enc t).length := by rw [ht, enc_len_append]; omega
          rw [hr.nb]; rw [h.nb] at hmax; omega
        obtain ⟨ps, x, rs, last, qs, e2, hrs, hcase⟩ := ih r c (some sep) (len + 1) hr hrn (by omega) hc1 hc2
        rw [e2, Res.ok_bind]
        refine ⟨l :: ps, x, rs, last, a :: qs, rfl, hrs, ?_⟩
        rcases hcase with ⟨h1, h2, h3⟩ | ⟨h1, h2, h3⟩
        · exact Or.inl ⟨h1, .cons hl h2, .more _ t a c _ ht hfirst (by rw [hmap]; exact h3) hm0⟩
        · exact Or.inr ⟨h1, .cons hl h2, .more _ t a c _ ht hfirst (by rw [hmap]; exact h3) hm0⟩

/-- A limit that is at least the length of the text is no limit. -/
theorem SplitsTo.unlimited {sep : List Nat} (hsep : sep ≠ []) {m : Option Nat} {t : List Nat} {ps : List (List Nat)}
    (h : SplitsTo sep m t ps) : ∀ n, m = some n → t.length ≤ n → SplitsTo sep none t ps := by
  have hpl : 0 < sep.length := List.length_pos_iff.2 hsep
  induction h with
  | stop t =>
    intro n hn hle
    injection hn with hn
    have : t = [] := List.length_eq_zero_iff.1 (by omega)
    subst this
    exact .last _ _ (free_nil hsep)
  | last m t hf => intro n _ _; exact .last _ _ hf
  | more m t a b ps e hfirst h hm ih =>
    intro n hn hle
    subst hn
    refine .more _ t a b ps e hfirst ?_ (by simp)
    apply ih (n - 1) rfl
    rw [e] at hle
    simp only [List.length_append] at hle
    omega

/-- C10: `s.split(sep, maxsplit)` delivers the pieces between the leftmost occurrences, at most
`maxsplit` of them, for every string and non-empty separator (together below 2^31 bytes).
Missing for the full claim: `maxsplit = 0`, where the code is wrong. -/
theorem C10_split_partial {s sep : Str} {t p : List Nat} (h : Repr s t) (hp : Repr sep p)
    (hmax : s.nbytes + sep.nbytes < 2^31) (hne : p ≠ []) (m : Option Int) (hm : m ≠ some 0) :
    ∃ ps qs, split s sep m = .ok ps ∧ Reprs ps qs ∧ SplitsTo p (limit m) t qs := by
  have hpl : 0 < p.length := List.length_pos_iff.2 hne
  have hpn : ¬ sep.nchars = 0 := by rw [hp.nc]; omega
  by_cases ht0 : t = []
  · subst ht0
    refine ⟨[nullStr], [[]], ?_, .cons null_repr .nil, .last _ _ (free_nil hne)⟩
    unfold split
    rw [if_neg hpn, if_pos (by rw [h.nc]; rfl)]
  have key : ∀ mx : Int, 0 < mx → ∃ ps qs, (do
      let (ps, ssep, rs) ← splitLoop sep mx (s.nchars.toNat + 1) s none 0
      match ssep with
      | none => Res.ub
      | some x => if x.nchars > 0 then return ps ++ [rs] else return ps) = .ok ps ∧ Reprs ps qs ∧
      SplitsTo p (some mx.toNat) t qs := by
    intro mx hmx
    obtain ⟨ps, x, rs, last, qs, e, hrs, hcase⟩ := splitLoop_spec hp hne mx (s.nchars.toNat + 1) s t none 0 h hmax
      (by rw [h.nc]; omega) ht0 hmx
    rw [e, Res.ok_bind]
    simp only
    rcases hcase with ⟨h1, h2, h3⟩ | ⟨h1, h2, h3⟩
    · rw [if_pos h1]
      refine ⟨_, _, rfl, ?_, by simpa using h3⟩
      exact h2.append (.cons hrs .nil)
    · rw [if_neg (by omega)]
      exact ⟨_, _, rfl, h2, by simpa using h3⟩
  have hn0 : ¬ s.nchars = 0 := by
    rw [h.nc]; intro h0; exact ht0 (List.length_eq_zero_iff.1 (by omega))
  have hlt := h.len_lt
  obtain ⟨mx, hmx, hlim, hmxd⟩ : ∃ mx : Int, 0 < mx ∧
      (∀ qs, SplitsTo p (some mx.toNat) t qs → SplitsTo p (limit m) t qs) ∧
      mx = splitMax m := by
    have big : ∀ qs, SplitsTo p (some (2^31 - 1 : Int).toNat) t qs → SplitsTo p none t qs := by
      intro qs hq
      exact hq.unlimited hne _ rfl (by omega)
    cases m with
    | none => exact ⟨2^31 - 1, by decide, big, rfl⟩
    | some m =>
      by_cases hneg : m < 0
      · exact ⟨2^31 - 1, by decide, by unfold limit; simp only [if_pos hneg]; exact big, by unfold splitMax; simp only [if_pos hneg]⟩
      · have : m ≠ 0 := fun h0 => hm (by rw [h0])
        exact ⟨m, by omega, by unfold limit; simp only [if_neg hneg]; exact fun _ h => h, by unfold splitMax; simp only [if_neg hneg]⟩
  obtain ⟨ps, qs, e, h1, h2⟩ := key mx hmx
  refine ⟨ps, qs, ?_, h1, hlim _ h2⟩
  unfold split
  rw [if_neg hpn, if_neg hn0, ← hmxd]
  exact e

end Verif.Str
