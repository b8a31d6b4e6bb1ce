import Verif.Search.Lemmas
/-!
# UTF-8: specification of the encoding and its basic properties

This file contains no model of code; it is the specification against which strings are
stated, plus facts about the encoding.
-/
namespace Verif.Str
open Verif Verif.Search

/-- A Unicode code point. (Surrogates need not be excluded for anything below.) -/
def CodePoint (c : Nat) : Prop := c < 0x110000

/-- The UTF-8 encoding of one code point (RFC 3629). -/
def enc1 (c : Nat) : List Nat :=
  if c < 0x80 then [c]
  else if c < 0x800 then [0xC0 + c / 64, 0x80 + c % 64]
  else if c < 0x10000 then [0xE0 + c / 4096, 0x80 + c / 64 % 64, 0x80 + c % 64]
  else [0xF0 + c / 262144, 0x80 + c / 4096 % 64, 0x80 + c / 64 % 64, 0x80 + c % 64]

/-- The UTF-8 encoding of a sequence of code points. -/
def enc (l : List Nat) : List Nat := l.flatMap enc1

/-- Continuation bytes. -/
def Cont (b : Nat) : Prop := 128 ≤ b ∧ b < 192

/-- Length of the sequence introduced by lead byte `c`; `byte_length2`,
base/builtin/str.c:446-455. -/
def blen2 (c : Nat) : Nat :=
  if c < 0x80 then 1 else if c < 0xe0 then 2 else if c < 0xf0 then 3 else 4

@[simp] theorem enc_nil : enc [] = [] := rfl
theorem enc_cons (c : Nat) (l : List Nat) : enc (c :: l) = enc1 c ++ enc l := rfl
theorem enc_append (a b : List Nat) : enc (a ++ b) = enc a ++ enc b := by unfold enc; simp
theorem enc_singleton (c : Nat) : enc [c] = enc1 c := by simp [enc]

/-- Shape of the encoding of one code point. -/
theorem enc1_shape {c : Nat} (hc : CodePoint c) : ∃ b bs, enc1 c = b :: bs ∧ blen2 b = bs.length + 1 ∧
    ¬ Cont b ∧ b < 256 ∧ (∀ x ∈ bs, Cont x) ∧ (b = 0 ↔ c = 0) ∧ bs.length ≤ 3 := by
  unfold CodePoint at hc
  unfold enc1
  by_cases h1 : c < 0x80
  · rw [if_pos h1]
    refine ⟨c, [], rfl, ?_, ?_, by omega, by simp, Iff.rfl, by simp⟩
    · unfold blen2; rw [if_pos h1]; rfl
    · unfold Cont; omega
  rw [if_neg h1]
  by_cases h2 : c < 0x800
  · rw [if_pos h2]
    refine ⟨_, _, rfl, ?_, ?_, by omega, ?_, by omega, by simp⟩
    · unfold blen2; rw [if_neg (by omega), if_pos (by omega)]; rfl
    · unfold Cont; omega
    · intro x hx; simp at hx; unfold Cont; omega
  rw [if_neg h2]
  by_cases h3 : c < 0x10000
  · rw [if_pos h3]
    refine ⟨_, _, rfl, ?_, ?_, by omega, ?_, by omega, by simp⟩
    · unfold blen2; rw [if_neg (by omega), if_neg (by omega), if_pos (by omega)]; rfl
    · unfold Cont; omega
    · intro x hx; simp at hx; unfold Cont; omega
  · rw [if_neg h3]
    refine ⟨_, _, rfl, ?_, ?_, by omega, ?_, by omega, by simp⟩
    · unfold blen2; rw [if_neg (by omega), if_neg (by omega), if_neg (by omega)]; rfl
    · unfold Cont; omega
    · intro x hx; simp at hx; unfold Cont; omega

theorem enc1_length {c : Nat} : 1 ≤ (enc1 c).length ∧ (enc1 c).length ≤ 4 := by
  unfold enc1
  split
  · simp
  · split
    · simp
    · split <;> simp

theorem enc1_ascii {c : Nat} (h : (enc1 c).length = 1) : c < 0x80 ∧ enc1 c = [c] := by
  unfold enc1 at *
  by_cases h1 : c < 0x80
  · rw [if_pos h1]; exact ⟨h1, rfl⟩
  · rw [if_neg h1] at h
    split at h
    · simp at h
    · split at h <;> simp at h

theorem enc1_cases (c : Nat) : (c < 0x80 ∧ enc1 c = [c]) ∨
    (0x80 ≤ c ∧ c < 0x800 ∧ enc1 c = [0xC0 + c / 64, 0x80 + c % 64]) ∨
    (0x800 ≤ c ∧ c < 0x10000 ∧ enc1 c = [0xE0 + c / 4096, 0x80 + c / 64 % 64, 0x80 + c % 64]) ∨
    (0x10000 ≤ c ∧ enc1 c = [0xF0 + c / 262144, 0x80 + c / 4096 % 64, 0x80 + c / 64 % 64, 0x80 + c % 64]) := by
  unfold enc1
  by_cases h1 : c < 0x80
  · exact Or.inl ⟨h1, if_pos h1⟩
  rw [if_neg h1]
  by_cases h2 : c < 0x800
  · exact Or.inr (Or.inl ⟨by omega, h2, if_pos h2⟩)
  rw [if_neg h2]
  by_cases h3 : c < 0x10000
  · exact Or.inr (Or.inr (Or.inl ⟨by omega, h3, if_pos h3⟩))
  · exact Or.inr (Or.inr (Or.inr ⟨by omega, if_neg h3⟩))

theorem enc1_inj {c d : Nat} (h : enc1 c = enc1 d) : c = d := by
  rcases enc1_cases c with ⟨_, e⟩ | ⟨_, _, e⟩ | ⟨_, _, e⟩ | ⟨_, e⟩ <;>
  rcases enc1_cases d with ⟨_, e'⟩ | ⟨_, _, e'⟩ | ⟨_, _, e'⟩ | ⟨_, e'⟩ <;>
  rw [e, e'] at h <;> simp at h <;> omega

/-- The first bytes determine the length, so encodings are prefix free. -/
theorem enc1_prefix {c d : Nat} (hc : CodePoint c) (hd : CodePoint d) {x y : List Nat}
    (h : enc1 c ++ x = enc1 d ++ y) : c = d ∧ x = y := by
  obtain ⟨b, bs, e1, l1, -⟩ := enc1_shape hc
  obtain ⟨b', bs', e2, l2, -⟩ := enc1_shape hd
  rw [e1, e2] at h
  simp only [List.cons_append, List.cons.injEq] at h
  obtain ⟨hb, ht⟩ := h
  subst hb
  have hl : bs.length = bs'.length := by omega
  have h1 := List.append_inj ht hl
  have : enc1 c = enc1 d := by rw [e1, e2, h1.1]
  exact ⟨enc1_inj this, h1.2⟩

/-- A code point sequence whose encoding is a prefix is itself a prefix. -/
theorem enc_prefix : ∀ (p t : List Nat), (∀ c ∈ p, CodePoint c) → (∀ c ∈ t, CodePoint c) →
    ∀ x : List Nat, enc t = enc p ++ x → ∃ u, t = p ++ u ∧ x = enc u := by
  intro p
  induction p with
  | nil => intro t _ _ x h; exact ⟨t, rfl, by simpa using h.symm⟩
  | cons c p ih =>
    intro t hp ht x h
    cases t with
    | nil =>
      have := enc1_length (c := c)
      rw [enc_cons] at h
      have := congrArg List.length h
      simp only [enc_nil, List.length_nil, List.length_append] at this
      omega
    | cons d t =>
      rw [enc_cons, enc_cons, List.append_assoc] at h
      obtain ⟨e, h'⟩ := enc1_prefix (ht d (by simp)) (hp c (by simp)) h
      subst e
      obtain ⟨u, hu, hx⟩ := ih t (fun y hy => hp y (by simp [hy])) (fun y hy => ht y (by simp [hy])) x h'
      exact ⟨u, by rw [hu]; rfl, hx⟩

theorem enc_inj {p t : List Nat} (hp : ∀ c ∈ p, CodePoint c) (ht : ∀ c ∈ t, CodePoint c) (h : enc p = enc t) :
    p = t := by
  obtain ⟨u, hu, hx⟩ := enc_prefix p t hp ht [] (by rw [List.append_nil]; exact h.symm)
  cases u with
  | nil => rw [hu, List.append_nil]
  | cons d u =>
    have := enc1_length (c := d)
    have := congrArg List.length hx
    rw [enc_cons, List.length_append] at this
    simp at this; omega

/-- Byte offset of code point number `k`. -/
def off (t : List Nat) (k : Nat) : Nat := (enc (t.take k)).length

theorem off_zero (t : List Nat) : off t 0 = 0 := rfl
theorem off_all (t : List Nat) {k : Nat} (h : t.length ≤ k) : off t k = (enc t).length := by
  unfold off; rw [List.take_of_length_le h]

theorem off_succ {t : List Nat} {k : Nat} (h : k < t.length) : off t (k + 1) = off t k + (enc1 t[k]).length := by
  unfold off
  rw [List.take_add_one, enc_append, List.length_append, List.getElem?_eq_getElem h]
  simp [enc_singleton]

theorem off_mono {t : List Nat} {j k : Nat} (h : j ≤ k) : off t j ≤ off t k := by
  unfold off
  have : t.take k = t.take j ++ (t.drop j).take (k - j) := by
    conv => lhs; rw [← List.take_append_drop j t]
    rw [List.take_append, List.length_take]
    rw [List.take_take]
    by_cases hj : j ≤ t.length
    · rw [Nat.min_eq_right h, Nat.min_eq_left hj]
    · rw [Nat.min_eq_right h, List.drop_eq_nil_of_le (by omega)]; simp
  rw [this, enc_append, List.length_append]; omega

theorem off_lt {t : List Nat} {j k : Nat} (h : j < k) (hk : k ≤ t.length) : off t j < off t k := by
  have h1 := off_succ (t := t) (k := j) (by omega)
  have h2 := off_mono (t := t) (j := j + 1) (k := k) (by omega)
  have := enc1_length (c := t[j]'(by omega))
  omega

theorem off_inj {t : List Nat} {j k : Nat} (hj : j ≤ t.length) (hk : k ≤ t.length) (h : off t j = off t k) : j = k := by
  rcases Nat.lt_trichotomy j k with hlt | he | hgt
  · have := off_lt hlt hk; omega
  · exact he
  · have := off_lt hgt hj; omega

theorem off_le_len (t : List Nat) (k : Nat) : off t k ≤ (enc t).length := by
  by_cases h : k ≤ t.length
  · have := off_mono (t := t) (j := k) (k := t.length) h
    rw [off_all t (Nat.le_refl _)] at this; exact this
  · rw [off_all t (by omega)]; omega

theorem enc_drop (t : List Nat) (k : Nat) : (enc t).drop (off t k) = enc (t.drop k) := by
  conv => lhs; rw [← List.take_append_drop k t, enc_append]
  unfold off
  rw [List.take_append_drop, List.drop_left]

theorem enc_take (t : List Nat) (k : Nat) : (enc t).take (off t k) = enc (t.take k) := by
  conv => lhs; rw [← List.take_append_drop k t, enc_append]
  unfold off
  rw [List.take_append_drop, List.take_left]

theorem off_add (t : List Nat) (j k : Nat) : off t (j + k) = off t j + off (t.drop j) k := by
  unfold off
  rw [← List.length_append, ← enc_append, List.take_add]

theorem length_le_enc (t : List Nat) : t.length ≤ (enc t).length := by
  induction t with
  | nil => simp
  | cons c t ih => rw [enc_cons, List.length_append, List.length_cons]; have := enc1_length (c := c); omega

/-- If as many bytes as code points are used, every code point is one byte. -/
theorem ascii_off (t : List Nat) (h : (enc t).length = t.length) : ∀ k, k ≤ t.length → off t k = k := by
  intro k hk
  have h1 : k ≤ off t k := by
    have := length_le_enc (t.take k)
    rw [List.length_take] at this
    unfold off; omega
  have h2 : (enc t).length = off t k + (enc (t.drop k)).length := by
    rw [← enc_drop, List.length_drop]
    have := off_le_len t k
    omega
  have h3 := length_le_enc (t.drop k)
  rw [List.length_drop] at h3
  omega

theorem lead_at {t : List Nat} (ht : ∀ c ∈ t, CodePoint c) {k : Nat} (hk : k < t.length) :
    ∃ b, (enc t)[off t k]? = some b ∧ ¬ Cont b ∧ blen2 b = (enc1 t[k]).length ∧ b < 256 ∧
      (b = 0 ↔ t[k] = 0) := by
  obtain ⟨b, bs, e, l, nc, hb, -, hz, -⟩ := enc1_shape (ht t[k] (List.getElem_mem hk))
  refine ⟨b, ?_, nc, by rw [e]; simpa using l, hb, hz⟩
  have := enc_drop t k
  have h2 := congrArg (fun l => l[0]?) this
  simp only [List.getElem?_drop, Nat.add_zero] at h2
  rw [h2, List.drop_eq_getElem_cons hk, enc_cons, e]
  rfl

/-- Every byte offset below the end lies in some code point. -/
theorem locate {t : List Nat} {i : Nat} (hi : i < (enc t).length) :
    ∃ k, k < t.length ∧ off t k ≤ i ∧ i < off t (k + 1) := by
  have : ∀ n, n ≤ t.length → i < off t n → ∃ k, k < n ∧ off t k ≤ i ∧ i < off t (k + 1) := by
    intro n
    induction n with
    | zero => intro _ h; rw [off_zero] at h; omega
    | succ n ih =>
      intro hn h
      by_cases hlt : i < off t n
      · obtain ⟨k, h1, h2⟩ := ih (by omega) hlt
        exact ⟨k, by omega, h2⟩
      · exact ⟨n, by omega, by omega, h⟩
  obtain ⟨k, h1, h2⟩ := this t.length (Nat.le_refl _) (by rw [off_all t (Nat.le_refl _)]; exact hi)
  exact ⟨k, h1, h2⟩

theorem byte_in {t : List Nat} {k j : Nat} (hk : k < t.length) (hj : j < (enc1 t[k]).length) :
    (enc t)[off t k + j]? = (enc1 t[k])[j]? := by
  have := enc_drop t k
  have h2 := congrArg (fun l => l[j]?) this
  simp only [List.getElem?_drop] at h2
  rw [h2, List.drop_eq_getElem_cons hk, enc_cons, List.getElem?_append_left hj]

/-- Inside a code point there are only continuation bytes. -/
theorem cont_in {t : List Nat} (ht : ∀ c ∈ t, CodePoint c) {k i : Nat} (hk : k < t.length)
    (h1 : off t k < i) (h2 : i < off t (k + 1)) : ∃ b, (enc t)[i]? = some b ∧ Cont b := by
  rw [off_succ hk] at h2
  have hb := byte_in hk (j := i - off t k) (by omega)
  rw [show off t k + (i - off t k) = i by omega] at hb
  obtain ⟨b, bs, e, l, nc, -, hcont, -⟩ := enc1_shape (ht t[k] (List.getElem_mem hk))
  rw [e] at hb h2
  rw [show i - off t k = (i - off t k - 1) + 1 by omega, List.getElem?_cons_succ] at hb
  simp only [List.length_cons] at h2
  have hlt : i - off t k - 1 < bs.length := by omega
  rw [List.getElem?_eq_getElem hlt] at hb
  exact ⟨_, hb, hcont _ (List.getElem_mem hlt)⟩

/-- A position holding a non-continuation byte is the start of a code point. -/
theorem boundary {t : List Nat} (ht : ∀ c ∈ t, CodePoint c) {i b : Nat} (hb : (enc t)[i]? = some b)
    (hnc : ¬ Cont b) : ∃ k, k < t.length ∧ i = off t k := by
  have hi : i < (enc t).length := (List.getElem?_eq_some_iff.1 hb).1
  obtain ⟨k, h1, h2, h3⟩ := locate hi
  refine ⟨k, h1, ?_⟩
  by_cases he : i = off t k
  · exact he
  · obtain ⟨b', e1, e2⟩ := cont_in ht h1 (by omega) h3
    rw [hb] at e1; cases e1
    exact absurd e2 hnc

theorem mem_take {t : List Nat} {P : Nat → Prop} (ht : ∀ c ∈ t, P c) (k : Nat) : ∀ c ∈ t.take k, P c :=
  fun c hc => ht c (List.mem_of_mem_take hc)
theorem mem_drop {t : List Nat} {P : Nat → Prop} (ht : ∀ c ∈ t, P c) (k : Nat) : ∀ c ∈ t.drop k, P c :=
  fun c hc => ht c (List.mem_of_mem_drop hc)

/-- Occurrences of a non-empty pattern: bytes and code points agree. -/
theorem occurs_enc {t p : List Nat} (ht : ∀ c ∈ t, CodePoint c) (hp : ∀ c ∈ p, CodePoint c) (hne : p ≠ []) (i : Nat) :
    OccursAt (enc t) (enc p) i ↔ ∃ k, i = off t k ∧ OccursAt t p k := by
  constructor
  · rintro ⟨h1, h2⟩
    -- the first byte of the pattern is a lead byte
    have hlen : 0 < (enc p).length := by
      have := length_le_enc p
      have : 0 < p.length := List.length_pos_iff.2 hne
      omega
    have hlead := lead_at hp (k := 0) (List.length_pos_iff.2 hne)
    rw [off_zero] at hlead
    obtain ⟨b, hb, hnc, -⟩ := hlead
    have hbt : (enc t)[i]? = some b := by
      have := congrArg (fun l => l[0]?) h2
      simp only [List.getElem?_take, List.getElem?_drop, Nat.add_zero] at this
      rw [if_pos hlen] at this
      rw [this, hb]
    obtain ⟨k, hk, hik⟩ := boundary ht hbt hnc
    refine ⟨k, hik, ?_⟩
    rw [hik, enc_drop] at h2
    have h3 : enc (t.drop k) = enc p ++ (enc (t.drop k)).drop (enc p).length := by
      conv => lhs; rw [← List.take_append_drop (enc p).length (enc (t.drop k)), h2]
    obtain ⟨u, hu, -⟩ := enc_prefix p (t.drop k) hp (mem_drop ht k) _ h3
    have hl := congrArg List.length hu
    rw [List.length_drop, List.length_append] at hl
    exact ⟨by omega, by rw [hu, List.take_left]⟩
  · rintro ⟨k, rfl, h1, h2⟩
    have he : enc (t.drop k) = enc p ++ enc ((t.drop k).drop p.length) := by
      rw [← enc_append]
      conv => rhs; rw [← h2]
      rw [h2]
      conv => lhs; rw [← List.take_append_drop p.length (t.drop k), h2]
    refine ⟨?_, ?_⟩
    · have := congrArg List.length (enc_drop t k)
      rw [List.length_drop, he, List.length_append] at this
      have := off_le_len t k
      omega
    · rw [enc_drop, he, List.take_left]

theorem first_enc {t p : List Nat} (ht : ∀ c ∈ t, CodePoint c) (hp : ∀ c ∈ p, CodePoint c) {r : Int}
    (h : IsFirst (enc t) (enc p) r) :
    (r = -1 ∧ IsFirst t p (-1)) ∨ ∃ k : Nat, k ≤ t.length ∧ r = off t k ∧ IsFirst t p k := by
  by_cases hne : p = []
  · subst hne
    right
    refine ⟨0, by omega, ?_, Or.inl ⟨0, rfl, ⟨by simp, by simp⟩, fun j hj => absurd hj (Nat.not_lt_zero _)⟩⟩
    rcases h with ⟨i, h1, h2, h3⟩ | ⟨h1, h2⟩
    · rw [off_zero, h1]
      rcases Nat.eq_zero_or_pos i with e | e
      · rw [e]
      · exact absurd ⟨by simp, by simp⟩ (h3 0 e)
    · exact absurd ⟨by simp, by simp⟩ (h2 0)
  · rcases h with ⟨i, h1, h2, h3⟩ | ⟨h1, h2⟩
    · right
      obtain ⟨k, e, ho⟩ := (occurs_enc ht hp hne i).1 h2
      have hk : k ≤ t.length := by have := ho.1; omega
      refine ⟨k, hk, by rw [h1, e], Or.inl ⟨k, rfl, ho, fun j hj hoj => ?_⟩⟩
      have := off_lt hj hk
      exact h3 (off t j) (by omega) ((occurs_enc ht hp hne _).2 ⟨j, rfl, hoj⟩)
    · left
      exact ⟨h1, Or.inr ⟨rfl, fun j hj => h2 _ ((occurs_enc ht hp hne _).2 ⟨j, rfl, hj⟩)⟩⟩

theorem last_enc {t p : List Nat} (ht : ∀ c ∈ t, CodePoint c) (hp : ∀ c ∈ p, CodePoint c) {r : Int}
    (h : IsLast (enc t) (enc p) r) :
    (r = -1 ∧ IsLast t p (-1)) ∨ ∃ k : Nat, k ≤ t.length ∧ r = off t k ∧ IsLast t p k := by
  by_cases hne : p = []
  · subst hne
    right
    refine ⟨t.length, by omega, ?_, Or.inl ⟨t.length, rfl, ⟨by simp, by simp⟩, fun j hj ho => ?_⟩⟩
    · rw [off_all t (Nat.le_refl _)]
      rcases h with ⟨i, h1, h2, h3⟩ | ⟨h1, h2⟩
      · rw [h1]
        have hi := h2.1
        simp at hi
        rcases Nat.lt_or_ge i (enc t).length with e | e
        · exact absurd ⟨by simp, by simp⟩ (h3 _ e)
        · congr 1; omega
      · exact absurd ⟨by simp, by simp⟩ (h2 0)
    · have := ho.1; simp at this; omega
  · rcases h with ⟨i, h1, h2, h3⟩ | ⟨h1, h2⟩
    · right
      obtain ⟨k, e, ho⟩ := (occurs_enc ht hp hne i).1 h2
      have hk : k ≤ t.length := by have := ho.1; omega
      refine ⟨k, hk, by rw [h1, e], Or.inl ⟨k, rfl, ho, fun j hj hoj => ?_⟩⟩
      have := off_lt (t := t) hj (by have := hoj.1; omega)
      exact h3 (off t j) (by omega) ((occurs_enc ht hp hne _).2 ⟨j, rfl, hoj⟩)
    · left
      exact ⟨h1, Or.inr ⟨rfl, fun j hj => h2 _ ((occurs_enc ht hp hne _).2 ⟨j, rfl, hj⟩)⟩⟩

end Verif.Str
