import Verif.Http.Model
import Verif.Http.Spec
import Verif.Bytes.Search
import Verif.Bytes.Ends
import Verif.Big.TextProps
/-! # Lemmas for the parser of HTTP messages -/
namespace Verif.Http
open Verif Verif.Bytes Verif.Str Verif.Search Verif.Http.Spec Verif.Big.TextSpec

/-! ## Occurrences and splitting -/

theorem occurs_get {t s : List Nat} {c j : Nat} (h : OccursAt t (c :: s) j) : t[j]? = some c := by
  obtain ⟨-, h2⟩ := h
  have := congrArg (fun l => l[0]?) h2
  simp only [List.length_cons, List.getElem?_cons_zero] at this
  rw [List.getElem?_take_of_lt (by omega), List.getElem?_drop, Nat.add_zero] at this
  exact this

theorem noOcc {a x s : List Nat} {c : Nat} (h : c ∉ a) : ∀ j, j < a.length → ¬ OccursAt (a ++ x) (c :: s) j := by
  intro j hj ho
  have := occurs_get ho
  rw [List.getElem?_append_left hj] at this
  exact h (List.mem_of_getElem? this)

theorem free_of_notMem {a s : List Nat} {c : Nat} (h : c ∉ a) : Free (c :: s) a := by
  intro j ho
  exact h (List.mem_of_getElem? (occurs_get ho))

theorem limit_one : limit (some 1) = some 1 := rfl
theorem limit_none : limit none = none := rfl

theorem split_two {a b sep : Bytes} (hne : sep ≠ []) (hmax : (a ++ sep ++ b).length + sep.length < 2^31)
    (h : ∀ j, j < a.length → ¬ OccursAt (a ++ sep ++ b) sep j) : split (a ++ sep ++ b) sep (some 1) = .ok [a, b] := by
  obtain ⟨ps, hp, hs⟩ := C61_split_partial (a ++ sep ++ b) sep hmax hne (some 1) (by decide)
  rw [limit_one] at hs
  have : SplitsTo sep (some 1) (a ++ sep ++ b) [a, b] := .more _ _ a b [b] rfl h (.stop b) (by decide)
  rw [hp, hs.unique this]

theorem split_one {s sep : Bytes} {m : Option Int} (hm : m ≠ some 0) (hne : sep ≠ []) (hmax : s.length + sep.length < 2^31)
    (h : Free sep s) : split s sep m = .ok [s] := by
  obtain ⟨ps, hp, hs⟩ := C61_split_partial s sep hmax hne m hm
  rw [hp, hs.unique (.last _ _ h)]

theorem splitsTo_join {c : Nat} {s : List Nat} : ∀ (l : List Nat) (ls : List (List Nat)), (∀ x ∈ l :: ls, c ∉ x) →
    SplitsTo (c :: s) none (joinWith (c :: s) (l :: ls)) (l :: ls)
  | l, [], h => .last _ _ (free_of_notMem (h l (by simp)))
  | l, l' :: ls, h => by
    refine .more _ _ l (joinWith (c :: s) (l' :: ls)) _ rfl ?_ ?_ (by decide)
    · show ∀ j, j < l.length → ¬ OccursAt (l ++ (c :: s) ++ joinWith (c :: s) (l' :: ls)) (c :: s) j
      rw [List.append_assoc]
      exact noOcc (h l (by simp))
    · exact splitsTo_join l' ls (fun x hx => h x (List.mem_cons_of_mem _ hx))

theorem split_all {c : Nat} {s : List Nat} (ls : List Bytes) (hl : ls ≠ []) (h : ∀ x ∈ ls, c ∉ x)
    (hmax : (joinWith (c :: s) ls).length + (c :: s).length < 2^31) : split (joinWith (c :: s) ls) (c :: s) none = .ok ls := by
  obtain ⟨ps, hp, hs⟩ := C61_split_partial _ (c :: s) hmax (by simp) none (by decide)
  rw [limit_none] at hs
  cases ls with
  | nil => exact absurd rfl hl
  | cons l ls => rw [hp, hs.unique (splitsTo_join l ls h)]

/-- The end of the head is where its lines end. -/
theorem head_end (rest : List Nat) : ∀ (l : List Nat) (ls : List (List Nat)), (∀ x ∈ l :: ls, x ≠ [] ∧ 13 ∉ x) →
    ∀ j, j < (joinWith crlf (l :: ls)).length → ¬ OccursAt (joinWith crlf (l :: ls) ++ rest) crlf2 j
  | l, [], h => noOcc (h l (by simp)).2
  | l, l' :: ls, h => by
    intro j hj ho
    have e : joinWith crlf (l :: l' :: ls) = l ++ ([13, 10] ++ joinWith crlf (l' :: ls)) := by
      show l ++ crlf ++ _ = _
      rw [List.append_assoc]; rfl
    rw [e] at hj ho
    obtain ⟨y, ys, hy⟩ : ∃ y ys, l' = y :: ys := by
      cases l' with
      | nil => exact absurd rfl (h [] (by simp)).1
      | cons y ys => exact ⟨y, ys, rfl⟩
    have hy13 : y ≠ 13 := by
      intro he
      exact (h l' (by simp)).2 (by rw [hy, he]; simp)
    obtain ⟨z, hz⟩ : ∃ z, joinWith crlf (l' :: ls) ++ rest = y :: z := by
      cases ls with
      | nil => exact ⟨ys ++ rest, by rw [hy]; rfl⟩
      | cons a b => exact ⟨ys ++ crlf ++ joinWith crlf (a :: b) ++ rest, by rw [hy]; rfl⟩
    by_cases h1 : j < l.length
    · rw [List.append_assoc] at ho
      exact noOcc (h l (by simp)).2 j h1 ho
    have e2 : l ++ ([13, 10] ++ joinWith crlf (l' :: ls)) ++ rest = l ++ (13 :: 10 :: (joinWith crlf (l' :: ls) ++ rest)) := by
      simp
    rw [e2] at ho
    obtain ⟨k, rfl⟩ : ∃ k, j = l.length + k := ⟨j - l.length, by omega⟩
    have ho2 : OccursAt (13 :: 10 :: (joinWith crlf (l' :: ls) ++ rest)) crlf2 k := by
      have := (occurs_drop (t := l ++ (13 :: 10 :: (joinWith crlf (l' :: ls) ++ rest))) (p := crlf2) (j := l.length) (k := k)
        (by simp)).2 ho
      rwa [List.drop_left] at this
    match k, ho2 with
    | 0, ho2 =>
      rw [hz] at ho2
      have h2 := ho2.2
      simp only [crlf2, List.length_cons, List.drop_zero, List.take_succ_cons, List.cons.injEq] at h2
      exact hy13 h2.2.2.1
    | 1, ho2 =>
      have := occurs_get ho2
      simp at this
    | k + 2, ho2 =>
      have := (occurs_drop (t := 13 :: 10 :: (joinWith crlf (l' :: ls) ++ rest)) (p := crlf2) (j := 2) (k := k) (by simp)).2
        (by rwa [Nat.add_comm 2 k])
      rw [show (13 :: 10 :: (joinWith crlf (l' :: ls) ++ rest)).drop 2 = joinWith crlf (l' :: ls) ++ rest from rfl] at this
      refine head_end rest l' ls (fun x hx => h x (List.mem_cons_of_mem _ hx)) k ?_ this
      simp only [List.length_append, List.length_cons, List.length_nil] at hj
      omega

/-! ## Text -/

theorem mem_enc {c : Nat} (hc : c < 128) : ∀ {t : List Nat}, c ∈ enc t → c ∈ t
  | [], h => by simp at h
  | a :: t, h => by
    rw [enc_cons, List.mem_append] at h
    rcases h with h | h
    · unfold enc1 at h
      split at h
      · simp only [List.mem_singleton] at h; simp [h]
      · split at h
        · simp only [List.mem_cons, List.not_mem_nil, or_false] at h; omega
        · split at h
          · simp only [List.mem_cons, List.not_mem_nil, or_false] at h; omega
          · simp only [List.mem_cons, List.not_mem_nil, or_false] at h; omega
    · exact List.mem_cons_of_mem _ (mem_enc hc h)

theorem enc_ascii : ∀ {t : List Nat}, (∀ c ∈ t, c < 128) → enc t = t
  | [], _ => rfl
  | a :: t, h => by
    rw [enc_cons, enc_ascii (fun c hc => h c (List.mem_cons_of_mem _ hc))]
    unfold enc1
    rw [if_pos (h a (by simp))]; rfl

theorem take_enc1 (c : Nat) (r : List Nat) {k : Nat} (h : (enc1 c).length = k) : (enc1 c ++ r).take k = enc1 c ∧
    (enc1 c ++ r).drop k = r := by
  subst h
  exact ⟨List.take_left, List.drop_left⟩

theorem decode1_enc {c : Nat} (h : scalar c = true) (r : List Nat) : decode1 (enc1 c ++ r) = some (c, r) := by
  have hs : c < 0xD800 ∨ 0xE000 ≤ c ∧ c < 0x110000 := by
    unfold scalar at h; exact of_decide_eq_true h
  by_cases h1 : c < 0x80
  · have e : enc1 c = [c] := by unfold enc1; rw [if_pos h1]
    obtain ⟨t1, t2⟩ := take_enc1 c r (k := 1) (by rw [e]; rfl)
    unfold decode1
    simp only [t1, t2]
    rw [e]
    simp only [List.cons_append]
    rw [if_pos h1, ← e, if_pos ⟨rfl, h⟩]
  by_cases h2 : c < 0x800
  · have e : enc1 c = [0xC0 + c / 64, 0x80 + c % 64] := by unfold enc1; rw [if_neg h1, if_pos h2]
    obtain ⟨t1, t2⟩ := take_enc1 c r (k := 2) (by rw [e]; rfl)
    unfold decode1
    simp only [t1, t2]
    rw [e]
    simp only [List.cons_append, List.getD_cons_succ, List.getD_cons_zero]
    have a1 : ¬ (0xC0 + c / 64 < 0x80) := by omega
    have a2 : 0xC0 + c / 64 < 0xE0 := by omega
    have a3 : (0xC0 + c / 64 - 0xC0) * 64 + (0x80 + c % 64 - 0x80) = c := by omega
    rw [if_neg a1, if_pos a2, a3, ← e, if_pos ⟨rfl, h⟩]
  by_cases h3 : c < 0x10000
  · have e : enc1 c = [0xE0 + c / 4096, 0x80 + c / 64 % 64, 0x80 + c % 64] := by
      unfold enc1; rw [if_neg h1, if_neg h2, if_pos h3]
    obtain ⟨t1, t2⟩ := take_enc1 c r (k := 3) (by rw [e]; rfl)
    unfold decode1
    simp only [t1, t2]
    rw [e]
    simp only [List.cons_append, List.getD_cons_succ, List.getD_cons_zero]
    have a1 : ¬ (0xE0 + c / 4096 < 0x80) := by omega
    have a2 : ¬ (0xE0 + c / 4096 < 0xE0) := by omega
    have a3 : 0xE0 + c / 4096 < 0xF0 := by omega
    have a4 : (0xE0 + c / 4096 - 0xE0) * 4096 + (0x80 + c / 64 % 64 - 0x80) * 64 + (0x80 + c % 64 - 0x80) = c := by omega
    rw [if_neg a1, if_neg a2, if_pos a3, a4, ← e, if_pos ⟨rfl, h⟩]
  · have e : enc1 c = [0xF0 + c / 262144, 0x80 + c / 4096 % 64, 0x80 + c / 64 % 64, 0x80 + c % 64] := by
      unfold enc1; rw [if_neg h1, if_neg h2, if_neg h3]
    obtain ⟨t1, t2⟩ := take_enc1 c r (k := 4) (by rw [e]; rfl)
    unfold decode1
    simp only [t1, t2]
    rw [e]
    simp only [List.cons_append, List.getD_cons_succ, List.getD_cons_zero]
    have a1 : ¬ (0xF0 + c / 262144 < 0x80) := by omega
    have a2 : ¬ (0xF0 + c / 262144 < 0xE0) := by omega
    have a3 : ¬ (0xF0 + c / 262144 < 0xF0) := by omega
    have a4 : (0xF0 + c / 262144 - 0xF0) * 262144 + (0x80 + c / 4096 % 64 - 0x80) * 4096 + (0x80 + c / 64 % 64 - 0x80) * 64 +
        (0x80 + c % 64 - 0x80) = c := by omega
    rw [if_neg a1, if_neg a2, if_neg a3, a4, ← e, if_pos ⟨rfl, h⟩]

theorem decodeAll_enc : ∀ (t : List Nat) (n : Nat), (∀ c ∈ t, scalar c = true) → t.length ≤ n → decodeAll n (enc t) = some t
  | [], n, _, _ => by cases n <;> rfl
  | c :: t, 0, _, hn => by simp at hn
  | c :: t, n + 1, h, hn => by
    rw [enc_cons]
    unfold decodeAll
    have hne : enc1 c ++ enc t ≠ [] := by
      intro he
      have := congrArg List.length he
      have h2 := (enc1_length (c := c)).1
      simp only [List.length_append, List.length_nil] at this
      omega
    rw [if_neg hne, decode1_enc (h c (by simp))]
    simp only
    rw [decodeAll_enc t n (fun c hc => h c (List.mem_cons_of_mem _ hc)) (by simpa using hn)]
    rfl

theorem decode_enc {t : List Nat} (h : ∀ c ∈ t, scalar c = true ∧ c ≠ 0) : decode (enc t) = .ok t := by
  unfold decode
  have h0 : (enc t).takeWhile (· ≠ 0) = enc t := by
    rw [List.takeWhile_eq_self_iff]
    intro x hx
    have : x ≠ 0 := fun he => (h x (mem_enc (by omega) hx)).2 he
    simpa using this
  simp only [h0]
  rw [decodeAll_enc t _ (fun c hc => (h c hc).1) (length_le_enc t)]

theorem scalar_of_plain {c : Nat} (h : Plain c) : scalar c = true ∧ c ≠ 0 :=
  ⟨decide_eq_true h.1, h.2.1⟩

theorem dropWhile_rep (a : Nat) (t : List Nat) (h : t.head? ≠ some 32) :
    (List.replicate a 32 ++ t).dropWhile (fun c => decide (c = 32)) = t := by
  induction a with
  | zero =>
    cases t with
    | nil => rfl
    | cons x t =>
      have : x ≠ 32 := fun he => h (by rw [he]; rfl)
      simp [this]
  | succ a ih => rw [List.replicate_succ, List.cons_append, List.dropWhile_cons_of_pos (by simp)]; exact ih

theorem stripSp_trim {t : List Nat} (h : Trimmed t) (a b : Nat) :
    stripSp (List.replicate a 32 ++ t ++ List.replicate b 32) = t := by
  unfold stripSp
  by_cases ht : t = []
  · subst ht
    rw [List.append_nil, List.replicate_append_replicate, ← List.append_nil (List.replicate (a + b) 32),
      dropWhile_rep _ _ (by simp)]
    rfl
  rw [List.append_assoc, dropWhile_rep]
  · rw [List.reverse_append, List.reverse_replicate, dropWhile_rep]
    · rw [List.reverse_reverse]
    · rw [List.head?_reverse]; exact h.2
  · cases t with
    | nil => exact absurd rfl ht
    | cons x t => exact h.1

theorem stripSp_self {t : List Nat} (h : Trimmed t) : stripSp t = t := by
  have := stripSp_trim h 0 0
  simpa using this

theorem bind_ok {α β} (a : α) (f : α → Res β) : (Res.ok a).bind f = f a := rfl

/-- Numbers without a sign. -/
theorem toInt_number {base : Nat} {t : Text} {n : Nat} {par : Option Int} (hb : base = 10 ∨ base = 16) (h : Number base t n)
    (hm : ∀ r, t ≠ 48 :: 98 :: r ∧ t ≠ 48 :: 66 :: r) (hp : par = some (base : Int) ∨ par = none ∧ base = 10) (hn : n < 2 ^ 63) :
    toInt t par = .ok n := by
  obtain ⟨ds, h1, h2, h3, h4⟩ := h
  have hd36 : ∀ d ∈ ds, d < 16 := fun d hd => by have := h2 d hd; omega
  have ha : ∀ c ∈ t, c < 128 := by
    intro c hc
    clear h1 h2 h4 hm
    induction h3 with
    | nil => simp at hc
    | cons h _ ih =>
      rcases List.mem_cons.1 hc with rfl | hc
      · unfold IsDigit at h; omega
      · exact ih (fun d hd => hd36 d (List.mem_cons_of_mem _ hd)) hc
  unfold toInt
  rw [enc_ascii ha]
  have hN : Numeral t base false false ds := ⟨[], [], [], t, rfl, by simp, by simp, by simp, h1, h2, h3⟩
  have hset := Big.C50_parse_partial (t := t) (ds := ds) (base := base) (marked := false) (neg := false) (par := par)
    (by omega) (by omega) hN (by rcases hp with hp | ⟨hp, hb⟩; exacts [.inl hp, .inr ⟨hp, .inr hb⟩]) ?_ (by simp)
  · rw [hset, h4, if_neg (by simp)]
    have hi : InI64 (n : Int) := by unfold InI64; omega
    rw [bind_ok, if_pos hi]
  · intro _ h0 d hd
    have hd16 := hd36 d (List.mem_of_getElem? hd)
    refine ⟨?_, by omega, by omega⟩
    rintro rfl
    clear hN ha hd36 h1 h2 h4
    match t, ds, h3, h0, hd with
    | a :: b :: t, x :: y :: ds, .cons ha (.cons hb _), h0, hd =>
      simp at h0 hd
      subst h0 hd
      unfold IsDigit at ha hb
      have e1 : a = 48 := by omega
      have e2 : b = 66 ∨ b = 98 := by omega
      have := hm t
      subst e1
      rcases e2 with rfl | rfl
      · exact this.2 rfl
      · exact this.1 rfl
    | [_], [_], .cons _ .nil, _, hd => simp at hd
    | [], [], .nil, _, hd => simp at hd

end Verif.Http
