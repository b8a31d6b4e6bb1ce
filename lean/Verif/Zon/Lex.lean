import Verif.Zon.Model
/-!
# Tokens: gaps, strings, names
-/
namespace Verif.Zon

/-- The text goes on with something that ends numbers and names. -/
def Follow (r : Text) : Prop := ∀ c, r.head? = some c → numChar c = false

theorem follow_nil : Follow [] := by intro c h; cases h
theorem follow_cons {c : Char} {r : Text} (h : numChar c = false) : Follow (c :: r) := by
  intro d hd
  have := Option.some.inj hd
  rw [← this]; exact h

theorem sc_comment {t r : Text} (h : '\n' ∉ t) : sc true (t ++ '\n' :: r) = sc false r := by
  induction t with
  | nil => simp [sc]
  | cons c t ih =>
    have hc : c ≠ '\n' := fun e => h (e ▸ List.mem_cons_self)
    rw [List.cons_append, sc, if_neg hc]
    exact ih (fun e => h (List.mem_cons_of_mem _ e))

theorem sc_gap {g : Text} (h : Gap g) (r : Text) : sc false (g ++ r) = sc false r := by
  induction h with
  | nil => rfl
  | @space c g hc _ ih =>
    have : isSpace c = true := by
      simp only [List.mem_cons, List.not_mem_nil, or_false] at hc
      rcases hc with rfl | rfl | rfl | rfl <;> decide
    rw [List.cons_append, sc, if_pos this]
    exact ih
  | @comment t g ht _ ih =>
    rw [show ('/' :: '/' :: t ++ '\n' :: g) ++ r = '/' :: '/' :: (t ++ '\n' :: (g ++ r)) by simp]
    rw [sc, if_neg (by decide), if_pos ⟨rfl, rfl⟩, sc, if_neg (by decide), sc_comment ht]
    exact ih

theorem follow_gap {g : Text} (h : Gap g) {r : Text} (hr : Follow r) : Follow (g ++ r) := by
  cases h with
  | nil => exact hr
  | @space c g hc _ =>
    apply follow_cons
    simp only [List.mem_cons, List.not_mem_nil, or_false] at hc
    rcases hc with rfl | rfl | rfl | rfl <;> decide
  | @comment t g ht _ => exact follow_cons (by decide)

/-- Text that begins with a token stays. -/
theorem sc_token {c : Char} {r : Text} (h1 : isSpace c = false) (h2 : c ≠ '/') : sc false (c :: r) = c :: r := by
  rw [sc, if_neg (by simp [h1]), if_neg (fun h => h2 h.1)]

theorem many_append {p : Char → Bool} {a r : Text} (ha : ∀ c ∈ a, p c = true) (hr : ∀ c, r.head? = some c → p c = false) :
    many p (a ++ r) = (a, r) := by
  unfold many
  induction a with
  | nil =>
    cases r with
    | nil => rfl
    | cons c r => simp [hr c rfl]
  | cons c a ih =>
    have hc := ha c List.mem_cons_self
    have := ih (fun d hd => ha d (List.mem_cons_of_mem _ hd))
    simp only [Prod.mk.injEq] at this
    simp [hc, this.1, this.2]

theorem isDigit_le {c : Char} (h : c.isDigit = true) : c.toNat ≤ 57 := by
  unfold Char.isDigit at h
  simp only [Bool.and_eq_true, decide_eq_true_eq, ge_iff_le] at h
  exact UInt32.le_iff_toNat_le.1 h.2

theorem hexDigit_le {c : Char} (hc : isHex c = true) : hexDigit c ≤ 15 := by
  unfold isHex at hc
  unfold hexDigit
  by_cases hd : c.isDigit = true
  · rw [if_pos hd]
    have := isDigit_le hd
    omega
  · rw [if_neg hd]
    simp only [hd, Bool.false_or, Bool.or_eq_true, Bool.and_eq_true, decide_eq_true_eq] at hc
    by_cases ha : 'a' ≤ c
    · rw [if_pos ha]
      have ha' : 97 ≤ c.toNat := ha
      rcases hc with hc | hc
      · have : c.toNat ≤ 102 := hc.2
        omega
      · have : c.toNat ≤ 70 := hc.2
        omega
    · rw [if_neg ha]
      rcases hc with hc | hc
      · exact absurd hc.1 ha
      · have : c.toNat ≤ 70 := hc.2
        omega

/-- A piece of a string after the backslash is read. -/
theorem escape_item {i : Item} (h : i.Ok) (hp : ∀ c, i ≠ .plain c) (r : Text) :
    ∃ t, i.text = '\\' :: t ∧ escape (t ++ r) = some (i.char, r) := by
  cases i with
  | plain c => exact absurd rfl (hp c)
  | esc c =>
    refine ⟨[c], rfl, ?_⟩
    have h : c ∈ ['n', 'r', 't', '\\', '"', '\''] := h
    simp only [List.mem_cons, List.not_mem_nil, or_false] at h
    rcases h with rfl | rfl | rfl | rfl | rfl | rfl <;> simp [escape, Item.char, escChar]
  | hex a b =>
    refine ⟨['x', a, b], rfl, ?_⟩
    have h : isHex a = true ∧ isHex b = true := h
    have h1 := hexDigit_le h.1
    have h2 := hexDigit_le h.2
    rw [show ['x', a, b] ++ r = 'x' :: a :: b :: r from rfl, escape, if_neg (by decide), if_neg (by decide), if_neg (by decide),
      if_pos rfl]
    have hc : chrHex [a, b] = Char.ofNat (16 * hexDigit a + hexDigit b) := by
      have e : [a, b].foldl (fun a d => 16 * a + hexDigit d) 0 = 16 * hexDigit a + hexDigit b := by simp
      unfold chrHex
      rw [e]
      simp only
      rw [if_pos (by omega)]
    simp only [escX, h.1, h.2, Bool.and_self, if_true, hc]
    rfl
  | uni ds =>
    refine ⟨'u' :: '{' :: ds ++ ['}'], rfl, ?_⟩
    obtain ⟨h1, h2, h3⟩ : ds ≠ [] ∧ (∀ d ∈ ds, isHex d = true) ∧ ds.foldl (fun a d => 16 * a + hexDigit d) 0 ≤ 0x10FFFF := h
    have e : 'u' :: '{' :: ds ++ ['}'] ++ r = 'u' :: '{' :: (ds ++ '}' :: r) := by simp
    rw [e, escape, if_neg (by decide), if_neg (by decide), if_neg (by decide), if_neg (by decide), if_pos rfl]
    simp only [escU]
    rw [many_append h2 (by intro c hc; have := Option.some.inj hc; rw [← this]; decide)]
    obtain ⟨d, ds', rfl⟩ := List.exists_cons_of_ne_nil h1
    simp only [chrHex, Item.char]
    rw [if_pos h3]

theorem item_text_pos (i : Item) : 1 ≤ i.text.length := by
  cases i <;> simp [Item.text]

/-- A string is read to its end. -/
theorem strRaw_items {is : List Item} (h : ∀ i ∈ is, i.Ok) (r : Text) : ∀ n, (texts is).length < n →
    strRaw n (texts is ++ '"' :: r) = some (is.map Item.char, r) := by
  induction is with
  | nil =>
    intro n hn
    obtain ⟨n, rfl⟩ : ∃ m, n = m + 1 := ⟨n - 1, by omega⟩
    simp [texts, strRaw]
  | cons i is ih =>
    intro n hn
    have ht : texts (i :: is) = i.text ++ texts is := rfl
    rw [ht] at hn ⊢
    rw [List.length_append] at hn
    have hp := item_text_pos i
    obtain ⟨n, rfl⟩ : ∃ m, n = m + 1 := ⟨n - 1, by omega⟩
    have hi := h i List.mem_cons_self
    have ih' := ih (fun j hj => h j (List.mem_cons_of_mem _ hj)) n (by omega)
    by_cases hpl : ∃ c, i = .plain c
    · obtain ⟨c, rfl⟩ := hpl
      obtain ⟨h1, h2, h3⟩ : c ≠ '"' ∧ c ≠ '\\' ∧ c ≠ '\n' := hi
      simp only [Item.text, List.cons_append, List.nil_append, strRaw]
      rw [if_neg h1, if_neg h2, if_neg h3, ih']
      rfl
    · obtain ⟨t, he, hr⟩ := escape_item hi (fun c hc => hpl ⟨c, hc⟩) (texts is ++ '"' :: r)
      rw [he, List.append_assoc, List.cons_append, strRaw, if_neg (by decide), if_pos rfl, hr]
      simp only
      rw [ih']
      rfl

/-- `true` and the like are not read as numbers, numbers not as keywords. -/
theorem isIdent_of_numChar {c : Char} (h : numChar c = false) : isIdent c = false := by
  unfold numChar at h
  unfold isIdent
  simp only [Bool.or_eq_false_iff, decide_eq_false_iff_not] at h ⊢
  exact ⟨h.1.1.1.1, h.1.1.2⟩

/-- A name is read to its end. -/
theorem fieldName_name {n t : Text} (h : Name n t) {r : Text} (hr : Follow r) : fieldName (t ++ r) = some (n, r) := by
  cases h with
  | @bare c cs hc hcs =>
    have hne : c ≠ '@' := by
      rintro rfl
      revert hc; decide
    have hs := many_append hcs (r := r) (fun d hd => isIdent_of_numChar (hr d hd))
    rw [List.cons_append]
    unfold fieldName
    split
    · rename_i heq; exact absurd (List.cons.inj heq).1 hne
    · rename_i c' r' _ heq
      obtain ⟨rfl, rfl⟩ := List.cons.inj heq
      rw [if_pos hc, hs]
    · rename_i heq; cases heq
  | @quoted is his =>
    have e : ('@' :: '"' :: texts is ++ ['"']) ++ r = '@' :: '"' :: (texts is ++ '"' :: r) := by simp
    rw [e]
    show strRaw _ _ = _
    exact strRaw_items his r _ (by simp; omega)

/-- Names begin with a letter, an underscore or `@`. -/
theorem name_head {n t : Text} (h : Name n t) : ∃ c t', t = c :: t' ∧ c ≠ '{' := by
  cases h with
  | @bare c cs hc hcs => exact ⟨c, cs, rfl, by rintro rfl; revert hc; decide⟩
  | @quoted is his => exact ⟨'@', _, rfl, by decide⟩

end Verif.Zon
