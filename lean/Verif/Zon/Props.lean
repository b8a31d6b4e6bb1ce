import Verif.Zon.Lex
/-!
# C171, C172: the reader of build.zig.zon reads values and strings
-/
namespace Verif.Zon

/-- A character that can begin a value. -/
def Begins (c : Char) : Prop := isSpace c = false ∧ c ≠ '/' ∧ c ≠ '}' ∧ c ≠ ','

/-- What the parser does with a text of the grammar. -/
def Reads : Thing → Text → Prop
  | .value v, s => (∃ c s', s = c :: s' ∧ Begins c) ∧
      (∀ r, Follow r → (sc false r).head? ≠ some '=' → fieldHead (s ++ r) = false) ∧
      ∀ r n, Follow r → s.length ≤ n → value n (s ++ r) = some (v, sc false r)
  | .fields fs, s => (∃ s', s = '.' :: s') ∧ (∀ r, fieldHead (s ++ r) = true) ∧
      ∀ r n, s.length ≤ n → fields n (s ++ '}' :: r) = some (fs, '}' :: r)
  | .elems vs, s => (∃ c s', s = c :: s' ∧ Begins c) ∧
      (∀ r, fieldHead (s ++ '}' :: r) = false) ∧
      ∀ r n, s.length < n → elems n (s ++ '}' :: r) = some (vs, '}' :: r)

theorem sc_brace (r : Text) : sc false ('}' :: r) = '}' :: r := sc_token (by decide) (by decide)
theorem sc_comma (r : Text) : sc false (',' :: r) = ',' :: r := sc_token (by decide) (by decide)
theorem sc_eq (r : Text) : sc false ('=' :: r) = '=' :: r := sc_token (by decide) (by decide)

/-- A value that does not begin with a dot or a quote is read by `plain`. -/
theorem value_plain {n : Nat} {c : Char} {s : Text} (h1 : c ≠ '.') (h2 : c ≠ '"') : value (n + 1) (c :: s) = plain (c :: s) := by
  rw [value]
  · intro r h; exact h1 (List.cons.inj h).1
  · intro r h; exact h1 (List.cons.inj h).1
  · intro r h; exact h2 (List.cons.inj h).1

theorem fieldHead_other {c : Char} {s : Text} (h : c ≠ '.') : fieldHead (c :: s) = false := by
  unfold fieldHead
  split
  · rename_i heq; exact absurd (List.cons.inj heq).1 h
  · rfl

theorem keyword_ok {w r : Text} (hr : Follow r) : keyword w (w ++ r) = some (sc false r) := by
  unfold keyword
  rw [if_pos (List.prefix_append _ _), List.drop_left]
  cases r with
  | nil => rfl
  | cons c r =>
    simp only
    rw [if_neg (by rw [isIdent_of_numChar (hr c rfl)]; decide)]

theorem keyword_head {c d : Char} {w s : Text} (h : c ≠ d) : keyword (d :: w) (c :: s) = none := by
  unfold keyword
  rw [if_neg (fun hp => h ((List.cons_prefix_cons.1 hp).1.symm))]

/-- Numbers. -/
theorem plain_num {c : Char} {cs : Text} (hc : (c.isDigit || c = '-' || c = '+') = true) (hcs : ∀ d ∈ cs, numChar d = true)
    {r : Text} (hr : Follow r) : plain (c :: cs ++ r) = some (.num (c :: cs), sc false r) := by
  have hk : ∀ d, (d.isDigit || d = '-' || d = '+') = false → c ≠ d := by
    rintro d hd rfl
    rw [hc] at hd; cases hd
  rw [List.cons_append]
  unfold plain
  rw [keyword_head (hk 't' (by decide)), keyword_head (hk 'f' (by decide)), keyword_head (hk 'n' (by decide))]
  simp only
  rw [if_pos hc, many_append hcs hr]

theorem num_begins {c : Char} (hc : (c.isDigit || c = '-' || c = '+') = true) : Begins c ∧ c ≠ '.' ∧ c ≠ '"' := by
  have hk : ∀ d, (d.isDigit || d = '-' || d = '+') = false → c ≠ d := by
    rintro d hd rfl
    rw [hc] at hd; cases hd
  refine ⟨⟨?_, hk _ (by decide), hk _ (by decide), hk _ (by decide)⟩, hk _ (by decide), hk _ (by decide)⟩
  cases hs : isSpace c with
  | false => rfl
  | true =>
    exfalso
    unfold isSpace at hs
    simp only [Bool.or_eq_true, Bool.and_eq_true, decide_eq_true_eq] at hs hc
    rcases hs with rfl | hs
    · revert hc; decide
    · rcases hc with (hc | rfl) | rfl
      · unfold Char.isDigit at hc
        simp only [Bool.and_eq_true, decide_eq_true_eq, ge_iff_le] at hc
        have : 48 ≤ c.toNat := UInt32.le_iff_toNat_le.1 hc.1
        omega
      · revert hs; decide
      · revert hs; decide

/-- A struct or an array, after the brace and the gap. -/
theorem value_struct {n : Nat} {g s r : Text} {fs : List (Text × Z)} (hg : Gap g) (h : Reads (.fields fs) s) (hn : s.length ≤ n) :
    value (n + 1) ('.' :: '{' :: g ++ s ++ ['}'] ++ r) = some (.struct fs, sc false r) := by
  obtain ⟨⟨s', rfl⟩, h2, h3⟩ := h
  have e : '.' :: '{' :: g ++ '.' :: s' ++ ['}'] ++ r = '.' :: '{' :: (g ++ ('.' :: s' ++ '}' :: r)) := by simp
  have e1 : sc false (g ++ ('.' :: s' ++ '}' :: r)) = '.' :: s' ++ '}' :: r := by
    rw [sc_gap hg]; exact sc_token (by decide) (by decide)
  rw [e, value]
  simp only [e1]
  split
  · rename_i heq; exact absurd (List.cons.inj heq).1 (by decide)
  · rw [if_pos (h2 _), h3 r n hn]
    rfl

theorem value_array {n : Nat} {g s r : Text} {vs : List Z} (hg : Gap g) (h : Reads (.elems vs) s) (hn : s.length < n) :
    value (n + 1) ('.' :: '{' :: g ++ s ++ ['}'] ++ r) = some (.array vs, sc false r) := by
  obtain ⟨⟨c, s', rfl, hb⟩, h2, h3⟩ := h
  have e : '.' :: '{' :: g ++ c :: s' ++ ['}'] ++ r = '.' :: '{' :: (g ++ (c :: s' ++ '}' :: r)) := by simp
  have e1 : sc false (g ++ (c :: s' ++ '}' :: r)) = c :: s' ++ '}' :: r := by
    rw [sc_gap hg]; exact sc_token hb.1 hb.2.1
  rw [e, value]
  simp only [e1]
  split
  · rename_i heq; exact absurd (List.cons.inj heq).1 hb.2.2.1
  · rw [if_neg (by rw [h2]; decide), h3 r n hn]
    rfl

/-- The beginning of a field. -/
theorem fieldHead_field {n t g r : Text} (hn : Name n t) (hg : Gap g) : fieldHead ('.' :: t ++ g ++ '=' :: r) = true := by
  have e : '.' :: t ++ g ++ '=' :: r = '.' :: (t ++ (g ++ '=' :: r)) := by simp
  rw [e]
  unfold fieldHead
  simp only
  rw [fieldName_name hn (follow_gap hg (follow_cons (by decide)))]
  simp only
  rw [sc_gap hg, sc_eq]
  rfl

/-- A field up to its value. -/
theorem fields_field {k : Nat} {n t g1 g2 s g3 r : Text} {v : Z} (hn : Name n t) (h1 : Gap g1) (h2 : Gap g2)
    (hv : Reads (.value v) s) (h3 : Gap g3) (hr : Follow r) (hk : s.length ≤ k) :
    fieldName (t ++ g1 ++ '=' :: g2 ++ s ++ g3 ++ r) = some (n, g1 ++ '=' :: g2 ++ s ++ g3 ++ r) ∧
    sc false (g1 ++ '=' :: g2 ++ s ++ g3 ++ r) = '=' :: (g2 ++ s ++ g3 ++ r) ∧
    value k (sc false (g2 ++ s ++ g3 ++ r)) = some (v, sc false r) := by
  obtain ⟨⟨c, s', rfl, hb⟩, -, h5⟩ := hv
  refine ⟨?_, ?_, ?_⟩
  · have e : t ++ g1 ++ '=' :: g2 ++ c :: s' ++ g3 ++ r = t ++ (g1 ++ '=' :: (g2 ++ c :: s' ++ g3 ++ r)) := by simp
    rw [e, fieldName_name hn (follow_gap h1 (follow_cons (by decide)))]
    simp
  · have e : g1 ++ '=' :: g2 ++ c :: s' ++ g3 ++ r = g1 ++ '=' :: (g2 ++ c :: s' ++ g3 ++ r) := by simp
    rw [e, sc_gap h1, sc_eq]
  · have e : g2 ++ c :: s' ++ g3 ++ r = g2 ++ (c :: (s' ++ (g3 ++ r))) := by simp
    rw [e, sc_gap h2, sc_token hb.1 hb.2.1]
    have := h5 (g3 ++ r) k (follow_gap h3 hr) hk
    rw [sc_gap h3] at this
    simpa using this

/-- Every text of the grammar is read. -/
theorem reads {th : Thing} {s : Text} (h : Gr th s) : Reads th s := by
  induction h with
  | @str is his =>
    refine ⟨⟨'"', _, rfl, by decide, by decide, by decide, by decide⟩, fun r _ _ => fieldHead_other (by decide), ?_⟩
    intro r n hr hn
    obtain ⟨n, rfl⟩ : ∃ m, n = m + 1 := ⟨n - 1, by simp at hn; omega⟩
    have e : '"' :: texts is ++ ['"'] ++ r = '"' :: (texts is ++ '"' :: r) := by simp
    rw [e, value, strRaw_items his r _ (by simp; omega)]
    rfl
  | @enum m t hm =>
    obtain ⟨c, t', ht, hc⟩ := name_head hm
    refine ⟨⟨'.', _, rfl, by decide, by decide, by decide, by decide⟩, ?_, ?_⟩
    · intro r hr he
      rw [List.cons_append]
      unfold fieldHead
      simp only
      rw [fieldName_name hm hr]
      simpa using he
    · intro r n hr hn
      obtain ⟨n, rfl⟩ : ∃ m, n = m + 1 := ⟨n - 1, by simp at hn; omega⟩
      rw [List.cons_append, value, fieldName_name hm hr]
      · rfl
      · intro r' h'
        rw [ht] at h'
        exact hc (List.cons.inj h').1
  | tru =>
    refine ⟨⟨'t', _, rfl, by decide, by decide, by decide, by decide⟩, fun r _ _ => fieldHead_other (by decide), ?_⟩
    intro r n hr hn
    obtain ⟨n, rfl⟩ : ∃ m, n = m + 1 := ⟨n - 1, by simp at hn; omega⟩
    have hk := keyword_ok (w := ['t', 'r', 'u', 'e']) hr
    rw [show ['t', 'r', 'u', 'e'] ++ r = 't' :: ('r' :: 'u' :: 'e' :: r) from rfl] at hk ⊢
    rw [value_plain (by decide) (by decide), plain, hk]
  | fls =>
    refine ⟨⟨'f', _, rfl, by decide, by decide, by decide, by decide⟩, fun r _ _ => fieldHead_other (by decide), ?_⟩
    intro r n hr hn
    obtain ⟨n, rfl⟩ : ∃ m, n = m + 1 := ⟨n - 1, by simp at hn; omega⟩
    have hk := keyword_ok (w := ['f', 'a', 'l', 's', 'e']) hr
    rw [show ['f', 'a', 'l', 's', 'e'] ++ r = 'f' :: ('a' :: 'l' :: 's' :: 'e' :: r) from rfl] at hk ⊢
    rw [value_plain (by decide) (by decide), plain, keyword_head (by decide), hk]
  | null =>
    refine ⟨⟨'n', _, rfl, by decide, by decide, by decide, by decide⟩, fun r _ _ => fieldHead_other (by decide), ?_⟩
    intro r n hr hn
    obtain ⟨n, rfl⟩ : ∃ m, n = m + 1 := ⟨n - 1, by simp at hn; omega⟩
    have hk := keyword_ok (w := ['n', 'u', 'l', 'l']) hr
    rw [show ['n', 'u', 'l', 'l'] ++ r = 'n' :: ('u' :: 'l' :: 'l' :: r) from rfl] at hk ⊢
    rw [value_plain (by decide) (by decide), plain, keyword_head (by decide), keyword_head (by decide), hk]
  | @num c cs hc hcs =>
    obtain ⟨hb, h1, h2⟩ := num_begins hc
    refine ⟨⟨c, cs, rfl, hb⟩, fun r _ _ => fieldHead_other h1, ?_⟩
    intro r n hr hn
    obtain ⟨n, rfl⟩ : ∃ m, n = m + 1 := ⟨n - 1, by simp at hn; omega⟩
    rw [List.cons_append, value_plain h1 h2]
    exact plain_num hc hcs hr
  | @empty g hg =>
    refine ⟨⟨'.', _, rfl, by decide, by decide, by decide, by decide⟩, fun r _ _ => ?_, ?_⟩
    · simp [fieldHead, fieldName]
    · intro r n hr hn
      obtain ⟨n, rfl⟩ : ∃ m, n = m + 1 := ⟨n - 1, by simp at hn; omega⟩
      have e : '.' :: '{' :: g ++ ['}'] ++ r = '.' :: '{' :: (g ++ '}' :: r) := by simp
      have e1 : sc false (g ++ '}' :: r) = '}' :: r := by rw [sc_gap hg, sc_brace]
      rw [e, value]
      simp only [e1]
  | @struct g fs t hg _ ih =>
    refine ⟨⟨'.', _, rfl, by decide, by decide, by decide, by decide⟩, fun r _ _ => ?_, ?_⟩
    · simp [fieldHead, fieldName]
    · intro r n hr hn
      obtain ⟨n, rfl⟩ : ∃ m, n = m + 1 := ⟨n - 1, by simp at hn; omega⟩
      exact value_struct hg ih (by simp at hn; omega)
  | @array g vs t hg _ ih =>
    refine ⟨⟨'.', _, rfl, by decide, by decide, by decide, by decide⟩, fun r _ _ => ?_, ?_⟩
    · simp [fieldHead, fieldName]
    · intro r n hr hn
      obtain ⟨n, rfl⟩ : ∃ m, n = m + 1 := ⟨n - 1, by simp at hn; omega⟩
      exact value_array hg ih (by simp at hn; omega)
  | @field m t g1 g2 v s g3 hm h1 h2 _ h3 ih =>
    refine ⟨⟨_, rfl⟩, fun r => ?_, ?_⟩
    · have := fieldHead_field (r := g2 ++ s ++ g3 ++ r) hm h1
      simpa using this
    · intro r n hn
      obtain ⟨n, rfl⟩ : ∃ m, n = m + 1 := ⟨n - 1, by simp at hn; omega⟩
      obtain ⟨f1, f2, f3⟩ := fields_field (k := n) (r := '}' :: r) hm h1 h2 ih h3 (follow_cons (by decide)) (by simp at hn; omega)
      have e : '.' :: t ++ g1 ++ '=' :: g2 ++ s ++ g3 ++ '}' :: r = '.' :: (t ++ g1 ++ '=' :: g2 ++ s ++ g3 ++ '}' :: r) := by simp
      rw [sc_brace] at f3
      rw [e, fields]
      simp only [f1, f2, f3]
      rfl
  | @fieldComma m t g1 g2 v s g3 g4 hm h1 h2 _ h3 h4 ih =>
    refine ⟨⟨_, rfl⟩, fun r => ?_, ?_⟩
    · have := fieldHead_field (r := g2 ++ s ++ g3 ++ ',' :: g4 ++ r) hm h1
      simpa using this
    · intro r n hn
      obtain ⟨n, rfl⟩ : ∃ m, n = m + 1 := ⟨n - 1, by simp at hn; omega⟩
      obtain ⟨f1, f2, f3⟩ := fields_field (k := n) (r := ',' :: (g4 ++ '}' :: r)) hm h1 h2 ih h3 (follow_cons (by decide)) (by simp at hn; omega)
      have e : '.' :: t ++ g1 ++ '=' :: g2 ++ s ++ g3 ++ ',' :: g4 ++ '}' :: r =
          '.' :: (t ++ g1 ++ '=' :: g2 ++ s ++ g3 ++ ',' :: (g4 ++ '}' :: r)) := by simp
      rw [sc_comma] at f3
      have f4 : sc false (g4 ++ '}' :: r) = '}' :: r := by rw [sc_gap h4, sc_brace]
      rw [e, fields]
      simp only [f1, f2, f3, f4]
  | @fieldCons m t g1 g2 v s g3 g4 fs u hm h1 h2 _ h3 h4 _ ih ih' =>
    refine ⟨⟨_, rfl⟩, fun r => ?_, ?_⟩
    · have := fieldHead_field (r := g2 ++ s ++ g3 ++ ',' :: g4 ++ u ++ r) hm h1
      simpa using this
    · intro r n hn
      obtain ⟨n, rfl⟩ : ∃ m, n = m + 1 := ⟨n - 1, by simp at hn; omega⟩
      obtain ⟨⟨u', rfl⟩, -, i3⟩ := ih'
      obtain ⟨f1, f2, f3⟩ := fields_field (k := n) (r := ',' :: (g4 ++ ('.' :: u' ++ '}' :: r))) hm h1 h2 ih h3
        (follow_cons (by decide)) (by simp at hn; omega)
      have e : '.' :: t ++ g1 ++ '=' :: g2 ++ s ++ g3 ++ ',' :: g4 ++ '.' :: u' ++ '}' :: r =
          '.' :: (t ++ g1 ++ '=' :: g2 ++ s ++ g3 ++ ',' :: (g4 ++ ('.' :: u' ++ '}' :: r))) := by simp
      rw [sc_comma] at f3
      have f4 : sc false (g4 ++ ('.' :: u' ++ '}' :: r)) = '.' :: u' ++ '}' :: r := by
        rw [sc_gap h4]; exact sc_token (by decide) (by decide)
      have f5 := i3 r n (by simp at hn ⊢; omega)
      rw [e, fields]
      simp only [f1, f2, f3, f4]
      split
      · rename_i heq; exact absurd (List.cons.inj heq).1 (by decide)
      · rw [f5]; rfl
  | @elem v s g3 _ h3 ih =>
    obtain ⟨⟨c, s', rfl, hb⟩, i2, i3⟩ := ih
    refine ⟨⟨c, _, rfl, hb⟩, fun r => ?_, ?_⟩
    · have := i2 (g3 ++ '}' :: r) (follow_gap h3 (follow_cons (by decide))) (by rw [sc_gap h3, sc_brace]; simp)
      simpa using this
    · intro r n hn
      obtain ⟨n, rfl⟩ : ∃ m, n = m + 1 := ⟨n - 1, by simp at hn; omega⟩
      have f3 := i3 (g3 ++ '}' :: r) n (follow_gap h3 (follow_cons (by decide))) (by simp at hn ⊢; omega)
      rw [sc_gap h3, sc_brace] at f3
      have e : c :: s' ++ g3 ++ '}' :: r = c :: s' ++ (g3 ++ '}' :: r) := by simp
      rw [e, elems]
      simp only [f3]
      rfl
  | @elemComma v s g3 g4 _ h3 h4 ih =>
    obtain ⟨⟨c, s', rfl, hb⟩, i2, i3⟩ := ih
    refine ⟨⟨c, _, rfl, hb⟩, fun r => ?_, ?_⟩
    · have := i2 (g3 ++ ',' :: (g4 ++ '}' :: r)) (follow_gap h3 (follow_cons (by decide))) (by rw [sc_gap h3, sc_comma]; simp)
      simpa using this
    · intro r n hn
      obtain ⟨n, rfl⟩ : ∃ m, n = m + 1 := ⟨n - 1, by simp at hn; omega⟩
      have f3 := i3 (g3 ++ ',' :: (g4 ++ '}' :: r)) n (follow_gap h3 (follow_cons (by decide))) (by simp at hn ⊢; omega)
      rw [sc_gap h3, sc_comma] at f3
      have e : c :: s' ++ g3 ++ ',' :: g4 ++ '}' :: r = c :: s' ++ (g3 ++ ',' :: (g4 ++ '}' :: r)) := by simp
      have f4 : sc false (g4 ++ '}' :: r) = '}' :: r := by rw [sc_gap h4, sc_brace]
      rw [e, elems]
      simp only [f3, f4]
  | @elemCons v s g3 g4 vs u _ h3 h4 _ ih ih' =>
    obtain ⟨⟨c, s', rfl, hb⟩, i2, i3⟩ := ih
    obtain ⟨⟨d, u', rfl, hd⟩, -, j3⟩ := ih'
    refine ⟨⟨c, _, rfl, hb⟩, fun r => ?_, ?_⟩
    · have := i2 (g3 ++ ',' :: (g4 ++ (d :: u' ++ '}' :: r))) (follow_gap h3 (follow_cons (by decide))) (by rw [sc_gap h3, sc_comma]; simp)
      simpa using this
    · intro r n hn
      obtain ⟨n, rfl⟩ : ∃ m, n = m + 1 := ⟨n - 1, by simp at hn; omega⟩
      have f3 := i3 (g3 ++ ',' :: (g4 ++ (d :: u' ++ '}' :: r))) n (follow_gap h3 (follow_cons (by decide))) (by simp at hn ⊢; omega)
      rw [sc_gap h3, sc_comma] at f3
      have e : c :: s' ++ g3 ++ ',' :: g4 ++ d :: u' ++ '}' :: r = c :: s' ++ (g3 ++ ',' :: (g4 ++ (d :: u' ++ '}' :: r))) := by simp
      have f4 : sc false (g4 ++ (d :: u' ++ '}' :: r)) = d :: u' ++ '}' :: r := by
        rw [sc_gap h4]; exact sc_token hd.1 hd.2.1
      have f5 := j3 r n (by simp at hn ⊢; omega)
      rw [e, elems]
      simp only [f3, f4]
      split
      · rename_i heq; exact absurd (List.cons.inj heq).1 hd.2.2.1
      · rw [f5]; rfl

/-- A comment up to the end of the text. -/
theorem sc_tail {t : Text} (h : '\n' ∉ t) : sc true t = [] := by
  induction t with
  | nil => rfl
  | cons c t ih =>
    have hc : c ≠ '\n' := fun e => h (e ▸ List.mem_cons_self)
    rw [sc, if_neg hc]
    exact ih (fun e => h (List.mem_cons_of_mem _ e))

/-- What may stand after the last token: a gap, and a comment without the end of its line. -/
inductive Tail : Text → Prop
  | gap {g} : Gap g → Tail g
  | comment {g t} : Gap g → '\n' ∉ t → Tail (g ++ '/' :: '/' :: t)

theorem sc_tail_nil {t : Text} (h : Tail t) : sc false t = [] ∧ Follow t := by
  cases h with
  | gap h =>
    have h1 := sc_gap h []
    have h2 := follow_gap h follow_nil
    rw [List.append_nil] at h1 h2
    exact ⟨h1, h2⟩
  | @comment g t h ht =>
    refine ⟨?_, follow_gap h (follow_cons (by decide))⟩
    rw [sc_gap h, sc, if_neg (by decide), if_pos ⟨rfl, rfl⟩, sc, if_neg (by decide), sc_tail ht]

/-- No value begins with a byte order mark. -/
theorem gr_head {th : Thing} {s : Text} (h : Gr th s) : s.head? ≠ some (Char.ofNat 0xFEFF) := by
  induction h with
  | num hc _ =>
    intro e
    have := Option.some.inj e
    subst this
    revert hc; decide
  | elem hv _ ih =>
    obtain ⟨⟨c, s', rfl, -⟩, -⟩ := reads hv
    exact ih
  | elemComma hv _ _ ih =>
    obtain ⟨⟨c, s', rfl, -⟩, -⟩ := reads hv
    exact ih
  | elemCons hv _ _ _ ih _ =>
    obtain ⟨⟨c, s', rfl, -⟩, -⟩ := reads hv
    exact ih
  | _ => intro e; have := Option.some.inj e; revert this; decide

theorem drop_bom (k : Nat) {t : Text} (ht : t.head? ≠ some (Char.ofNat 0xFEFF)) :
    (List.replicate k (Char.ofNat 0xFEFF) ++ t).dropWhile (· = Char.ofNat 0xFEFF) = t := by
  induction k with
  | zero =>
    cases t with
    | nil => rfl
    | cons x t =>
      have : x ≠ Char.ofNat 0xFEFF := fun e => ht (by rw [e]; rfl)
      rw [List.replicate_zero, List.nil_append, List.dropWhile_cons_of_neg (by simpa using this)]
  | succ k ih =>
    rw [List.replicate_succ, List.cons_append, List.dropWhile_cons_of_pos (by simp)]
    exact ih

/-- **C171** Every text of a value is read as that value, with any spaces and comments around and
inside, and with byte order marks at the beginning. -/
theorem C171 {v : Z} {s g1 g2 : Text} (h : Gr (.value v) s) (h1 : Gap g1) (h2 : Tail g2) (k : Nat) :
    parseZon (List.replicate k (Char.ofNat 0xFEFF) ++ (g1 ++ (s ++ g2))) = some v := by
  have h4 := gr_head h
  obtain ⟨⟨c, s', rfl, hb⟩, -, h5⟩ := reads h
  have ht : (g1 ++ (c :: s' ++ g2)).head? ≠ some (Char.ofNat 0xFEFF) := by
    cases h1 with
    | nil => exact h4
    | space hc _ =>
      intro e
      have := Option.some.inj e
      subst this
      revert hc; decide
    | comment _ _ =>
      intro e
      have := Option.some.inj e
      revert this; decide
  obtain ⟨t1, t2⟩ := sc_tail_nil h2
  have e1 : sc false (g1 ++ (c :: s' ++ g2)) = c :: s' ++ g2 := by
    rw [sc_gap h1]; exact sc_token hb.1 hb.2.1
  unfold parseZon
  rw [drop_bom k ht]
  simp only [e1]
  rw [h5 g2 _ t2 (by simp; omega), t1]

/-- A manifest with a comment, an array, a quoted name and a struct. -/
theorem sample : Gr (.value (.struct [("a-b".toList, .array [.str "x\n".toList, .enum "y".toList]), ("n".toList, .struct [])]))
    ".{ .@\"a-b\" = .{\"x\\n\", .y}, // c\n .n = .{}, }".toList := by
  have sp : Gap [' '] := .space (by decide) .nil
  have q : Name "a-b".toList ("@\"a-b\"".toList) :=
    .quoted (is := [.plain 'a', .plain '-', .plain 'b']) (by simp [Item.Ok])
  have x : Gr (.value (.str "x\n".toList)) "\"x\\n\"".toList := .str (is := [.plain 'x', .esc 'n']) (by simp [Item.Ok])
  have y : Gr (.value (.enum "y".toList)) ".y".toList := .enum (.bare (by decide) (by simp))
  have a : Gr (.value (.array [.str "x\n".toList, .enum "y".toList])) ".{\"x\\n\", .y}".toList :=
    .array .nil (.elemCons x .nil sp (.elem y .nil))
  have e : Gr (.value (.struct [])) ".{}".toList := .empty .nil
  have c : Gap " // c\n ".toList := .space (by decide) (.comment (t := [' ', 'c']) (by decide) sp)
  exact .struct sp (.fieldCons q sp sp a .nil c
    (.fieldComma (.bare (c := 'n') (cs := []) (by decide) (by simp)) sp sp e .nil sp))

example : parseZon ("// head\n".toList ++ (".{ .@\"a-b\" = .{\"x\\n\", .y}, // c\n .n = .{}, }".toList ++ " // end".toList)) =
    some (.struct [("a-b".toList, .array [.str "x\n".toList, .enum "y".toList]), ("n".toList, .struct [])]) :=
  C171 sample (.comment (t := " head".toList) (by decide) .nil)
    (.comment (g := [' ']) (t := " end".toList) (.space (by decide) .nil) (by decide)) 0

/-- The grammar is not ambiguous. -/
theorem C171_unique {v w : Z} {s : Text} (h : Gr (.value v) s) (h' : Gr (.value w) s) : v = w := by
  have a := C171 h .nil (.gap .nil) 0
  have b := C171 h' .nil (.gap .nil) 0
  rw [a] at b
  exact Option.some.inj b

/-- The bytes of a text in UTF-8. -/
def utf8 (s : Text) : List UInt8 := s.flatMap String.utf8EncodeChar

/-- The escapes `\xNN` of a string stand for characters of ASCII. -/
def HexAscii (is : List Item) : Prop := ∀ i ∈ is, ∀ a b, i = .hex a b → 16 * hexDigit a + hexDigit b < 128

theorem utf8_ascii {n : Nat} (h : n < 128) : String.utf8EncodeChar (Char.ofNat n) = [UInt8.ofNat n] := by
  have : ∀ m : Fin 128, String.utf8EncodeChar (Char.ofNat m.1) = [UInt8.ofNat m.1] := by decide +kernel
  exact this ⟨n, h⟩

/-- **C172** (partial) A string is read as the string that Zig reads, as bytes; missing: escapes
`\xNN` of 128 and above, see `C172_refuted`. -/
theorem C172_partial {is : List Item} (h : ∀ i ∈ is, i.Ok) (hx : HexAscii is) :
    ∃ s, parseZon ('"' :: texts is ++ ['"']) = some (.str s) ∧ utf8 s = is.flatMap Item.bytes := by
  refine ⟨is.map Item.char, ?_, ?_⟩
  · have := C171 (.str h) .nil (.gap .nil) 0
    simpa using this
  · clear h
    unfold utf8
    induction is with
    | nil => rfl
    | cons i is ih =>
      have hi : String.utf8EncodeChar i.char = i.bytes := by
        cases i with
        | hex a b => exact utf8_ascii (hx _ List.mem_cons_self a b rfl)
        | _ => rfl
      rw [List.map_cons, List.flatMap_cons, List.flatMap_cons, hi, ih (fun j hj => hx j (List.mem_cons_of_mem _ hj))]

example : ∃ s, parseZon "\"a\\x41\\u{e9}\\n\"".toList = some (.str s) ∧ utf8 s = [97, 65, 0xc3, 0xa9, 10] :=
  C172_partial (is := [.plain 'a', .hex '4' '1', .uni ['e', '9'], .esc 'n'])
    (by simp [Item.Ok]; decide) (by
      intro i hi a b e
      subst e
      simp only [List.mem_cons, Item.hex.injEq, reduceCtorEq, List.not_mem_nil, or_false, false_or] at hi
      obtain ⟨rfl, rfl⟩ := hi
      decide)

/-- `\xc3\xa9` is one `é` for Zig; here it is two characters. -/
theorem C172_refuted : ∃ is : List Item, (∀ i ∈ is, i.Ok) ∧ is.flatMap Item.bytes = utf8 ['é'] ∧
    parseZon ('"' :: texts is ++ ['"']) = some (.str ['Ã', '©']) := by
  have hok : ∀ i ∈ [Item.hex 'c' '3', Item.hex 'a' '9'], i.Ok := by
    intro i hi
    simp only [List.mem_cons, List.not_mem_nil, or_false] at hi
    rcases hi with rfl | rfl <;> exact ⟨by decide, by decide⟩
  refine ⟨_, hok, by decide +kernel, ?_⟩
  have := C171 (.str hok) .nil (.gap .nil) 0
  have e : [Item.hex 'c' '3', Item.hex 'a' '9'].map Item.char = ['Ã', '©'] := by decide +kernel
  rw [e] at this
  simpa using this

end Verif.Zon
