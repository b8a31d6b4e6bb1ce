import Verif.Common
/-!
# Parsing of URIs (C149): class `URI` of base/src/uri.act

Strings are lists of code points (none of them NUL), with `find`, `split`, `startswith` and slices by what C09 to C11 prove of them.
Parameters: `alpha`, whether a code point is a letter (`str.isalpha`), and `toInt`, what `int` makes of a text (`none` is
ValueError).
-/
namespace Verif.Uri.Parse

abbrev Text := List Nat

/-- `s.find(c)` for one character; `none` is -1. -/
def find (s : Text) (c : Nat) : Option Nat := s.findIdx? (· == c)

/-- The attributes of `URI` (uri.act:82-88). -/
structure Uri where
  scheme : Option Text
  authority : Option Text
  host : Option Text
  port : Option Int
  path : Option Text
  query : Option Text
  fragment : Option Text
deriving DecidableEq

section
variable (alpha : Nat → Bool) (toInt : Text → Option Int)

/-- `valid_chars` (uri.act:162-165) -/
def validChar (c : Nat) : Bool :=
  (97 ≤ c ∧ c ≤ 122) ∨ (65 ≤ c ∧ c ≤ 90) ∨ (48 ≤ c ∧ c ≤ 57) ∨ c = 43 ∨ c = 46 ∨ c = 45

/-- `is_valid_scheme` (uri.act:145-167) -/
def isValidScheme : Text → Bool
  | [] => false
  | c :: cs => alpha c && (c :: cs).all validChar

/-- `parse_schema` (uri.act:170-184); `none` is ValueError. With the colon found, `split` has two parts. -/
def parseSchema (uri : Text) : Option (Option Text × Text) :=
  match find uri 58 with
  | none => some (none, uri)
  | some i =>
    if ¬ [47, 47].isPrefixOf (uri.drop (i + 1)) then none
    else if ¬ isValidScheme alpha (uri.take i) then none
    else some (some (uri.take i), (uri.drop (i + 1)).drop 2)

/-- `if question_idx != -1 and (end_idx == -1 or question_idx < end_idx): end_idx = question_idx` -/
def earlier : Option Nat → Option Nat → Option Nat
  | none, e => e
  | some q, none => some q
  | some q, some e => if q < e then some q else some e

/-- The position of the end of the authority (uri.act:192-204). -/
def endIdx (uri : Text) : Option Nat := earlier (find uri 35) (earlier (find uri 63) (find uri 47))

/-- Host and port of an authority (uri.act:217-228). -/
def hostPort (a : Text) : Option (Text × Option Int) :=
  match find a 58 with
  | none => some (a, none)
  | some i =>
    match toInt (a.drop (i + 1)) with
    | none => none
    | some p => if p < 0 ∨ p > 65535 then none else some (a.take i, some p)

/-- `parse_authority` (uri.act:187-228) -/
def parseAuthority (uri : Text) : Option (Option Text × Option Text × Option Int × Text) :=
  if uri = [] then some (none, none, none, [])
  else
    let (authority, remainder) := match endIdx uri with
      | none => (uri, [])
      | some e => (uri.take e, uri.drop e)
    if authority = [] then some (none, none, none, remainder)
    else match hostPort toInt authority with
      | none => none
      | some (h, p) => some (some authority, some h, p, remainder)

/-- The part of `parse_path` behind the insertion of the slash (uri.act:238-246). -/
def cutPath (uri : Text) : Option Text × Text :=
  match find uri 63, find uri 35 with
  | some q, none => (some (uri.take q), uri.drop q)
  | some q, some h => if q < h then (some (uri.take q), uri.drop q) else (some (uri.take h), uri.drop h)
  | none, some h => (some (uri.take h), uri.drop h)
  | none, none => (some uri, [])

/-- `parse_path` (uri.act:230-246) -/
def parsePath (uri : Text) : Option Text × Text :=
  if uri = [] then (none, [])
  else cutPath (if uri.head? = some 47 then uri else 47 :: uri)

/-- `parse_query` (uri.act:248-259) -/
def parseQuery (uri : Text) : Option Text × Text :=
  if uri = [] ∨ uri.head? ≠ some 63 then (none, uri)
  else match find uri 35 with
    | some h => (some ((uri.take h).drop 1), uri.drop h)
    | none => (some (uri.drop 1), [])

/-- `parse_fragment` (uri.act:261-265) -/
def parseFragment (uri : Text) : Option Text :=
  if uri = [] ∨ uri.head? ≠ some 35 then none else some (uri.drop 1)

/-- `URI.__init__` (uri.act:90-118) -/
def parse (s : Text) : Option Uri :=
  match parseSchema alpha s with
  | none => none
  | some (scheme, r1) =>
    match parseAuthority toInt r1 with
    | none => none
    | some (authority, host, port, r2) =>
      let (path, r3) := parsePath r2
      let (query, r4) := parseQuery r3
      some ⟨scheme, authority, host, port, path, query, parseFragment r4⟩

/-- `e_str` behind a separator that is there if the component is. -/
def part (sep : Text) : Option Text → Text
  | none => []
  | some t => sep ++ t

/-- `URI.__str__` (uri.act:120-132) -/
def str (u : Uri) : Text :=
  (match u.scheme with | none => [] | some s => s ++ [58, 47, 47]) ++ part [] u.authority ++ part [] u.path ++
    part [63] u.query ++ part [35] u.fragment

end

/-! ## Specification, after RFC 3986, section 3 -/

def Letter (c : Nat) : Prop := (97 ≤ c ∧ c ≤ 122) ∨ (65 ≤ c ∧ c ≤ 90)

/-- `scheme = ALPHA *( ALPHA / DIGIT / "+" / "-" / "." )` -/
def Scheme (s : Text) : Prop :=
  ∃ c cs, s = c :: cs ∧ Letter c ∧ ∀ d ∈ cs, Letter d ∨ (48 ≤ d ∧ d ≤ 57) ∨ d = 43 ∨ d = 45 ∨ d = 46

/-- The components of a text `scheme://authority/path?query#fragment`; components may be missing. -/
structure IsUri (toInt : Text → Option Int) (u : Uri) : Prop where
  scheme : ∀ s, u.scheme = some s → Scheme s
  /-- Without a scheme there is no colon. -/
  bare : u.scheme = none → 58 ∉ str u
  authority : ∀ a, u.authority = some a → a ≠ [] ∧ ∀ c ∈ a, c ≠ 47 ∧ c ≠ 63 ∧ c ≠ 35
  nohost : u.authority = none → u.host = none ∧ u.port = none
  /-- The host is in front of the first colon of the authority, the port behind. -/
  host : ∀ a, u.authority = some a → (58 ∉ a ∧ u.host = some a ∧ u.port = none) ∨
    ∃ h t p, a = h ++ 58 :: t ∧ 58 ∉ h ∧ u.host = some h ∧ toInt t = some p ∧ u.port = some p ∧ 0 ≤ p ∧ p ≤ 65535
  path : ∀ p, u.path = some p → ∃ q, p = 47 :: q ∧ ∀ c ∈ q, c ≠ 63 ∧ c ≠ 35
  nopath : u.path = none → u.query = none ∧ u.fragment = none
  query : ∀ q, u.query = some q → ∀ c ∈ q, c ≠ 35

/-! ## Searching -/

theorem find_none {s : Text} {c : Nat} : find s c = none ↔ c ∉ s := by
  rw [find, List.findIdx?_eq_none_iff]
  constructor
  · intro h hc
    simpa using h c hc
  · intro h x hx
    simpa using fun (e : x = c) => h (e ▸ hx)

theorem find_append {a b : Text} {c : Nat} (h : c ∉ a) : find (a ++ c :: b) c = some a.length := by
  induction a with
  | nil => simp [find, List.findIdx?_cons]
  | cons x a ih =>
    have hx : x ≠ c := fun e => h (by simp [e])
    have := ih (fun hc => h (by simp [hc]))
    rw [find] at this ⊢
    simp [List.findIdx?_cons, hx, this]

theorem find_some {s : Text} {c i : Nat} (h : find s c = some i) : ∃ a b, s = a ++ c :: b ∧ c ∉ a ∧ i = a.length := by
  have hc : c ∈ s := by
    apply Classical.byContradiction
    intro hc
    rw [find_none.2 hc] at h
    cases h
  obtain ⟨a, b, rfl, ha⟩ := List.eq_append_cons_of_mem hc
  rw [find_append ha] at h
  cases h
  exact ⟨a, b, rfl, ha, rfl⟩

theorem find_ge {a r : Text} {c i : Nat} (ha : c ∉ a) (h : find (a ++ r) c = some i) : a.length ≤ i := by
  obtain ⟨x, y, he, hx, rfl⟩ := find_some h
  apply Classical.byContradiction
  intro hlt
  have h1 : (a ++ r)[x.length]? = some c := by rw [he]; simp
  rw [List.getElem?_append_left (by omega)] at h1
  exact ha (List.mem_of_getElem? h1)

/-- The text is cut in front of the first of some characters. -/
def Cut (P : Nat → Prop) (s a r : Text) : Prop := s = a ++ r ∧ (∀ c ∈ a, ¬ P c) ∧ (r = [] ∨ ∃ d t, r = d :: t ∧ P d)

theorem cut_exists (P : Nat → Prop) (s : Text) : ∃ a r, Cut P s a r := by
  induction s with
  | nil => exact ⟨[], [], rfl, by simp, .inl rfl⟩
  | cons c s ih =>
    obtain ⟨a, r, h1, h2, h3⟩ := ih
    by_cases hc : P c
    · exact ⟨[], c :: s, rfl, by simp, .inr ⟨c, s, rfl, hc⟩⟩
    · refine ⟨c :: a, r, by rw [h1]; rfl, fun d hd => ?_, h3⟩
      rcases List.mem_cons.1 hd with rfl | hd
      · exact hc
      · exact h2 d hd

/-- The characters that end an authority. -/
def EndA (c : Nat) : Prop := c = 47 ∨ c = 63 ∨ c = 35

/-- The characters that end a path. -/
def EndP (c : Nat) : Prop := c = 63 ∨ c = 35

theorem earlier_le {k : Nat} {x y : Option Nat} (hx : ∀ i, x = some i → k ≤ i) (hy : ∀ i, y = some i → k ≤ i)
    (h : x = some k ∨ y = some k) : earlier x y = some k := by
  cases x with
  | none =>
    rcases h with h | h
    · cases h
    · exact h
  | some a =>
    cases y with
    | none =>
      rcases h with h | h
      · exact h
      · cases h
    | some b =>
      have h1 := hx a rfl
      have h2 := hy b rfl
      simp only [earlier]
      by_cases hab : a < b
      · rw [if_pos hab]
        rcases h with h | h
        · exact h
        · cases h; omega
      · rw [if_neg hab]
        rcases h with h | h
        · cases h; congr 1; omega
        · exact h

theorem earlier_ge {k : Nat} {x y : Option Nat} (hx : ∀ i, x = some i → k ≤ i) (hy : ∀ i, y = some i → k ≤ i) :
    ∀ i, earlier x y = some i → k ≤ i := by
  intro i h
  cases x with
  | none => exact hy i h
  | some a =>
    cases y with
    | none => exact hx i h
    | some b =>
      simp only [earlier] at h
      by_cases hab : a < b
      · rw [if_pos hab] at h; exact hx i h
      · rw [if_neg hab] at h; exact hy i h

theorem endIdx_cut {s a r : Text} (h : Cut EndA s a r) :
    (match endIdx s with | none => (s, []) | some e => (s.take e, s.drop e)) = (a, r) := by
  obtain ⟨rfl, ha, hr⟩ := h
  have n47 : 47 ∉ a := fun h => ha 47 h (by simp [EndA])
  have n63 : 63 ∉ a := fun h => ha 63 h (by simp [EndA])
  have n35 : 35 ∉ a := fun h => ha 35 h (by simp [EndA])
  rcases hr with rfl | ⟨d, t, rfl, hd⟩
  · have : endIdx (a ++ []) = none := by
      rw [List.append_nil, endIdx, find_none.2 n47, find_none.2 n63, find_none.2 n35]
      rfl
    rw [this, List.append_nil]
  · have : endIdx (a ++ d :: t) = some a.length := by
      have g (c : Nat) (hc : c ∉ a) : ∀ i, find (a ++ d :: t) c = some i → a.length ≤ i := fun i hi => find_ge hc hi
      rcases hd with rfl | rfl | rfl
      · exact earlier_le (g _ n35) (earlier_ge (g _ n63) (g _ n47)) (.inr (earlier_le (g _ n63) (g _ n47) (.inr (find_append n47))))
      · exact earlier_le (g _ n35) (earlier_ge (g _ n63) (g _ n47)) (.inr (earlier_le (g _ n63) (g _ n47) (.inl (find_append n63))))
      · exact earlier_le (g _ n35) (earlier_ge (g _ n63) (g _ n47)) (.inl (find_append n35))
    rw [this]
    simp

theorem parsePath_cut {s a r : Text} (h : Cut EndP s a r) (hs : ∃ t, s = 47 :: t) : parsePath s = (some a, r) := by
  obtain ⟨q, hq⟩ := hs
  obtain ⟨rfl, ha, hr⟩ := h
  have n63 : 63 ∉ a := fun h => ha 63 h (by simp [EndP])
  have n35 : 35 ∉ a := fun h => ha 35 h (by simp [EndP])
  unfold parsePath
  rw [if_neg (by rw [hq]; simp), if_pos (by rw [hq]; rfl), cutPath]
  rcases hr with rfl | ⟨d, t, rfl, hd⟩
  · rw [List.append_nil, find_none.2 n35, find_none.2 n63]
  · rcases hd with rfl | rfl
    · rw [find_append n63]
      cases hf : find (a ++ 63 :: t) 35 with
      | none => simp
      | some k =>
        have h1 := find_ge n35 hf
        have h2 : k ≠ a.length := by
          rintro rfl
          obtain ⟨x, y, he, _, hx⟩ := find_some hf
          have := List.append_inj he hx
          simp at this
        simp only
        rw [if_pos (by omega)]
        simp
    · rw [find_append n35]
      cases hf : find (a ++ 35 :: t) 63 with
      | none => simp
      | some k =>
        have h1 := find_ge n63 hf
        simp only
        rw [if_neg (by omega)]
        simp

theorem parsePath_slash {s : Text} (hs : s ≠ []) (h : s.head? ≠ some 47) : parsePath s = parsePath (47 :: s) := by
  unfold parsePath
  rw [if_neg hs, if_neg h, if_neg (List.cons_ne_nil _ _), if_pos (by rfl)]

theorem tail_query {q f : Option Text} (hq : ∀ t, q = some t → ∀ c ∈ t, c ≠ 35) :
    parseQuery (part [63] q ++ part [35] f) = (q, part [35] f) ∧ parseFragment (part [35] f) = f := by
  constructor
  · cases q with
    | none =>
      cases f with
      | none => rfl
      | some f => rfl
    | some t =>
      have ht : 35 ∉ (63 :: t) := by
        intro h
        rcases List.mem_cons.1 h with h | h
        · cases h
        · exact hq t rfl 35 h rfl
      unfold parseQuery
      rw [if_neg (by simp [part])]
      cases f with
      | none =>
        have : part [63] (some t) ++ part [35] none = 63 :: t := by simp [part]
        rw [this, find_none.2 ht]
        rfl
      | some f =>
        have : part [63] (some t) ++ part [35] (some f) = (63 :: t) ++ 35 :: f := by simp [part]
        rw [this, find_append ht]
        simp [part]
  · cases f with
    | none => rfl
    | some f => simp [parseFragment, part]

/-- What is behind the path is a query and a fragment. -/
theorem tail_exists (r : Text) (h : r = [] ∨ ∃ d t, r = d :: t ∧ EndP d) :
    ∃ q f, r = part [63] q ++ part [35] f ∧ ∀ t, q = some t → ∀ c ∈ t, c ≠ 35 := by
  rcases h with rfl | ⟨d, t, rfl, rfl | rfl⟩
  · exact ⟨none, none, rfl, by simp⟩
  · obtain ⟨a, b, rfl, h2, h3⟩ := cut_exists (· = 35) t
    rcases h3 with rfl | ⟨d, e, rfl, rfl⟩
    · exact ⟨some a, none, by simp [part], fun t ht c hc => by cases ht; exact h2 c hc⟩
    · exact ⟨some a, some e, by simp [part], fun t ht c hc => by cases ht; exact h2 c hc⟩
  · exact ⟨none, some t, by simp [part], by simp⟩

theorem part_end (q f : Option Text) : part [63] q ++ part [35] f = [] ∨ ∃ d t, part [63] q ++ part [35] f = d :: t ∧ EndP d := by
  cases q with
  | some t => exact .inr ⟨63, _, rfl, .inl rfl⟩
  | none =>
    cases f with
    | some t => exact .inr ⟨35, _, rfl, .inr rfl⟩
    | none => exact .inl rfl

/-! ## Schemes -/

variable {alpha : Nat → Bool} {toInt : Text → Option Int}

/-- Letters of ASCII are recognized. -/
def AlphaOk (alpha : Nat → Bool) : Prop := ∀ c, c < 128 → (alpha c = true ↔ Letter c)

theorem isValidScheme_iff (hal : AlphaOk alpha) (s : Text) : isValidScheme alpha s = true ↔ Scheme s := by
  cases s with
  | nil => simp [isValidScheme, Scheme]
  | cons c cs =>
    simp only [isValidScheme, Bool.and_eq_true, List.all_eq_true, validChar, decide_eq_true_eq, Scheme]
    constructor
    · rintro ⟨h1, h2⟩
      have hc := h2 c (by simp)
      refine ⟨c, cs, rfl, (hal c (by omega)).1 h1, fun d hd => ?_⟩
      have := h2 d (.tail _ hd)
      unfold Letter
      omega
    · rintro ⟨c', cs', he, h1, h2⟩
      cases he
      refine ⟨(hal c (by unfold Letter at h1; omega)).2 h1, fun d hd => ?_⟩
      rcases List.mem_cons.1 hd with rfl | hd
      · unfold Letter at h1; omega
      · have := h2 d hd
        unfold Letter at this
        omega

theorem scheme_colon {s : Text} (h : Scheme s) : 58 ∉ s := by
  obtain ⟨c, cs, rfl, h1, h2⟩ := h
  intro h
  unfold Letter at h1 h2
  rcases List.mem_cons.1 h with h | h
  · omega
  · have := h2 58 h
    omega

/-- `scheme://` -/
def front : Option Text → Text
  | none => []
  | some s => s ++ [58, 47, 47]

theorem parseSchema_iff (hal : AlphaOk alpha) (s : Text) (sc : Option Text) (r : Text) :
    parseSchema alpha s = some (sc, r) ↔ s = front sc ++ r ∧ (∀ t, sc = some t → Scheme t) ∧ (sc = none → 58 ∉ s) := by
  unfold parseSchema
  constructor
  · intro h
    cases hf : find s 58 with
    | none =>
      rw [hf] at h
      cases h
      exact ⟨rfl, by simp, fun _ => find_none.1 hf⟩
    | some i =>
      rw [hf] at h
      obtain ⟨a, b, rfl, ha, rfl⟩ := find_some hf
      have e1 : (a ++ 58 :: b).drop (a.length + 1) = b := by
        rw [← List.drop_drop]; simp
      have e2 : (a ++ 58 :: b).take a.length = a := by simp
      simp only [e1, e2] at h
      by_cases hp : [47, 47].isPrefixOf b = true
      · rw [if_neg (by simpa using hp)] at h
        by_cases hv : isValidScheme alpha a = true
        · rw [if_neg (by simpa using hv)] at h
          cases h
          obtain ⟨t, rfl⟩ := List.isPrefixOf_iff_prefix.1 hp
          exact ⟨by simp [front], fun t ht => by cases ht; exact (isValidScheme_iff hal _).1 hv, by simp⟩
        · rw [if_pos (by simpa using hv)] at h; cases h
      · rw [if_pos (by simpa using hp)] at h; cases h
  · rintro ⟨h1, h2, h3⟩
    cases sc with
    | none =>
      have := h3 rfl
      rw [find_none.2 this]
      simp only [front, List.nil_append] at h1
      rw [h1]
    | some t =>
      have ht := h2 t rfl
      have : s = t ++ 58 :: (47 :: 47 :: r) := by rw [h1]; simp [front]
      subst this
      rw [find_append (scheme_colon ht)]
      have e1 : (t ++ 58 :: 47 :: 47 :: r).drop (t.length + 1) = 47 :: 47 :: r := by
        rw [← List.drop_drop]; simp
      have e2 : (t ++ 58 :: 47 :: 47 :: r).take t.length = t := by simp
      simp only [e1, e2]
      rw [if_neg (by simp [List.isPrefixOf]), if_neg (by simpa using (isValidScheme_iff hal _).2 ht)]
      rfl

theorem hostPort_iff (a h : Text) (p : Option Int) : hostPort toInt a = some (h, p) ↔
    (58 ∉ a ∧ h = a ∧ p = none) ∨
    ∃ t k, a = h ++ 58 :: t ∧ 58 ∉ h ∧ toInt t = some k ∧ p = some k ∧ 0 ≤ k ∧ k ≤ 65535 := by
  unfold hostPort
  cases hf : find a 58 with
  | none =>
    have hn := find_none.1 hf
    constructor
    · intro h
      cases h
      exact .inl ⟨hn, rfl, rfl⟩
    · rintro (⟨_, rfl, rfl⟩ | ⟨t, k, rfl, _⟩)
      · rfl
      · exact absurd (by simp) hn
  | some i =>
    obtain ⟨x, y, rfl, hx, rfl⟩ := find_some hf
    have e1 : (x ++ 58 :: y).drop (x.length + 1) = y := by
      rw [← List.drop_drop]; simp
    have e2 : (x ++ 58 :: y).take x.length = x := by simp
    simp only [e1, e2]
    constructor
    · intro hh
      cases ht : toInt y with
      | none => rw [ht] at hh; cases hh
      | some k =>
        simp only [ht] at hh
        by_cases hk : k < 0 ∨ k > 65535
        · rw [if_pos hk] at hh; cases hh
        · rw [if_neg hk] at hh
          cases hh
          exact .inr ⟨y, k, rfl, hx, ht, rfl, by omega, by omega⟩
    · rintro (⟨h1, _⟩ | ⟨t, k, he, h1, h2, rfl, h3, h4⟩)
      · exact absurd (by simp) h1
      · have hlen : x.length = h.length := by
          have f1 := find_append (b := y) hx
          rw [he, find_append h1] at f1
          exact (Option.some.inj f1).symm
        obtain ⟨rfl, h5⟩ := List.append_inj he hlen
        cases h5
        rw [h2]
        simp only
        rw [if_neg (by omega)]

theorem parseAuthority_cut {s a r : Text} (h : Cut EndA s a r) : parseAuthority toInt s =
    if a = [] then some (none, none, none, r)
    else match hostPort toInt a with | none => none | some (h, p) => some (some a, some h, p, r) := by
  unfold parseAuthority
  by_cases hs : s = []
  · subst hs
    obtain ⟨h1, _, _⟩ := h
    obtain ⟨rfl, rfl⟩ := List.append_eq_nil_iff.1 h1.symm
    rfl
  · rw [if_neg hs]
    have := endIdx_cut h
    rw [this]

/-- **C149.** The text of components is parsed to these components. -/
theorem C149_parse_partial (hal : AlphaOk alpha) {u : Uri} (h : IsUri toInt u) : parse alpha toInt (str u) = some u := by
  obtain ⟨sc, au, ho, po, pa, qu, fr⟩ := u
  have hsch : parseSchema alpha (str ⟨sc, au, ho, po, pa, qu, fr⟩) =
      some (sc, part [] au ++ (part [] pa ++ (part [63] qu ++ part [35] fr))) := by
    rw [parseSchema_iff hal]
    refine ⟨?_, h.scheme, h.bare⟩
    simp only [str, List.append_assoc]
    cases sc <;> rfl
  have hr : Cut EndA (part [] au ++ (part [] pa ++ (part [63] qu ++ part [35] fr))) (part [] au)
      (part [] pa ++ (part [63] qu ++ part [35] fr)) := by
    refine ⟨rfl, fun c hc => ?_, ?_⟩
    · cases au with
      | none => cases hc
      | some a =>
        have := (h.authority a rfl).2 c hc
        unfold EndA
        omega
    · cases pa with
      | none =>
        obtain ⟨h1, h2⟩ := h.nopath rfl
        dsimp only at h1 h2
        subst h1 h2
        exact .inl rfl
      | some p =>
        obtain ⟨q, rfl, _⟩ := h.path p rfl
        exact .inr ⟨47, _, rfl, .inl rfl⟩
  have hau : parseAuthority toInt (part [] au ++ (part [] pa ++ (part [63] qu ++ part [35] fr))) =
      some (au, ho, po, part [] pa ++ (part [63] qu ++ part [35] fr)) := by
    rw [parseAuthority_cut hr]
    cases au with
    | none =>
      obtain ⟨h1, h2⟩ := h.nohost rfl
      dsimp only at h1 h2
      subst h1 h2
      rfl
    | some a =>
      have e : part [] (some a) = a := rfl
      rw [e, if_neg (h.authority a rfl).1]
      have : ∃ hh, ho = some hh ∧ hostPort toInt a = some (hh, po) := by
        rcases h.host a rfl with ⟨h1, h2, h3⟩ | ⟨hh, t, p, h1, h2, h3, h4, h5, h6, h7⟩
        · exact ⟨a, h2, (hostPort_iff _ _ _).2 (.inl ⟨h1, rfl, h3⟩)⟩
        · exact ⟨hh, h3, (hostPort_iff _ _ _).2 (.inr ⟨t, p, h1, h2, h4, h5, h6, h7⟩)⟩
      obtain ⟨hh, rfl, h2⟩ := this
      rw [h2]
  have hpa : parsePath (part [] pa ++ (part [63] qu ++ part [35] fr)) = (pa, part [63] qu ++ part [35] fr) := by
    cases pa with
    | none =>
      obtain ⟨h1, h2⟩ := h.nopath rfl
      dsimp only at h1 h2
      subst h1 h2
      rfl
    | some p =>
      obtain ⟨q, rfl, hq⟩ := h.path p rfl
      refine parsePath_cut (a := 47 :: q) ⟨rfl, fun c hc => ?_, part_end qu fr⟩ ⟨_, rfl⟩
      rcases List.mem_cons.1 hc with rfl | hc
      · simp [EndP]
      · have := hq c hc
        unfold EndP
        omega
  obtain ⟨t1, t2⟩ := tail_query (f := fr) h.query
  unfold parse
  simp only [hsch, hau, hpa, t1, t2]

/-- **C149.** What is parsed are the components of a text: of the given one, or, if a query or a fragment follows the
authority at once, of the one with a slash in between. -/
theorem C149_sound_partial (hal : AlphaOk alpha) {s : Text} {u : Uri} (h : parse alpha toInt s = some u) :
    IsUri toInt u ∧ (str u = s ∨
      ∃ c r, EndP c ∧ s = front u.scheme ++ part [] u.authority ++ c :: r ∧
        str u = front u.scheme ++ part [] u.authority ++ 47 :: c :: r) := by
  unfold parse at h
  cases h1 : parseSchema alpha s with
  | none => rw [h1] at h; cases h
  | some x =>
    obtain ⟨sc, r1⟩ := x
    simp only [h1] at h
    obtain ⟨e1, v1, b1⟩ := (parseSchema_iff hal _ _ _).1 h1
    obtain ⟨a, r2, hcut⟩ := cut_exists EndA r1
    rw [parseAuthority_cut hcut] at h
    obtain ⟨e2, ha, hr2⟩ := hcut
    -- the authority
    have hau : ∃ au ho po, a = part [] au ∧ (∀ x, au = some x → x ≠ [] ∧ ∀ c ∈ x, c ≠ 47 ∧ c ≠ 63 ∧ c ≠ 35) ∧
        (au = none → ho = none ∧ po = none) ∧
        (∀ a, au = some a → (58 ∉ a ∧ ho = some a ∧ po = none) ∨
          ∃ h t p, a = h ++ 58 :: t ∧ 58 ∉ h ∧ ho = some h ∧ toInt t = some p ∧ po = some p ∧ 0 ≤ p ∧ p ≤ 65535) ∧
        u = ⟨sc, au, ho, po, (parsePath r2).1, (parseQuery (parsePath r2).2).1, parseFragment (parseQuery (parsePath r2).2).2⟩ := by
      by_cases hnil : a = []
      · rw [if_pos hnil] at h
        cases h
        exact ⟨none, none, none, hnil, by simp, by simp, by simp, rfl⟩
      · rw [if_neg hnil] at h
        cases hh : hostPort toInt a with
        | none => rw [hh] at h; cases h
        | some x =>
          obtain ⟨ho, po⟩ := x
          rw [hh] at h
          cases h
          refine ⟨some a, some ho, po, rfl, fun x hx => ?_, by simp, fun x hx => ?_, rfl⟩
          · cases hx
            refine ⟨hnil, fun c hc => ?_⟩
            have := ha c hc
            unfold EndA at this
            omega
          · cases hx
            rcases (hostPort_iff _ _ _).1 hh with ⟨k1, k2, k3⟩ | ⟨t, k, k1, k2, k3, k4, k5, k6⟩
            · exact .inl ⟨k1, by rw [k2], k3⟩
            · exact .inr ⟨ho, t, k, k1, k2, rfl, k3, k4, k5, k6⟩
    obtain ⟨au, ho, po, rfl, c1, c2, c3, rfl⟩ := hau
    -- path, query and fragment
    have hpa : ∃ pa qu fr, parsePath r2 = (pa, part [63] qu ++ part [35] fr) ∧
        (∀ p, pa = some p → ∃ q, p = 47 :: q ∧ ∀ c ∈ q, c ≠ 63 ∧ c ≠ 35) ∧
        (pa = none → qu = none ∧ fr = none) ∧ (∀ q, qu = some q → ∀ c ∈ q, c ≠ 35) ∧
        (r2 = part [] pa ++ (part [63] qu ++ part [35] fr) ∨
          ∃ c r, EndP c ∧ r2 = c :: r ∧ part [] pa ++ (part [63] qu ++ part [35] fr) = 47 :: c :: r) := by
      rcases hr2 with rfl | ⟨d, t, rfl, hd⟩
      · exact ⟨none, none, none, rfl, by simp, by simp, by simp, .inl rfl⟩
      · by_cases h47 : d = 47
        · subst h47
          obtain ⟨p, r3, hc⟩ := cut_exists EndP t
          obtain ⟨rfl, hp, hr3⟩ := hc
          obtain ⟨q, f, rfl, hq⟩ := tail_exists r3 hr3
          have hcut : Cut EndP (47 :: (p ++ (part [63] q ++ part [35] f))) (47 :: p) (part [63] q ++ part [35] f) := by
            refine ⟨rfl, fun c hc => ?_, hr3⟩
            rcases List.mem_cons.1 hc with rfl | hc
            · simp [EndP]
            · exact hp c hc
          refine ⟨some (47 :: p), q, f, parsePath_cut hcut ⟨_, rfl⟩, fun x hx => ?_, by simp, hq, .inl rfl⟩
          cases hx
          refine ⟨p, rfl, fun c hc => ?_⟩
          have := hp c hc
          unfold EndP at this
          omega
        · have hd' : EndP d := by
            rcases hd with h | h
            · exact absurd h h47
            · exact h
          obtain ⟨q, f, he, hq⟩ := tail_exists (d :: t) (.inr ⟨d, t, rfl, hd'⟩)
          have hcut : Cut EndP (47 :: d :: t) [47] (part [63] q ++ part [35] f) := by
            refine ⟨by rw [← he]; rfl, by simp [EndP], ?_⟩
            rw [← he]
            exact .inr ⟨d, t, rfl, hd'⟩
          refine ⟨some [47], q, f, ?_, fun x hx => ?_, by simp, hq, .inr ⟨d, t, hd', rfl, ?_⟩⟩
          · rw [parsePath_slash (by simp) (by simpa using h47), parsePath_cut hcut ⟨_, rfl⟩]
          · cases hx
            exact ⟨[], rfl, by simp⟩
          · rw [← he]; rfl
    obtain ⟨pa, qu, fr, d1, d2, d3, d4, d5⟩ := hpa
    obtain ⟨t1, t2⟩ := tail_query (f := fr) d4
    simp only [d1, t1, t2]
    have hstr : ∀ x : Option Text × Option Int, str ⟨sc, au, x.1, x.2, pa, qu, fr⟩ =
        front sc ++ part [] au ++ (part [] pa ++ (part [63] qu ++ part [35] fr)) := by
      intro x
      simp only [str, List.append_assoc]
      cases sc <;> rfl
    have hstr := hstr (ho, po)
    dsimp only at hstr
    have hlast : str ⟨sc, au, ho, po, pa, qu, fr⟩ = s ∨
        ∃ c r, EndP c ∧ s = front sc ++ part [] au ++ c :: r ∧
        str ⟨sc, au, ho, po, pa, qu, fr⟩ = front sc ++ part [] au ++ 47 :: c :: r := by
      rcases d5 with d5 | ⟨c, r, d5, d6, d7⟩
      · exact .inl (by rw [hstr, ← d5, e1, e2, List.append_assoc])
      · exact .inr ⟨c, r, d5, by rw [e1, e2, d6, List.append_assoc], by rw [hstr, d7]⟩
    refine ⟨⟨v1, fun hs => ?_, c1, c2, c3, d2, d3, d4⟩, hlast⟩
    have := b1 hs
    rcases hlast with h | ⟨c, r, hc, h, h'⟩
    · rw [h]; exact this
    · rw [h']
      rw [h] at this
      simp only [List.mem_append, List.mem_cons] at this ⊢
      rintro (hh | hh | hh)
      · exact this (.inl hh)
      · cases hh
      · exact this (.inr hh)

/-- **C149.** The text of a parsed URI is parsed to the same URI. -/
theorem C149_canonical (hal : AlphaOk alpha) {s : Text} {u : Uri} (h : parse alpha toInt s = some u) :
    parse alpha toInt (str u) = some u :=
  C149_parse_partial hal (C149_sound_partial hal h).1

/-! ## Examples and refutations -/

/-- Letters of ASCII. -/
def ascii (c : Nat) : Bool := (97 ≤ c ∧ c ≤ 122) ∨ (65 ≤ c ∧ c ≤ 90)

theorem ascii_ok : AlphaOk ascii := fun c _ => by simp [ascii, Letter]

/-- Decimal numbers. -/
def dec (t : Text) : Option Int :=
  if t ≠ [] ∧ ∀ c ∈ t, 48 ≤ c ∧ c ≤ 57 then some (t.foldl (fun n c => 10 * n + (c - 48 : Nat)) 0) else none

/-- `http://h:80/p?q#f` -/
example : IsUri dec ⟨some [104, 116, 116, 112], some [104, 58, 56, 48], some [104], some 80, some [47, 112], some [113], some [102]⟩ :=
  (C149_sound_partial ascii_ok (s := [104, 116, 116, 112, 58, 47, 47, 104, 58, 56, 48, 47, 112, 63, 113, 35, 102]) (by decide)).1

/-- `http://h?q` becomes `http://h/?q`. -/
theorem C149_refuted_slash (hal : AlphaOk alpha) : ∃ u,
    parse alpha toInt [104, 116, 116, 112, 58, 47, 47, 104, 63, 113] = some u ∧
    str u = [104, 116, 116, 112, 58, 47, 47, 104, 47, 63, 113] := by
  refine ⟨⟨some [104, 116, 116, 112], some [104], some [104], none, some [47], some [113], none⟩, ?_, rfl⟩
  have h104 : alpha 104 = true := (hal 104 (by omega)).2 (by simp [Letter])
  simp [parse, parseSchema, find, List.findIdx?_cons, isValidScheme, h104, validChar, parseAuthority, endIdx, earlier, hostPort,
    parsePath, cutPath, parseQuery, parseFragment]

/-- Nothing with two colons in the authority is accepted, if `int` does not accept what is behind the first one: addresses
of IPv6 (`http://[::1]/`), and user information with a password (`http://u:p@h/`). -/
theorem C149_refuted_colon {s a r x y : Text} (hs : Scheme s) (hal : AlphaOk alpha) (ha : a = x ++ 58 :: y) (hx : 58 ∉ x)
    (hend : ∀ c ∈ a, c ≠ 47 ∧ c ≠ 63 ∧ c ≠ 35) (hi : toInt y = none) :
    parse alpha toInt (s ++ [58, 47, 47] ++ a ++ 47 :: r) = none := by
  have h1 : parseSchema alpha (s ++ [58, 47, 47] ++ a ++ 47 :: r) = some (some s, a ++ 47 :: r) := by
    rw [parseSchema_iff hal]
    exact ⟨by simp [front], fun t ht => by cases ht; exact hs, by simp⟩
  have h2 : parseAuthority toInt (a ++ 47 :: r) = none := by
    rw [parseAuthority_cut (a := a) (r := 47 :: r) ⟨rfl, fun c hc => by have := hend c hc; unfold EndA; omega, .inr ⟨47, r, rfl, .inl rfl⟩⟩]
    rw [if_neg (by rw [ha]; simp)]
    cases hh : hostPort toInt a with
    | none => rfl
    | some q =>
      obtain ⟨h, p⟩ := q
      rcases (hostPort_iff _ _ _).1 hh with ⟨k1, _⟩ | ⟨t, k, k1, k2, k3, _⟩
      · exact absurd (by rw [ha]; simp) k1
      · have f1 := find_append (b := y) hx
        rw [← ha, k1, find_append k2] at f1
        rw [k1] at ha
        obtain ⟨_, h5⟩ := List.append_inj ha (Option.some.inj f1)
        cases h5
        rw [hi] at k3
        cases k3
  unfold parse
  simp only [h1, h2]

/-- `http://[::1]/` and `http://u:p@h/` -/
example : parse ascii dec [104, 116, 116, 112, 58, 47, 47, 91, 58, 58, 49, 93, 47] = none ∧
    parse ascii dec [104, 116, 116, 112, 58, 47, 47, 117, 58, 112, 64, 104, 47] = none := by decide

/-- A colon elsewhere counts as the end of a scheme: `/a:b` and `mailto:x` are not accepted. -/
theorem C149_refuted_scheme {s x y : Text} (hs : s = x ++ 58 :: y) (hx : 58 ∉ x) (hy : ¬ ∃ t, y = 47 :: 47 :: t) :
    parse alpha toInt s = none := by
  have : parseSchema alpha s = none := by
    unfold parseSchema
    subst hs
    rw [find_append hx]
    have e1 : (x ++ 58 :: y).drop (x.length + 1) = y := by
      rw [← List.drop_drop]; simp
    simp only [e1]
    rw [if_pos]
    intro hp
    obtain ⟨t, rfl⟩ := List.isPrefixOf_iff_prefix.1 hp
    exact hy ⟨t, rfl⟩
  unfold parse
  rw [this]

example : parse ascii dec [47, 97, 58, 98] = none ∧ parse ascii dec [109, 97, 105, 108, 116, 111, 58, 120] = none := by decide

end Verif.Uri.Parse
