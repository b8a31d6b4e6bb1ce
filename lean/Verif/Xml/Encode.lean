import Verif.Xml.Spec
import Verif.Str.Replace
/-!
# C77: encoding fills exactly the buffer that it allocates
-/
namespace Verif.Xml
open Verif Verif.Str

theorem escape1_eq (q : Bool) (c : Nat) : escape1 q c = escChar q c := by
  unfold escape1 escChar
  by_cases h1 : c = 38
  · rw [if_pos h1, if_pos h1]
  rw [if_neg h1, if_neg h1]
  by_cases h2 : c = 60
  · rw [if_pos h2, if_pos h2]
  rw [if_neg h2, if_neg h2]
  by_cases h3 : c = 34
  · rw [if_pos h3]
    cases q <;> simp [h3]
  · rw [if_neg h3, if_neg (by simp [h3])]

theorem escChar_len (q : Bool) (c : Nat) : extra1 q c = ((escChar q c).length : Int) - 1 := by
  rw [← escape1_eq]
  unfold extra1 escape1
  split
  · rfl
  split
  · rfl
  split
  · split <;> rfl
  · rfl

theorem enc1_escape (q : Bool) (c : Nat) : (enc1 c).flatMap (escape1 q) = enc (escChar q c) ∧
    ((enc1 c).map (extra1 q)).sum = extra1 q c := by
  have high : ∀ b, 128 ≤ b → escape1 q b = [b] ∧ extra1 q b = 0 := by
    intro b hb
    unfold escape1 extra1
    constructor
    · rw [if_neg (by omega), if_neg (by omega), if_neg (by omega)]
    · rw [if_neg (by omega), if_neg (by omega), if_neg (by omega)]
  rcases enc1_cases c with ⟨h, e⟩ | ⟨h0, h, e⟩ | ⟨h0, h, e⟩ | ⟨h0, e⟩
  · rw [e]
    constructor
    · rw [List.flatMap_singleton, escape1_eq]
      unfold escChar
      split
      · rfl
      split
      · rfl
      split
      · rfl
      · rw [enc_singleton, e]
    · simp
  all_goals
    have hc : escChar q c = [c] := by rw [← escape1_eq]; exact (high c (by omega)).1
    rw [hc, enc_singleton, (high c (by omega)).2, e]
    constructor
    · simp only [List.flatMap_cons, List.flatMap_nil, List.append_nil]
      repeat rw [(high _ (by omega)).1]
      rfl
    · simp only [List.map_cons, List.map_nil, List.sum_cons, List.sum_nil]
      repeat rw [(high _ (by omega)).2]
      rfl

theorem enc_escape (q : Bool) (t : Text) : (enc t).flatMap (escape1 q) = enc (esc q t) := by
  induction t with
  | nil => rfl
  | cons c t ih =>
    show (enc (c :: t)).flatMap (escape1 q) = enc (escChar q c ++ esc q t)
    rw [enc_cons, List.flatMap_append, ih, (enc1_escape q c).1, enc_append]

theorem sum_extra (q : Bool) (t : Text) : ((enc t).map (extra1 q)).sum = ((esc q t).length : Int) - t.length := by
  induction t with
  | nil => rfl
  | cons c t ih =>
    show ((enc (c :: t)).map (extra1 q)).sum = ((escChar q c ++ esc q t).length : Int) - (c :: t).length
    rw [enc_cons, List.map_append, List.sum_append, ih, (enc1_escape q c).2, escChar_len]
    simp only [List.length_append, List.length_cons]
    omega

theorem sum_extra_bytes (q : Bool) (l : List Nat) : (l.map (extra1 q)).sum = ((l.flatMap (escape1 q)).length : Int) - l.length := by
  induction l with
  | nil => rfl
  | cons c t ih =>
    rw [List.map_cons, List.sum_cons, ih, escChar_len, ← escape1_eq, List.flatMap_cons]
    simp only [List.length_append, List.length_cons]
    omega

theorem esc_len_le (q : Bool) (t : Text) : t.length ≤ (esc q t).length := by
  induction t with
  | nil => exact Nat.le_refl _
  | cons c t ih =>
    show (c :: t).length ≤ (escChar q c ++ esc q t).length
    have : 1 ≤ (escChar q c).length := by
      unfold escChar
      split
      · simp
      split
      · simp
      split <;> simp
    simp only [List.length_append, List.length_cons]
    omega

theorem esc_cp {q : Bool} {t : Text} (h : ∀ c ∈ t, CodePoint c) : ∀ c ∈ esc q t, CodePoint c := by
  intro c hc
  obtain ⟨d, hd, hc⟩ := List.mem_flatMap.1 hc
  have hd := h d hd
  unfold escChar at hc
  unfold CodePoint at hd ⊢
  split at hc
  · simp at hc; omega
  split at hc
  · simp at hc; omega
  split at hc
  · simp at hc; omega
  · simp at hc; omega

theorem escape_repr {s : Str} {t : Text} (h : Repr s t) (q : Bool) : escape s q = enc (esc q t) := by
  unfold escape
  rw [h.bytes_eq, enc_escape]

/-- The two measures: number of bytes and number of characters. -/
structure Meas (f : Str → Int) (g : Text → Nat) : Prop where
  app : ∀ a b, g (a ++ b) = g a + g b
  one : ∀ c, c < 128 → g [c] = 1
  nil : g [] = 0
  le : ∀ t, g t ≤ (enc t).length
  rep : ∀ {s t}, Repr s t → f s = g t
  ext : ∀ {s t} (q : Bool), Repr s t → (enc (esc q t)).length < 2^31 → f s + extra s q = g (esc q t)

theorem meas_bytes : Meas Str.nbytes (fun t => (enc t).length) where
  app a b := by simp only [enc_append, List.length_append]
  one c h := by
    simp only [enc_singleton]
    rcases enc1_cases c with ⟨_, e⟩ | ⟨h0, _⟩ | ⟨h0, _⟩ | ⟨h0, _⟩
    · rw [e]; rfl
    all_goals omega
  nil := rfl
  le t := Nat.le_refl _
  rep h := h.nb
  ext {s t} q h hs := by
    have e := sum_extra_bytes q (enc t)
    rw [enc_escape] at e
    unfold extra
    rw [h.bytes_eq, e, h.nb]
    have h1 : (enc t).length ≤ (enc (esc q t)).length := by
      have hx : ∀ l : List Nat, l.length ≤ (l.flatMap (escape1 q)).length := by
        intro l
        have := esc_len_le q l
        unfold esc at this
        have e : escChar q = escape1 q := by funext c; exact (escape1_eq q c).symm
        rwa [e] at this
      have := hx (enc t)
      rwa [enc_escape] at this
    rw [wrap32_of_in (by unfold InI32; omega)]
    omega

theorem meas_chars : Meas Str.nchars List.length where
  app a b := List.length_append
  one c h := rfl
  nil := rfl
  le t := length_le_enc t
  rep h := h.nc
  ext {s t} q h hs := by
    have e := sum_extra q t
    unfold extra
    rw [h.bytes_eq, e, h.nc]
    have h1 := esc_len_le q t
    have h2 := length_le_enc (esc q t)
    rw [wrap32_of_in (by unfold InI32; omega)]
    omega

variable {f : Str → Int} {g : Text → Nat}

theorem Meas.cons (m : Meas f g) (c : Nat) (t : Text) (h : c < 128) : g (c :: t) = g t + 1 := by
  rw [show c :: t = [c] ++ t from rfl, m.app, m.one c h]; omega

/-- Measures of concatenations with ASCII characters. -/
theorem encL_app (a b : Text) : (enc (a ++ b)).length = (enc a).length + (enc b).length := by rw [enc_append, List.length_append]
theorem encL_cons (c : Nat) (t : Text) (h : c < 128) : (enc (c :: t)).length = (enc t).length + 1 := meas_bytes.cons c t h

theorem enc_ascii_cons (c : Nat) (t : Text) (h : c < 128) : enc (c :: t) = c :: enc t := by
  rw [enc_cons]
  rcases enc1_cases c with ⟨_, e⟩ | ⟨h0, _⟩ | ⟨h0, _⟩ | ⟨h0, _⟩
  · rw [e]; rfl
  all_goals omega

/-! ### Namespaces and attributes -/

theorem nsAttr_none (h : Text) (l : List (Text × Text)) : renderAttrs (nsAttr (none, h) :: l) =
    32 :: [120, 109, 108, 110, 115] ++ [61, 34] ++ esc true h ++ 34 :: renderAttrs l := rfl
theorem nsAttr_some (p h : Text) (l : List (Text × Text)) : renderAttrs (nsAttr (some p, h) :: l) =
    32 :: ([120, 109, 108, 110, 115, 58] ++ p) ++ [61, 34] ++ esc true h ++ 34 :: renderAttrs l := rfl

theorem nsSize_eq (m : Meas f g) {l : List (Option Str × Str)} {k : List (Option Text × Text)} (h : NsRepr l k) :
    (enc (renderAttrs (k.map nsAttr))).length < 2^31 → nsSize f l = g (renderAttrs (k.map nsAttr)) := by
  induction h with
  | nil => intro _; simp [nsSize, renderAttrs, m.nil]
  | @cons p h q gg l k hp hh hl ih =>
    intro hs
    rw [List.map_cons] at hs ⊢
    cases p with
    | none =>
      cases q with
      | some q => exact absurd hp id
      | none =>
        rw [nsAttr_none] at hs ⊢
        simp only [List.cons_append, List.nil_append, encL_app, encL_cons _ _ (show (32 : Nat) < 128 by omega),
          encL_cons _ _ (show (120 : Nat) < 128 by omega), encL_cons _ _ (show (109 : Nat) < 128 by omega),
          encL_cons _ _ (show (108 : Nat) < 128 by omega), encL_cons _ _ (show (110 : Nat) < 128 by omega),
          encL_cons _ _ (show (115 : Nat) < 128 by omega), encL_cons _ _ (show (61 : Nat) < 128 by omega),
          encL_cons _ _ (show (34 : Nat) < 128 by omega), enc_nil, List.length_nil] at hs
        have i := ih (by omega)
        have e := m.ext true hh (by omega)
        simp only [List.cons_append, List.nil_append, m.app, m.cons _ _ (show (32 : Nat) < 128 by omega),
          m.cons _ _ (show (120 : Nat) < 128 by omega), m.cons _ _ (show (109 : Nat) < 128 by omega),
          m.cons _ _ (show (108 : Nat) < 128 by omega), m.cons _ _ (show (110 : Nat) < 128 by omega),
          m.cons _ _ (show (115 : Nat) < 128 by omega), m.cons _ _ (show (61 : Nat) < 128 by omega),
          m.cons _ _ (show (34 : Nat) < 128 by omega), m.nil, nsSize, opt1, i]
        omega
    | some p =>
      cases q with
      | none => exact absurd hp id
      | some q =>
        rw [nsAttr_some] at hs ⊢
        simp only [List.cons_append, List.nil_append, encL_app, encL_cons _ _ (show (32 : Nat) < 128 by omega),
          encL_cons _ _ (show (120 : Nat) < 128 by omega), encL_cons _ _ (show (109 : Nat) < 128 by omega),
          encL_cons _ _ (show (108 : Nat) < 128 by omega), encL_cons _ _ (show (110 : Nat) < 128 by omega),
          encL_cons _ _ (show (115 : Nat) < 128 by omega), encL_cons _ _ (show (61 : Nat) < 128 by omega),
          encL_cons _ _ (show (58 : Nat) < 128 by omega),
          encL_cons _ _ (show (34 : Nat) < 128 by omega), enc_nil, List.length_nil] at hs
        have i := ih (by omega)
        have e := m.ext true hh (by omega)
        have ep := m.rep (show Repr p q from hp)
        simp only [List.cons_append, List.nil_append, m.app, m.cons _ _ (show (32 : Nat) < 128 by omega),
          m.cons _ _ (show (120 : Nat) < 128 by omega), m.cons _ _ (show (109 : Nat) < 128 by omega),
          m.cons _ _ (show (108 : Nat) < 128 by omega), m.cons _ _ (show (110 : Nat) < 128 by omega),
          m.cons _ _ (show (115 : Nat) < 128 by omega), m.cons _ _ (show (61 : Nat) < 128 by omega),
          m.cons _ _ (show (58 : Nat) < 128 by omega),
          m.cons _ _ (show (34 : Nat) < 128 by omega), m.nil, nsSize, opt1, i]
        omega

theorem attrSize_eq (m : Meas f g) {l : List (Str × Str)} {k : List (Text × Text)} (h : AttrRepr l k) :
    (enc (renderAttrs k)).length < 2^31 → attrSize f l = g (renderAttrs k) := by
  induction h with
  | nil => intro _; simp [attrSize, renderAttrs, m.nil]
  | @cons k v a b l mm hk hv hl ih =>
    intro hs
    simp only [renderAttrs, List.cons_append, List.nil_append, encL_app, encL_cons _ _ (show (32 : Nat) < 128 by omega),
      encL_cons _ _ (show (61 : Nat) < 128 by omega), encL_cons _ _ (show (34 : Nat) < 128 by omega), enc_nil, List.length_nil] at hs
    have i := ih (by omega)
    have e := m.ext true hv (by omega)
    have ek := m.rep hk
    simp only [renderAttrs, List.cons_append, List.nil_append, m.app, m.cons _ _ (show (32 : Nat) < 128 by omega),
      m.cons _ _ (show (61 : Nat) < 128 by omega), m.cons _ _ (show (34 : Nat) < 128 by omega), m.nil, attrSize, i]
    omega

theorem nsBytes_eq {l : List (Option Str × Str)} {k : List (Option Text × Text)} (h : NsRepr l k) :
    nsBytes l = enc (renderAttrs (k.map nsAttr)) := by
  induction h with
  | nil => rfl
  | @cons p h q gg l k hp hh hl ih =>
    rw [List.map_cons]
    cases p with
    | none =>
      cases q with
      | some q => exact absurd hp id
      | none =>
        rw [nsAttr_none, nsBytes, ih, escape_repr hh]
        simp only [colonBefore, List.cons_append, List.nil_append, List.append_nil, enc_append, List.append_assoc]
        repeat rw [enc_ascii_cons _ _ (by omega)]
        rw [enc_append, enc_ascii_cons 34 _ (by omega)]
    | some p =>
      cases q with
      | none => exact absurd hp id
      | some q =>
        have ep : p.bytes = enc q := Repr.bytes_eq (show Repr p q from hp)
        rw [nsAttr_some, nsBytes, ih, escape_repr hh]
        simp only [colonBefore, ep, List.cons_append, List.nil_append, List.append_nil, List.append_assoc]
        rw [enc_ascii_cons 32 _ (by omega), enc_ascii_cons 120 _ (by omega), enc_ascii_cons 109 _ (by omega), enc_ascii_cons 108 _ (by omega),
          enc_ascii_cons 110 _ (by omega), enc_ascii_cons 115 _ (by omega), enc_ascii_cons 58 _ (by omega), enc_append,
          enc_ascii_cons 61 _ (by omega), enc_ascii_cons 34 _ (by omega), enc_append, enc_ascii_cons 34 _ (by omega)]

theorem attrBytes_eq {l : List (Str × Str)} {k : List (Text × Text)} (h : AttrRepr l k) : attrBytes l = enc (renderAttrs k) := by
  induction h with
  | nil => rfl
  | @cons k v a b l mm hk hv hl ih =>
    simp only [attrBytes, renderAttrs, ih, escape_repr hv, hk.bytes_eq, List.cons_append, List.nil_append, List.append_assoc]
    rw [enc_ascii_cons 32 _ (by omega), enc_append, enc_ascii_cons 61 _ (by omega), enc_ascii_cons 34 _ (by omega), enc_append,
      enc_ascii_cons 34 _ (by omega)]

theorem ascii_cp {l : List Nat} (h : ∀ c ∈ l, c < 128) : ∀ c ∈ l, CodePoint c := fun c hc => by
  have := h c hc; unfold CodePoint; omega

theorem renderAttrs_cp : ∀ {k : List (Text × Text)}, (∀ a ∈ k, (∀ c ∈ a.1, CodePoint c) ∧ ∀ c ∈ a.2, CodePoint c) →
    ∀ c ∈ renderAttrs k, CodePoint c := by
  intro k
  induction k with
  | nil => intro _ c hc; cases hc
  | cons a k ih =>
    obtain ⟨n, v⟩ := a
    intro h c hc
    have h1 := h (n, v) (by simp)
    have i := ih (fun a ha => h a (by simp [ha])) c
    have e := esc_cp (q := true) h1.2 c
    simp only [renderAttrs, List.mem_append, List.mem_cons, List.not_mem_nil, or_false] at hc
    have a1 := h1.1 c
    unfold CodePoint at *
    simp only at a1
    rcases hc with (((rfl | hc) | rfl | rfl) | hc) | rfl | hc
    · omega
    · exact a1 hc
    · omega
    · omega
    · exact e hc
    · omega
    · exact i hc

theorem ns_cp {l : List (Option Str × Str)} {k : List (Option Text × Text)} (h : NsRepr l k) :
    ∀ a ∈ k.map nsAttr, (∀ c ∈ a.1, CodePoint c) ∧ ∀ c ∈ a.2, CodePoint c := by
  induction h with
  | nil => intro a ha; cases ha
  | @cons p h q gg l k hp hh hl ih =>
    intro a ha
    rw [List.map_cons] at ha
    rcases List.mem_cons.1 ha with rfl | ha
    · cases q with
      | none => exact ⟨ascii_cp (by show ∀ c ∈ [120, 109, 108, 110, 115], c < 128; decide), hh.cp⟩
      | some q =>
        cases p with
        | none => exact absurd hp id
        | some p =>
          refine ⟨?_, hh.cp⟩
          intro c hc
          have hc : c ∈ [120, 109, 108, 110, 115, 58] ++ q := hc
          rcases List.mem_append.1 hc with hc | hc
          · exact ascii_cp (l := [120, 109, 108, 110, 115, 58]) (by decide) c hc
          · exact (show Repr p q from hp).cp c hc
    · exact ih a ha

theorem attr_cp {l : List (Str × Str)} {k : List (Text × Text)} (h : AttrRepr l k) :
    ∀ a ∈ k, (∀ c ∈ a.1, CodePoint c) ∧ ∀ c ∈ a.2, CodePoint c := by
  induction h with
  | nil => intro a ha; cases ha
  | @cons k v a b l mm hk hv hl ih =>
    intro x hx
    rcases List.mem_cons.1 hx with rfl | hx
    · exact ⟨hk.cp, hv.cp⟩
    · exact ih x hx

theorem wrap_size (m : Meas f g) {t : Text} (h : (enc t).length < 2^31) : wrap32 (g t : Int) = g t := by
  have := m.le t
  exact wrap32_of_in (by unfold InI32; omega)

theorem encodeNsdefs_repr {l : List (Option Str × Str)} {k : List (Option Text × Text)} (h : NsRepr l k)
    (hs : (enc (renderAttrs (k.map nsAttr))).length < 2^31) :
    ∃ r, encodeNsdefs l = .ok r ∧ Repr r (renderAttrs (k.map nsAttr)) := by
  unfold encodeNsdefs
  rw [nsSize_eq meas_chars h hs, nsSize_eq meas_bytes h hs, wrap_size meas_chars hs, wrap_size meas_bytes hs, nsBytes_eq h]
  exact mkStr_repr (renderAttrs_cp (ns_cp h)) hs rfl rfl

theorem encodeAttrs_repr {l : List (Str × Str)} {k : List (Text × Text)} (h : AttrRepr l k)
    (hs : (enc (renderAttrs k)).length < 2^31) :
    ∃ r, encodeAttrs l = .ok r ∧ Repr r (renderAttrs k) := by
  unfold encodeAttrs
  rw [attrSize_eq meas_chars h hs, attrSize_eq meas_bytes h hs, wrap_size meas_chars hs, wrap_size meas_bytes hs, attrBytes_eq h]
  exact mkStr_repr (renderAttrs_cp (attr_cp h)) hs rfl rfl

theorem renderAttrs_app (a b : List (Text × Text)) : renderAttrs (a ++ b) = renderAttrs a ++ renderAttrs b := by
  induction a with
  | nil => rfl
  | cons x a ih =>
    obtain ⟨k, v⟩ := x
    simp only [List.cons_append, renderAttrs, ih, List.append_assoc]

end Verif.Xml
