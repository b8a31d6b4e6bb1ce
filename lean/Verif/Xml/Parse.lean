import Verif.Xml.Spec
/-!
# Encoded trees are XML: the reader reads them back
-/
namespace Verif.Xml
open Verif Verif.Str

theorem esc_cons (q : Bool) (c : Nat) (t : Text) : esc q (c :: t) = escChar q c ++ esc q t := rfl

theorem escChar_pos (q : Bool) (c : Nat) : 1 ≤ (escChar q c).length := by
  unfold escChar
  split
  · simp
  split
  · simp
  split <;> simp

theorem after_app (p r : Text) : after p (p ++ r) = some r := by
  unfold after
  rw [List.take_left', if_pos rfl, List.drop_left' rfl]
  rfl

theorem ref_amp (r : Text) : reference (97 :: 109 :: 112 :: 59 :: r) = some (38, r) := by
  unfold reference
  rw [show (97 :: 109 :: 112 :: 59 :: r : Text) = [97, 109, 112, 59] ++ r from rfl, after_app]
theorem ref_lt (r : Text) : reference (108 :: 116 :: 59 :: r) = some (60, r) := by
  unfold reference
  have h : after [97, 109, 112, 59] (108 :: 116 :: 59 :: r) = none := by
    unfold after; rw [if_neg (by simp)]
  rw [h]
  simp only
  rw [show (108 :: 116 :: 59 :: r : Text) = [108, 116, 59] ++ r from rfl, after_app]
theorem ref_quot (r : Text) : reference (113 :: 117 :: 111 :: 116 :: 59 :: r) = some (34, r) := by
  unfold reference
  have h : after [97, 109, 112, 59] (113 :: 117 :: 111 :: 116 :: 59 :: r) = none := by
    unfold after; rw [if_neg (by simp)]
  have h2 : after [108, 116, 59] (113 :: 117 :: 111 :: 116 :: 59 :: r) = none := by
    unfold after; rw [if_neg (by simp)]
  have h3 : after [103, 116, 59] (113 :: 117 :: 111 :: 116 :: 59 :: r) = none := by
    unfold after; rw [if_neg (by simp)]
  rw [h]
  simp only
  rw [h2]
  simp only
  rw [h3]
  simp only
  rw [show (113 :: 117 :: 111 :: 116 :: 59 :: r : Text) = [113, 117, 111, 116, 59] ++ r from rfl, after_app]

theorem attValue_read : ∀ (v : Text) (r : Text) (n : Nat), PlainValue v → (esc true v ++ 34 :: r).length < n →
    attValue 34 n (esc true v ++ 34 :: r) = some (v, r) := by
  intro v
  induction v with
  | nil =>
    intro r n _ hn
    cases n with
    | zero => omega
    | succ n => show attValue 34 (n + 1) (34 :: r) = _; simp [attValue]
  | cons c v ih =>
    intro r n hv hn
    obtain ⟨n, rfl⟩ : ∃ k, n = k + 1 := ⟨n - 1, by omega⟩
    have hc := hv c (by simp)
    have hv' : PlainValue v := fun d hd => hv d (by simp [hd])
    rw [esc_cons] at hn ⊢
    have hl : (esc true v ++ 34 :: r).length < n := by
      have := escChar_pos true c
      simp only [List.append_assoc, List.length_append] at hn ⊢
      omega
    have i := ih r n hv' hl
    by_cases h1 : c = 38
    · subst h1
      show attValue 34 (n + 1) (38 :: 97 :: 109 :: 112 :: 59 :: (esc true v ++ 34 :: r)) = _
      rw [attValue, if_neg (by omega), if_neg (by omega), if_pos rfl, ref_amp]
      simp only [i, push]
    by_cases h2 : c = 60
    · subst h2
      show attValue 34 (n + 1) (38 :: 108 :: 116 :: 59 :: (esc true v ++ 34 :: r)) = _
      rw [attValue, if_neg (by omega), if_neg (by omega), if_pos rfl, ref_lt]
      simp only [i, push]
    by_cases h3 : c = 34
    · subst h3
      show attValue 34 (n + 1) (38 :: 113 :: 117 :: 111 :: 116 :: 59 :: (esc true v ++ 34 :: r)) = _
      rw [attValue, if_neg (by omega), if_neg (by omega), if_pos rfl, ref_quot]
      simp only [i, push]
    have e : escChar true c = [c] := by
      unfold escChar
      rw [if_neg h1, if_neg h2, if_neg (by simp [h3])]
    rw [e]
    show attValue 34 (n + 1) (c :: (esc true v ++ 34 :: r)) = _
    rw [attValue, if_neg h3, if_neg h2, if_neg h1, i]
    have hs : (if isSpace c then 32 else c) = c := by
      unfold isSpace
      by_cases h : c = 32
      · subst h; rfl
      · rw [if_neg]; simp; omega
    rw [hs]
    rfl

theorem esc_head (q : Bool) (t r : Text) : ∀ a b x, esc q t ++ 60 :: r = a :: b :: x → a = 93 → b = 62 →
    ∃ u, t = 93 :: 62 :: u := by
  intro a b x e ha hb
  subst ha hb
  cases t with
  | nil => simp [esc] at e
  | cons c t =>
    rw [esc_cons] at e
    have hc : escChar q c = [c] ∨ ∃ y, escChar q c = 38 :: y := by
      unfold escChar
      split
      · exact Or.inr ⟨_, rfl⟩
      split
      · exact Or.inr ⟨_, rfl⟩
      split
      · exact Or.inr ⟨_, rfl⟩
      · exact Or.inl rfl
    rcases hc with hc | ⟨y, hc⟩
    · rw [hc] at e
      simp only [List.cons_append, List.nil_append, List.cons.injEq] at e
      obtain ⟨rfl, e⟩ := e
      cases t with
      | nil => simp [esc] at e
      | cons d t =>
        rw [esc_cons] at e
        have hd : escChar q d = [d] ∨ ∃ y, escChar q d = 38 :: y := by
          unfold escChar
          split
          · exact Or.inr ⟨_, rfl⟩
          split
          · exact Or.inr ⟨_, rfl⟩
          split
          · exact Or.inr ⟨_, rfl⟩
          · exact Or.inl rfl
        rcases hd with hd | ⟨y, hd⟩
        · rw [hd] at e
          simp only [List.cons_append, List.nil_append, List.cons.injEq] at e
          obtain ⟨rfl, -⟩ := e
          exact ⟨t, rfl⟩
        · rw [hd] at e
          simp at e
    · rw [hc] at e
      simp at e

theorem charData_read : ∀ (t : Text) (r : Text) (n : Nat), Plain t → (esc false t ++ 60 :: r).length < n →
    charData n (esc false t ++ 60 :: r) = some (t, 60 :: r) := by
  intro t
  induction t with
  | nil =>
    intro r n _ hn
    cases n with
    | zero => omega
    | succ n => show charData (n + 1) (60 :: r) = _; simp [charData]
  | cons c t ih =>
    intro r n hv hn
    obtain ⟨n, rfl⟩ : ∃ k, n = k + 1 := ⟨n - 1, by omega⟩
    have hc := hv.1 c (by simp)
    have hv' : Plain t := ⟨fun d hd => hv.1 d (by simp [hd]), fun a b e => hv.2 (c :: a) b (by rw [e]; rfl)⟩
    rw [esc_cons] at hn ⊢
    have hl : (esc false t ++ 60 :: r).length < n := by
      have := escChar_pos false c
      simp only [List.append_assoc, List.length_append] at hn ⊢
      omega
    have i := ih r n hv' hl
    by_cases h1 : c = 38
    · subst h1
      show charData (n + 1) (38 :: 97 :: 109 :: 112 :: 59 :: (esc false t ++ 60 :: r)) = _
      rw [charData, if_neg (by omega), if_neg (by omega), if_pos rfl, ref_amp]
      simp only [i, push]
    by_cases h2 : c = 60
    · subst h2
      show charData (n + 1) (38 :: 108 :: 116 :: 59 :: (esc false t ++ 60 :: r)) = _
      rw [charData, if_neg (by omega), if_neg (by omega), if_pos rfl, ref_lt]
      simp only [i, push]
    have e : escChar false c = [c] := by
      unfold escChar
      rw [if_neg h1, if_neg h2, if_neg (by simp)]
    rw [e]
    show charData (n + 1) (c :: (esc false t ++ 60 :: r)) = _
    have h3 : ¬ (c = 93 ∧ (esc false t ++ 60 :: r).take 2 = [93, 62]) := by
      rintro ⟨rfl, h⟩
      obtain ⟨x, ex⟩ : ∃ x, esc false t ++ 60 :: r = 93 :: 62 :: x := by
        have := List.take_append_drop 2 (esc false t ++ 60 :: r)
        rw [h] at this
        exact ⟨_, this.symm⟩
      obtain ⟨u, rfl⟩ := esc_head false t r _ _ _ ex rfl rfl
      exact hv.2 [] u rfl
    rw [charData, if_neg h2, if_neg h3, if_neg h1, i]
    rfl

/-! ### Names and attributes -/

/-- A name of XML. -/
def IsName (k : Text) : Prop := ∃ c u, k = c :: u ∧ isStart c = true ∧ ∀ d ∈ u, isName d = true

theorem takeWhile_app {α : Type} {p : α → Bool} {a b : List α} (h : ∀ x ∈ a, p x = true) (hb : ∀ x y, b = x :: y → p x = false) :
    (a ++ b).takeWhile p = a ∧ (a ++ b).dropWhile p = b := by
  induction a with
  | nil =>
    cases b with
    | nil => exact ⟨rfl, rfl⟩
    | cons x y => have := hb x y rfl; simp [this]
  | cons x a ih =>
    have := h x (by simp)
    have i := ih (fun y hy => h y (by simp [hy]))
    rw [List.cons_append, List.takeWhile_cons, List.dropWhile_cons, if_pos this, if_pos this]
    exact ⟨by rw [i.1], i.2⟩

theorem name_read {k r : Text} (h : IsName k) (hr : ∀ x y, r = x :: y → isName x = false) : name (k ++ r) = some (k, r) := by
  obtain ⟨c, u, rfl, hc, hu⟩ := h
  rw [List.cons_append, name, if_pos hc, (takeWhile_app hu hr).1, (takeWhile_app hu hr).2]

theorem start_not_space {c : Nat} (h : isStart c = true) : isSpace c = false := by
  unfold isStart at h
  unfold isSpace
  simp only [Bool.or_eq_true, Bool.and_eq_true, decide_eq_true_eq] at h
  simp only [Bool.or_eq_false_iff, decide_eq_false_iff_not]
  omega

theorem start_not {c : Nat} (h : isStart c = true) : c ≠ 62 ∧ c ≠ 47 ∧ c ≠ 60 := by
  unfold isStart at h
  simp only [Bool.or_eq_true, Bool.and_eq_true, decide_eq_true_eq] at h
  omega

theorem dropSpace {c : Nat} (t : Text) (h : isSpace c = false) : (c :: t).dropWhile isSpace = c :: t := by
  rw [List.dropWhile_cons, if_neg (by simp [h])]

theorem oneAttr_read {k v : Text} (r : Text) (hk : IsName k) (hv : PlainValue v) :
    oneAttr (k ++ 61 :: 34 :: (esc true v ++ 34 :: r)) = some ((k, v), r) := by
  unfold oneAttr
  rw [name_read hk (by intro x y e; simp only [List.cons.injEq] at e; rw [← e.1]; rfl)]
  simp only [dropSpace _ (show isSpace 61 = false from rfl), dropSpace _ (show isSpace 34 = false from rfl)]
  rw [if_pos (Or.inl trivial), attValue_read v r _ hv (by omega)]

theorem attributes_read (r : Text) (hr : (∃ y, r = 62 :: y) ∨ ∃ y, r = 47 :: y) : ∀ (l : List (Text × Text)) (n : Nat),
    (∀ a ∈ l, IsName a.1 ∧ PlainValue a.2) → (renderAttrs l ++ r).length < n → attributes n (renderAttrs l ++ r) = some (l, r) := by
  intro l
  induction l with
  | nil =>
    intro n _ hn
    obtain ⟨n, rfl⟩ : ∃ k, n = k + 1 := ⟨n - 1, by omega⟩
    show attributes (n + 1) r = _
    rcases hr with ⟨y, rfl⟩ | ⟨y, rfl⟩
    · rw [attributes, dropSpace _ (show isSpace 62 = false from rfl), if_pos (by simp)]
    · rw [attributes, dropSpace _ (show isSpace 47 = false from rfl), if_pos (by simp)]
  | cons a l ih =>
    intro n h hn
    obtain ⟨k, v⟩ := a
    obtain ⟨n, rfl⟩ : ∃ k, n = k + 1 := ⟨n - 1, by omega⟩
    have ha := h (k, v) (by simp)
    have e : renderAttrs ((k, v) :: l) ++ r = 32 :: (k ++ 61 :: 34 :: (esc true v ++ 34 :: (renderAttrs l ++ r))) := by
      simp [renderAttrs]
    rw [e] at hn ⊢
    have hl : (renderAttrs l ++ r).length < n := by
      simp only [List.length_cons, List.length_append] at hn ⊢
      omega
    have hone := oneAttr_read (renderAttrs l ++ r) ha.1 ha.2
    obtain ⟨c, u, hku, hc, hu⟩ := ha.1
    simp only at hku
    subst hku
    have hd : (32 :: (c :: u ++ 61 :: 34 :: (esc true v ++ 34 :: (renderAttrs l ++ r)))).dropWhile isSpace =
        c :: u ++ 61 :: 34 :: (esc true v ++ 34 :: (renderAttrs l ++ r)) := by
      rw [List.dropWhile_cons, if_pos (show isSpace 32 = true from rfl), List.cons_append, dropSpace _ (start_not_space hc)]
    have hn2 := start_not hc
    rw [attributes, hd, if_neg (by
      simp only [List.cons_append, List.head?_cons, Option.some.injEq]
      omega), if_pos (by simp only [List.length_cons, List.length_append]; omega), hone]
    simp only
    rw [ih n (fun a ha => h a (by simp [ha])) hl]

/-! ### Elements -/

/-- What is written for a tree, as the reader sees it. -/
def attrsOf (ns : List (Option Text × Text)) (attrs : List (Text × Text)) : List (Text × Text) := ns.map nsAttr ++ attrs

mutual
def rawOf : Tree → Raw
  | .mk tag ns pre attrs ch tx _ => .elem (qname pre tag) (attrsOf ns attrs) (textItem (tx.getD []) ++ items ch)
def items : List Tree → List Raw
  | [] => []
  | .mk tag ns pre attrs ch tx tl :: l =>
    .elem (qname pre tag) (attrsOf ns attrs) (textItem (tx.getD []) ++ items ch) :: (textItem (tl.getD []) ++ items l)
end

/-- The text of an element after `<`, without its tail. -/
def bodyOf : Tree → Text
  | .mk tag ns pre attrs ch tx _ => qname pre tag ++ renderAttrs (attrsOf ns attrs) ++
      (if tx.isNone && ch.isEmpty then [47, 62]
        else 62 :: escOpt tx ++ joinWith [] (renders false 0 ch) ++ [60, 47] ++ qname pre tag ++ [62])

def tailOf : Tree → Option Text
  | .mk _ _ _ _ _ _ tl => tl

mutual
theorem render_depth : ∀ (t : Tree) (d e : Nat), render false d t = render false e t
  | .mk tag ns pre attrs ch tx tl, d, e => by
    simp only [render, Bool.false_eq_true, if_false, renders_depth ch (d + 1) (e + 1)]
theorem renders_depth : ∀ (l : List Tree) (d e : Nat), renders false d l = renders false e l
  | [], d, e => rfl
  | t :: l, d, e => by simp only [renders, render_depth t d e, renders_depth l d e]
end

theorem join_nil : ∀ l : List Text, joinWith [] l = l.flatten := by
  intro l
  induction l with
  | nil => rfl
  | cons a l ih =>
    cases l with
    | nil => simp [joinWith]
    | cons b l => rw [joinWith, ih]; simp

theorem render_body (t : Tree) (d : Nat) : render false d t = 60 :: bodyOf t ++ escOpt (tailOf t) := by
  obtain ⟨tag, ns, pre, attrs, ch, tx, tl⟩ := t
  simp only [render, Bool.false_eq_true, if_false, bodyOf, tailOf, attrsOf, renders_depth ch (d + 1) 0, List.nil_append, List.append_nil]
  cases h : ch.isEmpty with
  | false => simp
  | true =>
    have : ch = [] := by simpa using h
    subst this
    simp [renders, joinWith]

theorem NCName.isName {t : Text} (h : NCName t) : IsName t := by
  obtain ⟨c, u, e, hc, hu, -⟩ := h
  exact ⟨c, u, e, hc, hu⟩

theorem start_name {c : Nat} (h : isStart c = true) : isName c = true := by unfold isName; simp [h]

theorem IsName.app {p t : Text} (hp : IsName p) (ht : ∀ d ∈ t, isName d = true) : IsName (p ++ t) := by
  obtain ⟨c, u, rfl, hc, hu⟩ := hp
  refine ⟨c, u ++ t, rfl, hc, ?_⟩
  intro d hd
  rcases List.mem_append.1 hd with hd | hd
  · exact hu d hd
  · exact ht d hd

theorem IsName.all {p : Text} (hp : IsName p) : ∀ d ∈ p, isName d = true := by
  obtain ⟨c, u, rfl, hc, hu⟩ := hp
  intro d hd
  rcases List.mem_cons.1 hd with rfl | hd
  · exact start_name hc
  · exact hu d hd

theorem qname_isName {pre : Option Text} {tag : Text} (hp : ∀ p, pre = some p → NCName p) (ht : NCName tag) : IsName (qname pre tag) := by
  cases pre with
  | none => exact ht.isName
  | some p =>
    refine (hp p rfl).isName.app ?_
    intro d hd
    rcases List.mem_cons.1 hd with rfl | hd
    · rfl
    · exact ht.isName.all d hd

theorem xmlns_isName : IsName xmlns := ⟨120, [109, 108, 110, 115], rfl, rfl, by decide⟩

theorem attrsOf_ok {ns : List (Option Text × Text)} {attrs : List (Text × Text)} (hn : ∀ d ∈ ns, GoodNs d) (ha : ∀ a ∈ attrs, GoodAttr a) :
    ∀ a ∈ attrsOf ns attrs, IsName a.1 ∧ PlainValue a.2 := by
  intro a h
  rcases List.mem_append.1 h with h | h
  · obtain ⟨⟨p, v⟩, hd, rfl⟩ := List.mem_map.1 h
    have g := hn _ hd
    cases p with
    | none => exact ⟨xmlns_isName, g.1⟩
    | some p =>
      refine ⟨?_, g.1⟩
      show IsName (xmlns ++ 58 :: p)
      refine xmlns_isName.app ?_
      intro d hd
      rcases List.mem_cons.1 hd with rfl | hd
      · rfl
      · exact (g.2 p rfl).1.isName.all d hd
  · have g := ha a h
    refine ⟨?_, g.1⟩
    rcases g.2 with ⟨h, -⟩ | ⟨p, l, e, hp, hl, -⟩
    · exact h.isName
    · rw [e]
      exact qname_isName (pre := some p) (by intro q e; cases e; exact hp) hl

theorem no_colon_split {a b : Text} (h : 58 ∉ a) : splitName (a ++ 58 :: b) = (some a, b) := by
  unfold splitName
  have := takeWhile_app (p := fun x => decide (x ≠ 58)) (a := a) (b := 58 :: b) (by intro x hx; simp; rintro rfl; exact h hx)
    (by intro x y e; cases e; rfl)
  rw [this.1, this.2]

theorem no_colon {a : Text} (h : 58 ∉ a) : splitName a = (none, a) := by
  unfold splitName
  have := takeWhile_app (p := fun x => decide (x ≠ 58)) (a := a) (b := []) (by intro x hx; simp; rintro rfl; exact h hx) (by intro x y e; cases e)
  rw [List.append_nil] at this
  rw [this.2]

theorem NCName.noColon {t : Text} (h : NCName t) : 58 ∉ t := by obtain ⟨_, _, _, _, _, h⟩ := h; exact h

theorem xmlns_noColon : 58 ∉ xmlns := by decide

theorem declares_ns {d : Option Text × Text} (h : GoodNs d) : declares (nsAttr d) = some d := by
  obtain ⟨p, v⟩ := d
  cases p with
  | none => rfl
  | some p =>
    show declares (xmlns ++ 58 :: p, v) = _
    unfold declares
    rw [if_neg (by
      intro e
      have := congrArg List.length e
      simp at this), no_colon_split xmlns_noColon]
    simp

theorem declares_attr {a : Text × Text} (h : GoodAttr a) : declares a = none := by
  unfold declares
  rcases h.2 with ⟨hn, hx⟩ | ⟨p, l, e, hp, hl, hx⟩
  · rw [if_neg hx, no_colon hn.noColon]
    simp
  · rw [e, no_colon_split hp.noColon, if_neg (by
      intro e
      have : 58 ∈ xmlns := by rw [← e]; simp
      exact absurd this xmlns_noColon)]
    simp [hx]

theorem attrsOf_nodup {ns : List (Option Text × Text)} {attrs : List (Text × Text)} (hn : ∀ d ∈ ns, GoodNs d) (ha : ∀ a ∈ attrs, GoodAttr a)
    (n1 : (ns.map Prod.fst).Nodup) (n2 : (attrs.map Prod.fst).Nodup) : ((attrsOf ns attrs).map Prod.fst).Nodup := by
  have key : ∀ d ∈ ns, ∀ a, (nsAttr d).1 = a.1 → (declares a).map Prod.fst = some d.1 := by
    intro d hd a e
    have := declares_ns (hn d hd)
    obtain ⟨k, v⟩ := a
    simp only at e
    subst e
    unfold declares at this ⊢
    simp only at this ⊢
    split at this
    · rename_i h
      rw [if_pos h]
      rw [← Option.some.inj this]
      rfl
    · rename_i h
      rw [if_neg h]
      split at this
      · rename_i h2
        rw [if_pos h2]
        rw [← Option.some.inj this]
        rfl
      · cases this
  unfold attrsOf
  rw [List.map_append, List.nodup_append]
  refine ⟨?_, n2, ?_⟩
  · rw [List.map_map]
    unfold List.Nodup at n1 ⊢
    rw [List.pairwise_map] at n1 ⊢
    refine n1.imp_of_mem ?_
    intro a b ha hb hne e
    have k1 := key a ha (nsAttr b) e
    rw [declares_ns (hn b hb)] at k1
    simp at k1
    exact hne k1.symm
  · intro x hx y hy e
    obtain ⟨u, hu, rfl⟩ := List.mem_map.1 hx
    obtain ⟨d, hd, rfl⟩ := List.mem_map.1 hu
    obtain ⟨a, ha', rfl⟩ := List.mem_map.1 hy
    have k1 := key d hd a e
    rw [declares_attr (ha a ha')] at k1
    simp at k1

theorem dropWhile_62 (r : Text) : (62 :: r).dropWhile isSpace = 62 :: r := dropSpace r rfl

theorem element_succ (n : Nat) {k : Text} {l : List (Text × Text)} {r : Text} (hk : IsName k) (hl : ∀ a ∈ l, IsName a.1 ∧ PlainValue a.2)
    (hnd : (l.map Prod.fst).Nodup) :
    element (n + 1) (k ++ renderAttrs l ++ (47 :: 62 :: r)) = some (.elem k l [], r) ∧
    ∀ c r2 r3, content n r = some (c, r2) → r2 = 60 :: 47 :: (k ++ 62 :: r3) →
      element (n + 1) (k ++ renderAttrs l ++ (62 :: r)) = some (.elem k l c, r3) := by
  have hname : ∀ x, x = 47 ∨ x = 62 → ∀ y, name (k ++ renderAttrs l ++ x :: y) = some (k, renderAttrs l ++ x :: y) := by
    intro x hx y
    rw [List.append_assoc]
    refine name_read hk ?_
    intro a b e
    cases l with
    | nil =>
      simp only [renderAttrs, List.nil_append, List.cons.injEq] at e
      rw [← e.1]
      rcases hx with rfl | rfl <;> rfl
    | cons p l =>
      obtain ⟨p1, p2⟩ := p
      simp only [renderAttrs, List.cons_append, List.cons.injEq] at e
      rw [← e.1]
      rfl
  constructor
  · rw [element, hname 47 (Or.inl rfl)]
    simp only
    rw [attributes_read (47 :: 62 :: r) (Or.inr ⟨_, rfl⟩) l _ hl (by omega)]
    simp only
    rw [if_pos hnd]
  · intro c r2 r3 hc e
    subst e
    rw [element, hname 62 (Or.inr rfl)]
    simp only
    rw [attributes_read (62 :: r) (Or.inl ⟨_, rfl⟩) l _ hl (by omega)]
    simp only
    rw [if_pos hnd, hc]
    simp only
    rw [show (60 :: 47 :: (k ++ 62 :: r3) : Text) = (60 :: 47 :: k) ++ 62 :: r3 from rfl, after_app]
    simp only [dropWhile_62]

theorem plain_nil : Plain [] := ⟨(by intro c hc; cases hc), (by intro a b e; simp at e)⟩

theorem escOpt_plain {tx : Option Text} (h : PlainOpt tx) (r : Text) (n : Nat) (hn : (escOpt tx ++ 60 :: r).length < n) :
    charData n (escOpt tx ++ 60 :: r) = some (tx.getD [], 60 :: r) := by
  cases tx with
  | none => exact charData_read [] r n plain_nil hn
  | some t => exact charData_read t r n h hn

theorem name_head {k : Text} (h : IsName k) : ∃ c u, k = c :: u ∧ c ≠ 47 := by
  obtain ⟨c, u, e, hc, -⟩ := h
  exact ⟨c, u, e, (start_not hc).2.1⟩

theorem content_elem (n : Nat) {tx : Option Text} (h : PlainOpt tx) {c : Nat} {u r2 r3 : Text} {e : Raw} {l : List Raw} (hc : c ≠ 47)
    (he : element n (c :: u) = some (e, r2)) (hl : content n r2 = some (l, r3)) :
    content (n + 1) (escOpt tx ++ 60 :: c :: u) = some (textItem (tx.getD []) ++ e :: l, r3) := by
  rw [content, escOpt_plain h (c :: u) _ (by omega)]
  simp only
  split
  · rename_i heq
    simp only [List.cons.injEq] at heq
    exact absurd heq.2.1 hc
  · rename_i heq
    simp only [List.cons.injEq] at heq
    rw [← heq.2, he]
    simp only
    rw [hl]
  · rename_i hx
    exact absurd rfl (hx _)

theorem content_end (n : Nat) {tx : Option Text} (h : PlainOpt tx) (r : Text) :
    content (n + 1) (escOpt tx ++ 60 :: 47 :: r) = some (textItem (tx.getD []), 60 :: 47 :: r) := by
  rw [content, escOpt_plain h (47 :: r) _ (by omega)]
  rfl

mutual
theorem element_read : ∀ (t : Tree) (scope : List Text) (n : Nat) (rest : Text), Good scope t → (bodyOf t ++ rest).length < n →
    element n (bodyOf t ++ rest) = some (rawOf t, rest)
  | .mk tag ns pre attrs ch tx tl, scope, n, rest, h, hn => by
    cases h with
    | mk ht hns hnd hp ha had _ hch hx hl =>
    obtain ⟨n, rfl⟩ : ∃ k, n = k + 1 := ⟨n - 1, by omega⟩
    have hk := qname_isName (fun p hp' => (hp p hp').1) ht
    have hat := attrsOf_ok hns ha
    have hnodup := attrsOf_nodup hns ha hnd had
    cases hemp : tx.isNone && ch.isEmpty with
    | true =>
      have e1 : tx = none := by cases tx with | none => rfl | some _ => simp at hemp
      have e2 : ch = [] := by cases ch with | nil => rfl | cons _ _ => simp at hemp
      have := (element_succ n (r := rest) hk hat hnodup).1
      simp only [bodyOf, hemp, if_true, rawOf]
      rw [e1, e2]
      rw [List.append_assoc]
      simp only [Option.getD_none, items, List.append_nil]
      exact this
    | false =>
      simp only [bodyOf, hemp, Bool.false_eq_true, if_false, rawOf] at hn ⊢
      have e : qname pre tag ++ renderAttrs (attrsOf ns attrs) ++
          (62 :: escOpt tx ++ joinWith [] (renders false 0 ch) ++ [60, 47] ++ qname pre tag ++ [62]) ++ rest =
          qname pre tag ++ renderAttrs (attrsOf ns attrs) ++
          (62 :: (escOpt tx ++ (joinWith [] (renders false 0 ch) ++ 60 :: 47 :: (qname pre tag ++ 62 :: rest)))) := by simp
      rw [e] at hn ⊢
      refine (element_succ n hk hat hnodup).2 _ _ _ (content_read ch _ n tx _ hch hx ?_) rfl
      simp only [List.length_append, List.length_cons] at hn ⊢
      omega
theorem content_read : ∀ (l : List Tree) (scope : List Text) (n : Nat) (tx : Option Text) (rest : Text), Goods scope l → PlainOpt tx →
    (escOpt tx ++ (joinWith [] (renders false 0 l) ++ 60 :: 47 :: rest)).length < n →
    content n (escOpt tx ++ (joinWith [] (renders false 0 l) ++ 60 :: 47 :: rest)) = some (textItem (tx.getD []) ++ items l, 60 :: 47 :: rest)
  | [], scope, n, tx, rest, h, hx, hn => by
    obtain ⟨n, rfl⟩ : ∃ k, n = k + 1 := ⟨n - 1, by omega⟩
    simp only [renders, joinWith, items, List.append_nil, List.nil_append]
    exact content_end n hx rest
  | .mk tag ns pre attrs ch tx' tl :: l, scope, n, tx, rest, h, hx, hn => by
    cases h with
    | cons hg hl =>
    obtain ⟨n, rfl⟩ : ∃ k, n = k + 1 := ⟨n - 1, by omega⟩
    have e : joinWith [] (renders false 0 (.mk tag ns pre attrs ch tx' tl :: l)) ++ 60 :: 47 :: rest =
        60 :: (bodyOf (.mk tag ns pre attrs ch tx' tl) ++ (escOpt tl ++ (joinWith [] (renders false 0 l) ++ 60 :: 47 :: rest))) := by
      simp only [renders, join_nil, List.flatten_cons, render_body, tailOf]
      simp
    rw [e] at hn ⊢
    have hlen : (escOpt tx ++ 60 :: (bodyOf (.mk tag ns pre attrs ch tx' tl) ++ (escOpt tl ++ (joinWith [] (renders false 0 l) ++ 60 :: 47 :: rest)))).length =
      (escOpt tx).length + (bodyOf (.mk tag ns pre attrs ch tx' tl) ++ (escOpt tl ++ (joinWith [] (renders false 0 l) ++ 60 :: 47 :: rest))).length + 1 := by
      simp only [List.length_append, List.length_cons]
      omega
    have i1 := element_read (.mk tag ns pre attrs ch tx' tl) scope n (escOpt tl ++ (joinWith [] (renders false 0 l) ++ 60 :: 47 :: rest)) hg
      (by omega)
    cases hg with
    | mk ht hns hnd hp ha had _ hch hx' hl' =>
    have i2 := content_read l scope n tl rest hl hl' (by
      have := List.length_append (as := bodyOf (.mk tag ns pre attrs ch tx' tl)) (bs := escOpt tl ++ (joinWith [] (renders false 0 l) ++ 60 :: 47 :: rest))
      omega)
    obtain ⟨c, u, ek, hc⟩ := name_head (qname_isName (fun p hp' => (hp p hp').1) ht)
    obtain ⟨u', eb⟩ : ∃ u', bodyOf (.mk tag ns pre attrs ch tx' tl) ++ (escOpt tl ++ (joinWith [] (renders false 0 l) ++ 60 :: 47 :: rest)) = c :: u' := by
      simp only [bodyOf, ek]
      exact ⟨_, rfl⟩
    rw [eb] at i1 ⊢
    have := content_elem n hx hc i1 i2
    simp only [items, rawOf] at this ⊢
    exact this
end

end Verif.Xml
