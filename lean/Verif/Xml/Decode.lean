import Verif.Xml.Parse
/-!
# Decoding the tree of the reader
-/
namespace Verif.Xml
open Verif Verif.Str

theorem getProp_self : ∀ (l : List (Option Text × Text × Text)), (l.map fun a => a.2.1).Nodup → ∀ a ∈ l, getProp a.2.1 l = some a.2.2 := by
  intro l
  induction l with
  | nil => intro _ a h; cases h
  | cons b l ih =>
    intro hnd a ha
    obtain ⟨p, n, v⟩ := b
    rw [List.map_cons, List.nodup_cons] at hnd
    rw [getProp]
    rcases List.mem_cons.1 ha with rfl | ha'
    · rw [if_pos rfl]
    · rw [if_neg, ih hnd.2 a ha']
      rintro rfl
      exact hnd.1 (List.mem_map.2 ⟨a, ha', rfl⟩)

theorem attrOf_self {l : List (Option Text × Text × Text)} (h : (l.map fun a => a.2.1).Nodup) :
    l.map (attrOf l) = l.map fun a => (qname a.1 a.2.1, a.2.2) := by
  apply List.map_congr_left
  intro a ha
  unfold attrOf
  rw [getProp_self l h a ha]
  obtain ⟨p, n, v⟩ := a
  cases p <;> rfl

theorem splitName_none {n l : Text} (h : splitName n = (none, l)) : l = n := by
  unfold splitName at h
  split at h
  · cases h
  · cases h; rfl

theorem splitName_some {n p l : Text} (h : splitName n = (some p, l)) : n = p ++ 58 :: l := by
  unfold splitName at h
  split at h
  · rename_i c l' hd
    cases h
    have h1 := List.takeWhile_append_dropWhile (p := fun x : Nat => decide (x ≠ 58)) (l := n)
    have h2 : ¬ ((fun x : Nat => decide (x ≠ 58)) c = true) := by
      have h3 := List.head_dropWhile_not (fun x : Nat => decide (x ≠ 58)) (l := n) (by rw [hd]; simp)
      simp only [hd, List.head_cons] at h3
      intro h4
      exact absurd (h3.symm.trans h4) (by simp)
    simp only [ne_eq, decide_not, Bool.not_eq_true', decide_eq_false_iff_not, Decidable.not_not] at h2
    rw [hd, h2] at h1
    exact h1.symm
  · cases h

theorem resolveName_join (scope : List Text) (n : Text) : qname (resolveName scope n).1 (resolveName scope n).2 = n := by
  unfold resolveName
  split
  · rename_i l h
    exact splitName_none h
  · rename_i p l h
    split
    · exact (splitName_some h).symm
    · rfl

theorem resolveName_q {scope : List Text} {pre : Option Text} {tag : Text} (hp : ∀ p, pre = some p → NCName p ∧ p ∈ scope) (ht : NCName tag) :
    resolveName scope (qname pre tag) = (pre, tag) := by
  unfold resolveName
  cases pre with
  | none => rw [show qname none tag = tag from rfl, no_colon ht.noColon]
  | some p =>
    obtain ⟨h1, h2⟩ := hp p rfl
    rw [show qname (some p) tag = p ++ 58 :: tag from rfl, no_colon_split h1.noColon]
    simp only
    rw [if_pos h2]

theorem filterMap_decl {ns : List (Option Text × Text)} {attrs : List (Text × Text)} (hn : ∀ d ∈ ns, GoodNs d) (ha : ∀ a ∈ attrs, GoodAttr a) :
    (attrsOf ns attrs).filterMap declares = ns ∧ (attrsOf ns attrs).filter (fun a => (declares a).isNone) = attrs := by
  have h1 : (ns.map nsAttr).filterMap declares = ns ∧ (ns.map nsAttr).filter (fun a => (declares a).isNone) = [] := by
    clear ha
    induction ns with
    | nil => exact ⟨rfl, rfl⟩
    | cons d l ih =>
      have i := ih (fun x hx => hn x (by simp [hx]))
      have hd := declares_ns (hn d (by simp))
      simp only [List.map_cons, List.filterMap_cons, List.filter_cons, hd, i]
      simp
  have h2 : attrs.filterMap declares = [] ∧ attrs.filter (fun a => (declares a).isNone) = attrs := by
    induction attrs with
    | nil => exact ⟨rfl, rfl⟩
    | cons d l ih =>
      have i := ih (fun x hx => ha x (by simp [hx]))
      have hd := declares_attr (ha d (by simp))
      simp only [List.filterMap_cons, List.filter_cons, hd, i]
      simp
  unfold attrsOf
  rw [List.filterMap_append, List.filter_append, h1.1, h1.2, h2.1, h2.2]
  exact ⟨List.append_nil _, rfl⟩

theorem resolves_text (scope : List Text) (u : Text) (l : List Raw) :
    resolves scope (textItem u ++ l) = (if u = [] then [] else [.text u]) ++ resolves scope l := by
  unfold textItem
  split <;> rfl

theorem collect_items (scope : List Text) (u : Text) (l : List Tree) : collect (resolves scope (textItem u ++ items l)) = .ok u := by
  have h : collect (resolves scope (items l)) = .ok [] := by
    cases l with
    | nil => simp only [items, resolves, collect]
    | cons t l => obtain ⟨_, _, _, _, _, _, _⟩ := t; simp only [items, resolves, resolve, collect]
  rw [resolves_text]
  split
  · rename_i e; subst e; exact h
  · show (collect (.text u :: resolves scope (items l))) = _
    rw [collect, h, Res.ok_bind, List.append_nil, Res.pure_eq]

theorem elems_text (scope : List Text) (u : Text) (l : List Raw) : elems (resolves scope (textItem u ++ l)) = elems (resolves scope l) := by
  rw [resolves_text]
  split
  · rfl
  · show elems (.text u :: resolves scope l) = _
    rw [elems]

theorem someText_getD (t : Option Text) : someText (t.getD []) = normText t := by
  cases t with
  | none => rfl
  | some t =>
    cases t with
    | nil => rfl
    | cons c t => rfl

mutual
theorem node_decode : ∀ (t : Tree) (scope : List Text), Good scope t → ptr2node (resolve scope (rawOf t)) = .ok ((norm t).setTail none)
  | .mk tag ns pre attrs ch tx tl, scope, h => by
    cases h with
    | mk ht hns hnd hp ha had hloc hch hx hl =>
    simp only [rawOf, resolve, filterMap_decl hns ha, resolveName_q hp ht, ptr2node]
    rw [collect_items, Res.ok_bind, elems_text, elems_decode ch _ hch, Res.ok_bind, Res.pure_eq, attrOf_self (by
      rw [List.map_map]
      exact hloc), List.map_map]
    have e : (attrs.map ((fun a => (qname a.1 a.2.1, a.2.2)) ∘ fun a : Text × Text =>
        ((resolveName (ns.filterMap Prod.fst ++ scope) a.1).1, (resolveName (ns.filterMap Prod.fst ++ scope) a.1).2, a.2))) = attrs := by
      conv => rhs; rw [← List.map_id attrs]
      apply List.map_congr_left
      intro a _
      simp only [Function.comp, resolveName_join]
      rfl
    rw [e, someText_getD]
    rfl
theorem elems_decode : ∀ (l : List Tree) (scope : List Text), Goods scope l → elems (resolves scope (items l)) = .ok (norms l)
  | [], _, _ => by simp only [items, resolves, elems, norms]
  | .mk tag ns pre attrs ch tx tl :: l, scope, h => by
    cases h with
    | cons hg hl =>
    have i := node_decode (.mk tag ns pre attrs ch tx tl) scope hg
    simp only [rawOf, resolve] at i
    simp only [items, resolves, resolve, elems]
    rw [i, Res.ok_bind, collect_items, Res.ok_bind, elems_text, elems_decode l scope hl, Res.ok_bind, Res.pure_eq, someText_getD]
    rfl
end

/-! ### The characters of an encoded tree -/

/-- A character of XML other than a carriage return. -/
def OkChar (c : Nat) : Prop := isChar c = true ∧ c ≠ 13

theorem name_ok {c : Nat} (h : isName c = true) : OkChar c := by
  unfold isName isStart at h
  unfold OkChar isChar
  simp only [Bool.or_eq_true, Bool.and_eq_true, decide_eq_true_eq] at h ⊢
  omega

theorem ok_app {a b : Text} (ha : ∀ c ∈ a, OkChar c) (hb : ∀ c ∈ b, OkChar c) : ∀ c ∈ a ++ b, OkChar c := by
  intro c h
  rcases List.mem_append.1 h with h | h
  · exact ha c h
  · exact hb c h

theorem ok_lit {a : Text} (h : a.all (fun c => isChar c && c != 13) = true) : ∀ c ∈ a, OkChar c := by
  intro c hc
  have := List.all_eq_true.1 h c hc
  simp only [Bool.and_eq_true, bne_iff_ne] at this
  exact this

theorem esc_ok (q : Bool) {t : Text} (h : ∀ c ∈ t, OkChar c) : ∀ c ∈ esc q t, OkChar c := by
  intro c hc
  obtain ⟨d, hd, hc⟩ := List.mem_flatMap.1 hc
  unfold escChar at hc
  split at hc
  · exact ok_lit (by decide) c hc
  split at hc
  · exact ok_lit (by decide) c hc
  split at hc
  · exact ok_lit (by decide) c hc
  · rw [List.mem_singleton] at hc
    subst hc
    exact h _ hd

theorem escOpt_ok {t : Option Text} (h : PlainOpt t) : ∀ c ∈ escOpt t, OkChar c := by
  cases t with
  | none => intro c hc; cases hc
  | some t => exact esc_ok false h.1

theorem isName_ok {t : Text} (h : IsName t) : ∀ c ∈ t, OkChar c := fun c hc => name_ok (h.all c hc)

theorem renderAttrs_ok : ∀ {l : List (Text × Text)}, (∀ a ∈ l, IsName a.1 ∧ PlainValue a.2) → ∀ c ∈ renderAttrs l, OkChar c := by
  intro l
  induction l with
  | nil => intro _ c hc; cases hc
  | cons a l ih =>
    intro h
    obtain ⟨k, v⟩ := a
    have ha := h (k, v) (by simp)
    have e : renderAttrs ((k, v) :: l) = [32] ++ (k ++ ([61, 34] ++ (esc true v ++ ([34] ++ renderAttrs l)))) := by simp [renderAttrs]
    rw [e]
    exact ok_app (ok_lit (by decide)) (ok_app (isName_ok ha.1) (ok_app (ok_lit (by decide))
      (ok_app (esc_ok true fun c hc => ⟨(ha.2 c hc).1, (ha.2 c hc).2.1⟩) (ok_app (ok_lit (by decide)) (ih fun a h' => h a (by simp [h']))))))

mutual
theorem body_ok : ∀ (t : Tree) (scope : List Text), Good scope t → ∀ c ∈ bodyOf t, OkChar c
  | .mk tag ns pre attrs ch tx tl, scope, h => by
    cases h with
    | mk ht hns hnd hp ha had hloc hch hx hl =>
    have hk := isName_ok (qname_isName (fun p hp' => (hp p hp').1) ht)
    have hat := renderAttrs_ok (attrsOf_ok hns ha)
    unfold bodyOf
    refine ok_app (ok_app hk hat) ?_
    split
    · exact ok_lit (by decide)
    · exact ok_app (ok_app (ok_app (ok_app (ok_app (a := [62]) (ok_lit (by decide)) (escOpt_ok hx)) (renders_ok ch _ hch)) (ok_lit (by decide))) hk)
        (ok_lit (by decide))
theorem renders_ok : ∀ (l : List Tree) (scope : List Text), Goods scope l → ∀ c ∈ joinWith [] (renders false 0 l), OkChar c
  | [], _, _ => by intro c hc; cases hc
  | .mk tag ns pre attrs ch tx tl :: l, scope, h => by
    cases h with
    | cons hg hl =>
    have i := body_ok (.mk tag ns pre attrs ch tx tl) scope hg
    have j := renders_ok l scope hl
    rw [join_nil] at j ⊢
    simp only [renders, List.flatten_cons, render_body, tailOf]
    cases hg with
    | mk ht hns hnd hp ha had hloc hch hx hl' =>
    exact ok_app (ok_app (a := 60 :: bodyOf _) (ok_app (a := [60]) (ok_lit (by decide)) i) (escOpt_ok hl')) j
end

theorem eol_id : ∀ t : Text, (∀ c ∈ t, OkChar c) → eol t = t := by
  intro t
  induction t with
  | nil => intro _; rfl
  | cons c t ih =>
    intro h
    have hc := (h c (by simp)).2
    rw [eol, ih fun d hd => h d (by simp [hd]), if_neg hc]
    rintro u rfl
    exact fun _ => hc rfl

theorem parse_render {t : Tree} (h : Good [xmlPrefix] t) (ht : tailOf t = none) :
    parse (render false 0 t) = some (resolve [xmlPrefix] (rawOf t)) := by
  have hb := body_ok t _ h
  have e : render false 0 t = 60 :: bodyOf t := by rw [render_body, ht]; simp [escOpt]
  have hok : ∀ c ∈ 60 :: bodyOf t, OkChar c := ok_app (a := [60]) (ok_lit (by decide)) hb
  have hr := element_read t [xmlPrefix] ((bodyOf t).length + 1) [] h (by simp)
  rw [List.append_nil] at hr
  rw [e, parse, document, if_pos (List.all_eq_true.2 fun c hc => (hok c hc).1), eol_id _ hok, dropSpace _ (by rfl)]
  simp only
  rw [hr]
  simp

end Verif.Xml
