import Verif.Xml.Buffer
import Verif.Xml.Decode
/-!
# Properties of the module `xml`
-/
namespace Verif.Xml
open Verif Verif.Str


/-! ### C79: decoding the tree of libxml2 -/

theorem normText_someText (t : Text) : someText t = normText (some t) := by cases t <;> rfl

theorem gap_collect : ∀ (l : List XNode), (∀ c ∈ l, Clean c) → ∃ g t r, l = g ++ r ∧ Gap g t ∧ collect l = .ok t ∧ elems l = elems r ∧
    (r = [] ∨ ∃ name ns defs props ch r', r = .elem name ns defs props ch :: r') := by
  intro l
  induction l with
  | nil => intro _; exact ⟨[], [], [], rfl, .nil, rfl, rfl, Or.inl rfl⟩
  | cons x l ih =>
    intro h
    obtain ⟨g, t, r, e1, hg, e2, e3, hr⟩ := ih (fun c hc => h c (by simp [hc]))
    have hx := h x (by simp)
    cases x with
    | text u => exact ⟨.text u :: g, u ++ t, r, by rw [e1]; rfl, .text hg, by rw [collect, e2]; rfl, by rw [elems, e3], hr⟩
    | cdata u => exact ⟨.cdata u :: g, u ++ t, r, by rw [e1]; rfl, .cdata hg, by rw [collect, e2]; rfl, by rw [elems, e3], hr⟩
    | comment => exact ⟨.comment :: g, t, r, by rw [e1]; rfl, .comment hg, by rw [collect, e2], by rw [elems, e3], hr⟩
    | other => cases hx
    | elem n ns d p c => exact ⟨[], [], _, rfl, .nil, by rw [collect], rfl, Or.inr ⟨n, ns, d, p, c, l, rfl⟩⟩

theorem gap_shows {l : List XNode} (h : ∀ c ∈ l, Clean c) {m : List Tree}
    (hm : elems l = .ok m ∧ ∀ g r, l = g ++ r → (∀ x ∈ g, ∀ n ns d p c, x ≠ .elem n ns d p c) →
      (r = [] ∨ ∃ name ns defs props ch r', r = .elem name ns defs props ch :: r') → ShowsAll r m) :
    ∃ g t r, l = g ++ r ∧ Gap g t ∧ collect l = .ok t ∧ ShowsAll r m := by
  obtain ⟨g, t, r, e1, hg, e2, e3, hr⟩ := gap_collect l h
  refine ⟨g, t, r, e1, hg, e2, hm.2 g r e1 ?_ hr⟩
  clear e1 e2 e3 hr hm h
  induction hg with
  | nil => intro x hx; cases hx
  | text _ ih => intro x hx; rcases List.mem_cons.1 hx with rfl | hx; · intro _ _ _ _ _ e; cases e
                 exact ih x hx
  | cdata _ ih => intro x hx; rcases List.mem_cons.1 hx with rfl | hx; · intro _ _ _ _ _ e; cases e
                  exact ih x hx
  | comment _ ih => intro x hx; rcases List.mem_cons.1 hx with rfl | hx; · intro _ _ _ _ _ e; cases e
                    exact ih x hx

mutual
theorem ptr2node_shows : ∀ (x : XNode), Clean x → ∀ n ns d p c, x = .elem n ns d p c → ∃ t, ptr2node x = .ok t ∧ Shows x t
  | .elem n ns d p c, h, _, _, _, _, _, _ => by
    cases h with
    | elem hp hc =>
    obtain ⟨m, hm⟩ := elems_shows c hc
    obtain ⟨g, t, r, e1, hg, e2, hs⟩ := gap_shows hc hm
    refine ⟨.mk n d ns (p.map fun a => (qname a.1 a.2.1, a.2.2)) m (normText (some t)) none, ?_, ?_⟩
    · rw [ptr2node, e2, Res.ok_bind, hm.1, Res.ok_bind, Res.pure_eq, attrOf_self hp, normText_someText]
    · rw [e1]
      exact .mk hg hs
  | .text _, _, _, _, _, _, _, e => by cases e
  | .cdata _, _, _, _, _, _, _, e => by cases e
  | .comment, _, _, _, _, _, _, e => by cases e
  | .other, _, _, _, _, _, _, e => by cases e
theorem elems_shows : ∀ (l : List XNode), (∀ c ∈ l, Clean c) → ∃ m, elems l = .ok m ∧ ∀ g r, l = g ++ r →
    (∀ x ∈ g, ∀ n ns d p c, x ≠ .elem n ns d p c) →
    (r = [] ∨ ∃ name ns defs props ch r', r = .elem name ns defs props ch :: r') → ShowsAll r m
  | [], _ => ⟨[], rfl, by
      intro g r e _ _
      have : r = [] := (List.append_eq_nil_iff.1 e.symm).2
      rw [this]
      exact .nil⟩
  | .elem n ns d p c :: l, h => by
    obtain ⟨t, h1, h2⟩ := ptr2node_shows (.elem n ns d p c) (h _ (by simp)) n ns d p c rfl
    have hl : ∀ c ∈ l, Clean c := fun c hc => h c (by simp [hc])
    obtain ⟨m, hm⟩ := elems_shows l hl
    obtain ⟨g, u, r, e1, hg, e2, hs⟩ := gap_shows hl hm
    refine ⟨t.setTail (someText u) :: m, ?_, ?_⟩
    · rw [elems, h1, Res.ok_bind, e2, Res.ok_bind, hm.1, Res.ok_bind, Res.pure_eq]
    · intro g' r' e hg' hr'
      cases g' with
      | nil =>
        rw [List.nil_append] at e
        rw [← e, e1, normText_someText]
        cases h2 with
        | mk a b => exact .cons (.mk a b) hg hs
      | cons x g' =>
        rw [List.cons_append, List.cons.injEq] at e
        exact absurd e.1.symm (hg' x (by simp) n ns d p c)
  | .text u :: l, h => skip_shows (.text u) l (by intro _ _ _ _ _ e; cases e) (by rw [elems]) (elems_shows l fun c hc => h c (by simp [hc]))
  | .cdata u :: l, h => skip_shows (.cdata u) l (by intro _ _ _ _ _ e; cases e) (by rw [elems]) (elems_shows l fun c hc => h c (by simp [hc]))
  | .comment :: l, h => skip_shows .comment l (by intro _ _ _ _ _ e; cases e) (by rw [elems]) (elems_shows l fun c hc => h c (by simp [hc]))
  | .other :: l, h => by cases h .other (by simp)
where
  skip_shows (x : XNode) (l : List XNode) (hx : ∀ n ns d p c, x ≠ .elem n ns d p c) (he : elems (x :: l) = elems l)
      (h : ∃ m, elems l = .ok m ∧ ∀ g r, l = g ++ r → (∀ x ∈ g, ∀ n ns d p c, x ≠ .elem n ns d p c) →
        (r = [] ∨ ∃ name ns defs props ch r', r = .elem name ns defs props ch :: r') → ShowsAll r m) :
      ∃ m, elems (x :: l) = .ok m ∧ ∀ g r, x :: l = g ++ r → (∀ x ∈ g, ∀ n ns d p c, x ≠ .elem n ns d p c) →
        (r = [] ∨ ∃ name ns defs props ch r', r = .elem name ns defs props ch :: r') → ShowsAll r m := by
    obtain ⟨m, h1, h2⟩ := h
    refine ⟨m, by rw [he, h1], ?_⟩
    intro g r e hg hr
    cases g with
    | nil =>
      rw [List.nil_append] at e
      subst e
      rcases hr with hr | ⟨_, _, _, _, _, _, hr⟩
      · cases hr
      · rw [List.cons.injEq] at hr
        exact absurd hr.1 (hx _ _ _ _ _)
    | cons y g =>
      rw [List.cons_append, List.cons.injEq] at e
      exact h2 g r e.2 (fun x hx => hg x (by simp [hx])) hr
end

/-- C79: an element of a tree without nodes of unsupported types, and with different local names of the attributes of each
element, is decoded to what it stands for: elements in their order, the character data before the first child as text, and
that after a child as its tail, attributes with prefixes. Missing: attributes with the same local name. -/
theorem C79_decode_partial {n : Text} {ns : Option Text} {d : List (Option Text × Text)} {p : List (Option Text × Text × Text)}
    {c : List XNode} (h : Clean (.elem n ns d p c)) : ∃ t, ptr2node (.elem n ns d p c) = .ok t ∧ Shows (.elem n ns d p c) t :=
  ptr2node_shows _ h n ns d p c rfl

theorem collect_cases : ∀ l : List XNode, collect l = .raise .valueError ∨ ∃ t, collect l = .ok t
  | [] => Or.inr ⟨_, rfl⟩
  | .elem .. :: _ => Or.inr ⟨_, by rw [collect]⟩
  | .text u :: l => by
    rcases collect_cases l with h | ⟨t, h⟩
    · left; rw [collect, h]; rfl
    · right; exact ⟨u ++ t, by rw [collect, h]; rfl⟩
  | .cdata u :: l => by
    rcases collect_cases l with h | ⟨t, h⟩
    · left; rw [collect, h]; rfl
    · right; exact ⟨u ++ t, by rw [collect, h]; rfl⟩
  | .comment :: l => by rw [collect]; exact collect_cases l
  | .other :: _ => Or.inl (by rw [collect])

mutual
theorem ptr2node_cases : ∀ x : XNode, (ptr2node x = .raise .valueError ∨ ∃ t, ptr2node x = .ok t) ∧
    (Unsupported x → ptr2node x = .raise .valueError)
  | .elem n ns d p c => by
    have he := elems_cases c
    rw [ptr2node]
    rcases collect_cases c with h | ⟨t, h⟩
    · rw [h]
      exact ⟨Or.inl rfl, fun _ => rfl⟩
    · rw [h, Res.ok_bind]
      rcases he.1 with h1 | ⟨m, h1⟩
      · rw [h1]
        exact ⟨Or.inl rfl, fun _ => rfl⟩
      · rw [h1]
        refine ⟨Or.inr ⟨_, rfl⟩, fun hu => ?_⟩
        cases hu with
        | inside hx hu =>
        rcases he.2 ⟨_, hx, hu⟩ with e | e
        · rw [h] at e; cases e
        · rw [h1] at e; cases e
  | .text _ => by rw [ptr2node]; exact ⟨Or.inl rfl, fun _ => rfl⟩; all_goals (intro _ _ _ _ _ e; cases e)
  | .cdata _ => by rw [ptr2node]; exact ⟨Or.inl rfl, fun _ => rfl⟩; all_goals (intro _ _ _ _ _ e; cases e)
  | .comment => by rw [ptr2node]; exact ⟨Or.inl rfl, fun _ => rfl⟩; all_goals (intro _ _ _ _ _ e; cases e)
  | .other => by rw [ptr2node]; exact ⟨Or.inl rfl, fun _ => rfl⟩; all_goals (intro _ _ _ _ _ e; cases e)
theorem elems_cases : ∀ l : List XNode, (elems l = .raise .valueError ∨ ∃ t, elems l = .ok t) ∧
    ((∃ x ∈ l, Unsupported x) → collect l = .raise .valueError ∨ elems l = .raise .valueError)
  | [] => ⟨Or.inr ⟨_, by rw [elems]⟩, by rintro ⟨x, hx, -⟩; cases hx⟩
  | .elem n ns d p c :: l => by
    have hx := ptr2node_cases (.elem n ns d p c)
    have hl := elems_cases l
    rw [elems]
    rcases hx.1 with h1 | ⟨t, h1⟩
    · rw [h1]
      exact ⟨Or.inl rfl, fun _ => Or.inr rfl⟩
    rcases collect_cases l with h2 | ⟨u, h2⟩
    · rw [h1, h2]
      exact ⟨Or.inl rfl, fun _ => Or.inr rfl⟩
    rcases hl.1 with h3 | ⟨m, h3⟩
    · rw [h1, h2, h3]
      exact ⟨Or.inl rfl, fun _ => Or.inr rfl⟩
    · refine ⟨Or.inr ⟨_, by rw [h1, h2, h3]; rfl⟩, ?_⟩
      rintro ⟨x, hm, hu⟩
      rcases List.mem_cons.1 hm with rfl | hm
      · have := hx.2 hu
        rw [h1] at this
        cases this
      · rcases hl.2 ⟨x, hm, hu⟩ with e | e
        · rw [h2] at e; cases e
        · rw [h3] at e; cases e
  | .text u :: l => by
    have hl := elems_cases l
    rw [elems]
    refine ⟨hl.1, ?_⟩
    rintro ⟨x, hm, hu⟩
    rcases List.mem_cons.1 hm with rfl | hm
    · cases hu
    · rcases hl.2 ⟨x, hm, hu⟩ with e | e
      · left; rw [collect, e]; rfl
      · exact Or.inr e
  | .cdata u :: l => by
    have hl := elems_cases l
    rw [elems]
    refine ⟨hl.1, ?_⟩
    rintro ⟨x, hm, hu⟩
    rcases List.mem_cons.1 hm with rfl | hm
    · cases hu
    · rcases hl.2 ⟨x, hm, hu⟩ with e | e
      · left; rw [collect, e]; rfl
      · exact Or.inr e
  | .comment :: l => by
    have hl := elems_cases l
    rw [elems]
    refine ⟨hl.1, ?_⟩
    rintro ⟨x, hm, hu⟩
    rcases List.mem_cons.1 hm with rfl | hm
    · cases hu
    · rw [collect]
      exact hl.2 ⟨x, hm, hu⟩
  | .other :: l => by
    have hl := elems_cases l
    rw [elems]
    exact ⟨hl.1, fun _ => Or.inl (by rw [collect])⟩
end

/-- C79: a node of an unsupported type (a processing instruction, say), anywhere in the tree, makes decoding raise. -/
theorem C79_unsupported {x : XNode} (h : Unsupported x) : ptr2node x = .raise .valueError := (ptr2node_cases x).2 h

/-- `<a xmlns:p="u" p:k="1">x<!-- --><![CDATA[y]]><b/>z</a>` -/
example : Clean (.elem [97] none [(some [112], [117])] [(some [112], [107], [49])]
    [.text [120], .comment, .cdata [121], .elem [98] none [] [] [], .text [122]]) := by
  refine .elem (by decide) ?_
  intro c hc
  simp only [List.mem_cons, List.not_mem_nil, or_false] at hc
  rcases hc with rfl | rfl | rfl | rfl | rfl
  · exact .text
  · exact .comment
  · exact .cdata
  · exact .elem (by decide) (by intro c hc; cases hc)
  · exact .text

example : Unsupported (.elem [97] none [] [] [.elem [98] none [] [] [.text [120], .other]]) :=
  .inside (c := .elem [98] none [] [] [.text [120], .other]) (by simp) (.inside (c := .other) (by simp) .here)

/-- C79 does not hold for attributes with the same local name: `<a p:k="1" q:k="2"/>` is decoded with the value `1` for both
(`xmlGetProp` takes no account of the namespace). -/
theorem C79_refuted_attributes : ∃ x t, ptr2node x = .ok t ∧ ¬ Shows x t ∧
    x = .elem [97] none [] [(some [112], [107], [49]), (some [113], [107], [50])] [] ∧
    t = .mk [97] [] none [([112, 58, 107], [49]), ([113, 58, 107], [49])] [] none none := by
  refine ⟨_, _, ?_, ?_, rfl, rfl⟩
  · simp only [ptr2node, collect, elems, Res.ok_bind, Res.pure_eq]
    rfl
  · intro h
    generalize ([] : List XNode) = c at h
    cases h

/-! ### C78: encoding and decoding -/

theorem setTail_none (t : Tree) (h : tailOf t = none) : (norm t).setTail none = norm t := by
  obtain ⟨tag, ns, pre, attrs, ch, tx, tl⟩ := t
  simp only [tailOf] at h
  subst h
  rfl

/-- C78: a tree of names, texts and attribute values that XML can express is encoded to a document that is read back as that
tree (with empty texts left out), if the root has no tail. Missing: `]]>` and carriage returns in texts, white space other
than spaces in attribute values, attributes with the same local name. -/
theorem C78_roundtrip_partial {n : Node} {t : Tree} (h : NodeRepr n t) (hg : Good [xmlPrefix] t) (ht : tailOf t = none)
    (hs : (enc (render false 0 t)).length < 2^31) :
    ∃ r txt x, encode n false = .ok r ∧ Repr r txt ∧ parse txt = some x ∧ ptr2node x = .ok (norm t) := by
  obtain ⟨r, h1, h2⟩ := C77_encode h false hs
  refine ⟨r, _, _, h1, h2, parse_render hg ht, ?_⟩
  rw [node_decode t _ hg, setTail_none t ht]

/-! ### Concrete trees -/

/-- The structure of a string of ASCII characters. -/
def strOf (t : Text) : Str := ⟨t.length, t.length, t ++ [0]⟩

/-- ASCII characters only (and not too many). -/
def small (t : Text) : Bool := t.all (· < 128) && t.length < 1000

theorem strOf_repr {t : Text} (h : small t = true) : Repr (strOf t) t := by
  unfold small at h
  simp only [Bool.and_eq_true, List.all_eq_true, decide_eq_true_eq] at h
  have e : enc t = t := by
    obtain ⟨h, -⟩ := h
    induction t with
    | nil => rfl
    | cons c t ih => rw [enc_ascii_cons c t (h c (by simp)), ih fun d hd => h d (by simp [hd])]
  exact ⟨ascii_cp h.1, rfl, by rw [e]; rfl, by rw [e]; rfl, by rw [e]; have := h.2; omega⟩

def smallOpt : Option Text → Bool
  | none => true
  | some t => small t

mutual
def smallTree : Tree → Bool
  | .mk tag ns pre attrs ch tx tl => small tag && ns.all (fun d => smallOpt d.1 && small d.2) && smallOpt pre &&
      attrs.all (fun a => small a.1 && small a.2) && smallTrees ch && smallOpt tx && smallOpt tl
def smallTrees : List Tree → Bool
  | [] => true
  | t :: l => smallTree t && smallTrees l
end

mutual
def nodeOf : Tree → Node
  | .mk tag ns pre attrs ch tx tl => .mk (strOf tag) (ns.map fun d => (d.1.map strOf, strOf d.2)) (pre.map strOf)
      (attrs.map fun a => (strOf a.1, strOf a.2)) (nodesOf ch) (tx.map strOf) (tl.map strOf)
def nodesOf : List Tree → List Node
  | [] => []
  | t :: l => nodeOf t :: nodesOf l
end

theorem optOf_repr {t : Option Text} (h : smallOpt t = true) : OptRepr (t.map strOf) t := by
  cases t with
  | none => trivial
  | some t => exact strOf_repr h

mutual
theorem nodeOf_repr : ∀ t : Tree, smallTree t = true → NodeRepr (nodeOf t) t
  | .mk tag ns pre attrs ch tx tl, h => by
    simp only [smallTree, Bool.and_eq_true] at h
    obtain ⟨⟨⟨⟨⟨⟨h1, h2⟩, h3⟩, h4⟩, h5⟩, h6⟩, h7⟩ := h
    have n1 : NsRepr (ns.map fun d => (d.1.map strOf, strOf d.2)) ns := by
      clear h1 h3 h4 h5 h6 h7
      induction ns with
      | nil => exact .nil
      | cons d l ih =>
        simp only [List.all_cons, Bool.and_eq_true] at h2
        exact .cons (optOf_repr h2.1.1) (strOf_repr h2.1.2) (ih h2.2)
    have n2 : AttrRepr (attrs.map fun a => (strOf a.1, strOf a.2)) attrs := by
      clear h1 h3 h2 h5 h6 h7 n1
      induction attrs with
      | nil => exact .nil
      | cons d l ih =>
        simp only [List.all_cons, Bool.and_eq_true] at h4
        exact .cons (strOf_repr h4.1.1) (strOf_repr h4.1.2) (ih h4.2)
    rw [nodeOf]
    exact .mk (strOf_repr h1) n1 (optOf_repr h3) n2 (nodesOf_repr ch h5) (optOf_repr h6) (optOf_repr h7)
theorem nodesOf_repr : ∀ l : List Tree, smallTrees l = true → NodesRepr (nodesOf l) l
  | [], _ => by rw [nodesOf]; exact .nil
  | t :: l, h => by
    simp only [smallTrees, Bool.and_eq_true] at h
    rw [nodesOf]
    exact .cons (nodeOf_repr t h.1) (nodesOf_repr l h.2)
end

/-- `<p:a xmlns:p="u" p:k="&amp;&quot;">x &lt; y<b/>z</p:a>` -/
def sample : Tree := .mk [97] [(some [112], [117])] (some [112]) [([112, 58, 107], [38, 34])]
  [.mk [98] [] none [] [] none (some [122])] (some [120, 32, 60, 32, 121]) none

theorem ncname_one (c : Nat) (h : isStart c = true) (h2 : c ≠ 58) : NCName [c] :=
  ⟨c, [], rfl, h, (by intro d hd; cases hd), by simpa using fun e => h2 e.symm⟩

theorem plain_of {t : Text} (h : t.all (fun c => isChar c && c != 13) = true) (h2 : 62 ∉ t) : Plain t := by
  refine ⟨fun c hc => ok_lit h c hc, ?_⟩
  rintro a b rfl
  exact h2 (by simp)

theorem sample_good : Good [xmlPrefix] sample := by
  refine .mk (ncname_one 97 rfl (by omega)) ?_ (by decide) ?_ ?_ (by decide) (by decide) (.cons (.mk (ncname_one 98 rfl (by omega)) ?_ (by decide) ?_ ?_ (by decide)
    (by decide) .nil trivial (plain_of (by decide) (by decide))) .nil) (plain_of (by decide) (by decide)) trivial
  · intro d hd
    rw [List.mem_singleton] at hd
    subst hd
    refine ⟨show ∀ c ∈ [117], _ from by decide, ?_⟩
    intro p hp
    cases hp
    exact ⟨ncname_one 112 rfl (by omega), by decide, by decide, by decide⟩
  · intro p hp
    cases hp
    exact ⟨ncname_one 112 rfl (by omega), by decide⟩
  · intro a ha
    rw [List.mem_singleton] at ha
    subst ha
    exact ⟨show ∀ c ∈ [38, 34], _ from by decide, Or.inr ⟨[112], [107], rfl, ncname_one 112 rfl (by omega), ncname_one 107 rfl (by omega), by decide⟩⟩
  · intro d hd; cases hd
  · intro p hp; cases hp
  · intro a ha; cases ha

example : ∃ n t, NodeRepr n t ∧ Good [xmlPrefix] t ∧ tailOf t = none ∧ (enc (render false 0 t)).length < 2^31 ∧
    (enc (render true 0 t)).length < 2^31 :=
  ⟨nodeOf sample, sample, nodeOf_repr sample (by decide +kernel), sample_good, rfl, by decide +kernel, by decide +kernel⟩

/-- How a tree is encoded, and what becomes of it. -/
theorem encoded (t : Tree) (pretty : Bool) (h : smallTree t = true) (hs : (enc (render pretty 0 t)).length < 2^31) :
    ∃ n r, NodeRepr n t ∧ encode n pretty = .ok r ∧ Repr r (render pretty 0 t) := by
  obtain ⟨r, h1, h2⟩ := C77_encode (nodeOf_repr t h) pretty hs
  exact ⟨_, r, nodeOf_repr t h, h1, h2⟩

/-- C78 does not hold for texts with `]]>`: the result is not XML (`>` is not escaped). -/
theorem C78_refuted_cdata_end : ∃ n t r txt, NodeRepr n t ∧ t = .mk [97] [] none [] [] (some [93, 93, 62]) none ∧
    encode n false = .ok r ∧ Repr r txt ∧ parse txt = none := by
  obtain ⟨n, r, h1, h2, h3⟩ := encoded (.mk [97] [] none [] [] (some [93, 93, 62]) none) false (by decide +kernel) (by decide +kernel)
  exact ⟨n, _, r, _, h1, rfl, h2, h3, Option.isNone_iff_eq_none.1 (by decide +kernel)⟩

/-- C78 does not hold for control characters, which are written as they are: the result is not XML. -/
theorem C78_refuted_control : ∃ n t r txt, NodeRepr n t ∧ t = .mk [97] [] none [] [] (some [1]) none ∧
    encode n false = .ok r ∧ Repr r txt ∧ parse txt = none := by
  obtain ⟨n, r, h1, h2, h3⟩ := encoded (.mk [97] [] none [] [] (some [1]) none) false (by decide +kernel) (by decide +kernel)
  exact ⟨n, _, r, _, h1, rfl, h2, h3, Option.isNone_iff_eq_none.1 (by decide +kernel)⟩

/-- C78 does not hold for a node with a tail, such as a child of a decoded document: the result is not XML. -/
theorem C78_refuted_tail : ∃ n t r txt, NodeRepr n t ∧ t = .mk [97] [] none [] [] none (some [120]) ∧
    encode n false = .ok r ∧ Repr r txt ∧ parse txt = none := by
  obtain ⟨n, r, h1, h2, h3⟩ := encoded (.mk [97] [] none [] [] none (some [120])) false (by decide +kernel) (by decide +kernel)
  exact ⟨n, _, r, _, h1, rfl, h2, h3, Option.isNone_iff_eq_none.1 (by decide +kernel)⟩

/-- C78 does not hold for carriage returns: they are read back as line feeds. -/
theorem C78_refuted_cr : ∃ n t r txt x, NodeRepr n t ∧ t = .mk [97] [] none [] [] (some [13]) none ∧
    encode n false = .ok r ∧ Repr r txt ∧ parse txt = some x ∧ ptr2node x = .ok (.mk [97] [] none [] [] (some [10]) none) := by
  obtain ⟨n, r, h1, h2, h3⟩ := encoded (.mk [97] [] none [] [] (some [13]) none) false (by decide +kernel) (by decide +kernel)
  exact ⟨n, _, r, _, _, h1, rfl, h2, h3, rfl, rfl⟩

/-- C78 does not hold for line feeds and tabs in attribute values: they are read back as spaces. -/
theorem C78_refuted_value : ∃ n t r txt x, NodeRepr n t ∧ t = .mk [97] [] none [([107], [10])] [] none none ∧
    encode n false = .ok r ∧ Repr r txt ∧ parse txt = some x ∧ ptr2node x = .ok (.mk [97] [] none [([107], [32])] [] none none) := by
  obtain ⟨n, r, h1, h2, h3⟩ := encoded (.mk [97] [] none [([107], [10])] [] none none) false (by decide +kernel) (by decide +kernel)
  exact ⟨n, _, r, _, _, h1, rfl, h2, h3, rfl, rfl⟩

/-- C78 does not hold for a prefix that is not declared, as that of a child taken out of a decoded document: it is read back as
part of the tag. -/
theorem C78_refuted_prefix : ∃ n t r txt x, NodeRepr n t ∧ t = .mk [97] [] (some [112]) [] [] none none ∧
    encode n false = .ok r ∧ Repr r txt ∧ parse txt = some x ∧ ptr2node x = .ok (.mk [112, 58, 97] [] none [] [] none none) := by
  obtain ⟨n, r, h1, h2, h3⟩ := encoded (.mk [97] [] (some [112]) [] [] none none) false (by decide +kernel) (by decide +kernel)
  exact ⟨n, _, r, _, _, h1, rfl, h2, h3, rfl, rfl⟩

/-- C78 does not hold with `pretty`: texts of elements with children get line ends and spaces. -/
theorem C78_refuted_pretty : ∃ n t r txt x, NodeRepr n t ∧ t = .mk [97] [] none [] [.mk [98] [] none [] [] none none] (some [116]) none ∧
    Good [xmlPrefix] t ∧ encode n true = .ok r ∧ Repr r txt ∧ parse txt = some x ∧
    ptr2node x = .ok (.mk [97] [] none [] [.mk [98] [] none [] [] none (some [10])] (some [116, 10, 32, 32]) none) := by
  obtain ⟨n, r, h1, h2, h3⟩ := encoded (.mk [97] [] none [] [.mk [98] [] none [] [] none none] (some [116]) none) true (by decide +kernel) (by decide +kernel)
  refine ⟨n, _, r, _, _, h1, rfl, ?_, h2, h3, rfl, rfl⟩
  refine .mk (ncname_one 97 rfl (by omega)) ?_ (by decide) ?_ ?_ (by decide) (by decide) (.cons (.mk (ncname_one 98 rfl (by omega)) ?_ (by decide) ?_ ?_ (by decide)
    (by decide) .nil trivial trivial) .nil) (plain_of (by decide) (by decide)) trivial
  · intro d hd; cases hd
  · intro p hp; cases hp
  · intro a ha; cases ha
  · intro d hd; cases hd
  · intro p hp; cases hp
  · intro a ha; cases ha

/-! ### C77: large trees -/

theorem wrap32_lt (x : Int) : wrap32 x < 2^31 := by
  have := Int.bmod_lt (x := x) (m := 2^32) (by omega)
  unfold wrap32
  omega

/-- C77 does not hold for large texts: for a text of 2^30 ampersands, the size of the buffer is computed modulo 2^32, and the
escaped text is written past its end. -/
theorem C77_refuted_large : ∃ n t, NodeRepr n t ∧ t = .mk [97] [] none [] [] (some (List.replicate (2^30) 38)) none ∧ encode n false = .ub := by
  have hr : ∀ k : Nat, k < 2^31 → Repr (strOf (List.replicate k 38)) (List.replicate k 38) := by
    intro k hk
    have e : enc (List.replicate k 38) = List.replicate k 38 := by
      clear hk
      induction k with
      | zero => rfl
      | succ k ih => rw [List.replicate_succ, enc_ascii_cons _ _ (by omega), ih]
    refine ⟨ascii_cp fun c hc => ?_, rfl, by rw [e]; rfl, by rw [e]; rfl, by rw [e, List.length_replicate]; exact hk⟩
    rw [List.eq_of_mem_replicate hc]
    omega
  have key : ∀ k : Nat, k < 2^31 → 2^31 ≤ 5 * k → encode (.mk (strOf [97]) [] none [] [] (some (strOf (List.replicate k 38))) none) false = .ub := by
    intro k hk h5
    have hb : (strOf (List.replicate k 38)).bytes = List.replicate k 38 := by
      unfold Str.bytes strOf
      simp
    have hl : 5 * k ≤ (nodeBytes (strOf [97]) none nullStr nullStr (some (strOf (List.replicate k 38))) none nullStr false false false 0).length := by
      have : (escapeOpt (some (strOf (List.replicate k 38)))).length = 5 * k := by
        rw [escapeOpt, escape, hb]
        clear hb h5 hk
        induction k with
        | zero => rfl
        | succ k ih => rw [List.replicate_succ, List.flatMap_cons, List.length_append, ih]; simp [escape1]; omega
      unfold nodeBytes inner
      simp only [List.length_append, List.length_cons, this, Bool.false_eq_true, if_false]
      omega
    have e1 : encodeNsdefs [] = .ok nullStr := rfl
    have e2 : encodeAttrs [] = .ok nullStr := rfl
    rw [encode, node2str, e1, Res.ok_bind, e2, Res.ok_bind, nodes2str, Res.ok_bind]
    show mkStr _ (nodeSize _ _ _ _ _ _ _ _ _ _ _ _) (nodeBytes (strOf [97]) none nullStr nullStr (some (strOf (List.replicate k 38))) none nullStr false false false 0) = _
    unfold mkStr
    rw [if_neg]
    rintro ⟨-, e⟩
    unfold nodeSize at e
    generalize (nodeBytes _ _ _ _ _ _ _ _ _ _ _).length = L at e hl
    have h1 : (L : Int) < 2^31 := by
      rw [← e]
      exact wrap32_lt _
    omega
  have h1 : ∀ k : Nat, k < 2^31 → NodeRepr (.mk (strOf [97]) [] none [] [] (some (strOf (List.replicate k 38))) none)
      (.mk [97] [] none [] [] (some (List.replicate k 38)) none) := fun k hk =>
    .mk (strOf_repr (by decide)) .nil (show OptRepr none none from trivial) .nil .nil (hr k hk) (show OptRepr none none from trivial)
  have k1 : 2^30 < 2^31 := by decide
  have k2 : 2^31 ≤ 5 * 2^30 := by decide
  generalize 2^30 = k at k1 k2 ⊢
  exact ⟨_, _, h1 k k1, rfl, key k k1 k2⟩

end Verif.Xml
