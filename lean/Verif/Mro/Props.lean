import Verif.Mro.Attr

/-!
C80: the method resolution order. C81: the order in a program. C82: attributes.
-/
namespace Verif.Mro
open Verif.Ty

/-- A type followed by the stored order of its ancestors. -/
def orderOf (env : Env) (u : Con) : List Con :=
  match findCon env u with
  | .ok es => u :: cons es
  | .error _ => [u]

theorem lins_known {env : Env} : ∀ {es : List Entry},
    (∀ e ∈ es, ∃ us, findCon env e.con = .ok us) → ∃ ls, lins env es = .ok ls ∧
      ls.map cons = es.map (fun e => orderOf env e.con) := by
  intro es
  induction es with
  | nil => intro _; exact ⟨[], rfl, rfl⟩
  | cons e es ih =>
    intro h
    obtain ⟨us, hus⟩ := h e (by simp)
    obtain ⟨ls, hls, hm⟩ := ih (fun e he => h e (List.mem_cons_of_mem _ he))
    refine ⟨(e :: us.map (fun e' => ⟨e.path ++ e'.path, e'.con⟩)) :: ls, ?_, ?_⟩
    · simp only [lins, lin, hus, hls]
    · have : cons (e :: us.map (fun e' => (⟨e.path ++ e'.path, e'.con⟩ : Entry)))
          = orderOf env e.con := by
        unfold orderOf
        rw [hus]
        simp only
        rw [← cons_prefix e.path us]
        rfl
      simp only [List.map_cons, this, hm]

/-- **C80.** For every environment and bases known in it: if the compiler computes an
order, the order has no name twice, keeps the order in which the bases are written, keeps
the order of the ancestors of every base, and has nothing but bases and their ancestors. -/
theorem C80_order {env : Env} {us : List Con} {r : List Entry} (h : mro env us = .ok r) :
    ((cons r).map Con.name).Nodup ∧
    List.Sublist us (cons r) ∧
    (∀ u ∈ us, List.Sublist (orderOf env u) (cons r)) ∧
    (∀ c ∈ cons r, ∃ u ∈ us, c ∈ orderOf env u) := by
  obtain ⟨ls, hls, hlin⟩ := mro_linear h
  obtain ⟨l1, l2⟩ := lins_ok hls
  refine ⟨hlin.nodup, ?_, ?_, ?_⟩
  · have := hlin.keeps (tags us) (by simp)
    rwa [cons_tags] at this
  · intro u hu
    have : u ∈ cons (tags us) := by rw [cons_tags]; exact hu
    obtain ⟨t, ht, rfl⟩ := List.mem_map.mp this
    obtain ⟨es, hf, hin⟩ := l1 t ht
    have := hlin.keeps _ (List.mem_append_left _ hin)
    unfold orderOf
    rw [hf]
    simp only
    rw [← cons_prefix t.path es]
    exact this
  · intro c hc
    obtain ⟨e, he, rfl⟩ := List.mem_map.mp hc
    obtain ⟨l, hl, hel⟩ := hlin.only e he
    rcases List.mem_append.mp hl with hl | hl
    · obtain ⟨t, ht, es, hf, rfl⟩ := l2 l hl
      refine ⟨t.con, (mem_tags ht).1, ?_⟩
      unfold orderOf
      rw [hf]
      simp only
      rw [← cons_prefix t.path es]
      exact List.mem_map.mpr ⟨e, hel, rfl⟩
    · rw [List.mem_singleton] at hl
      subst hl
      refine ⟨e.con, (mem_tags hel).1, ?_⟩
      unfold orderOf
      cases findCon env e.con <;> simp

/-- **C80.** The compiler computes an order exactly when there is one, that is, when some
order of types, no name twice, keeps the written order of the bases and the order of the
ancestors of each base. Otherwise it reports an inconsistent order or an inconsistent
instantiation. -/
theorem C80_exists {env : Env} {us : List Con}
    (hk : ∀ u ∈ us, ∃ es, findCon env u = .ok es) :
    ((∃ r, mro env us = .ok r) ↔
      ∃ s : List Con, (s.map Con.name).Nodup ∧ List.Sublist us s ∧
        ∀ u ∈ us, List.Sublist (orderOf env u) s) ∧
    (∀ e, mro env us = .error e → e = .order ∨ e = .inst) := by
  obtain ⟨ls, hls, hm⟩ := lins_known (env := env) (es := tags us) (by
    intro e he
    exact hk _ (mem_tags he).1)
  have hcm : (tags us).map (fun e => orderOf env e.con) = us.map (orderOf env) := by
    have : (tags us).map (fun e => orderOf env e.con) = (cons (tags us)).map (orderOf env) := by
      simp [cons, Function.comp_def]
    rw [this, cons_tags]
  have hkey : mro env us = merge [] (ls ++ [tags us]) := by
    unfold mro; rw [hls]
  refine ⟨?_, ?_⟩
  · rw [hkey, merge_iff]
    unfold Orderable
    have : (ls ++ [tags us]).map cons = us.map (orderOf env) ++ [us] := by
      rw [List.map_append, hm, hcm]
      simp [cons_tags]
    rw [this]
    constructor
    · rintro ⟨s, h1, h2⟩
      exact ⟨s, h1, h2 us (by simp), fun u hu => h2 _ (by simp; exact Or.inl ⟨u, hu, rfl⟩)⟩
    · rintro ⟨s, h1, h2, h3⟩
      refine ⟨s, h1, ?_⟩
      intro l hl
      rcases List.mem_append.mp hl with hl | hl
      · obtain ⟨u, hu, rfl⟩ := List.mem_map.mp hl
        exact h3 u hu
      · rw [List.mem_singleton] at hl; subst hl; exact h2
  · intro e he
    rw [hkey] at he
    unfold merge at he
    have hadv : ∀ (h : Entry) (ht : List (Entry × List Entry)) x,
        advance h ht = .error x → x = .inst := by
      intro h ht
      induction ht with
      | nil => intro x hx; simp [advance] at hx
      | cons p rest ih =>
        intro x hx
        simp only [advance] at hx
        by_cases h1 : p.1.con.name = h.con.name
        · rw [if_pos h1] at hx
          by_cases h2 : p.1.con.args = h.con.args
          · rw [if_pos h2] at hx
            cases hr : advance h rest with
            | error y => rw [hr] at hx; cases hx; exact ih _ hr
            | ok ls => rw [hr] at hx; cases hx
          · rw [if_neg h2] at hx; cases hx; rfl
        · rw [if_neg h1] at hx
          cases hr : advance h rest with
          | error y => rw [hr] at hx; cases hx; exact ih _ hr
          | ok ls => rw [hr] at hx; cases hx
    have hmerge : ∀ (fuel : Nat) (out : List Entry) (lists : List (List Entry)) x,
        mergeF fuel out lists = some (.error x) → x = .order ∨ x = .inst := by
      intro fuel
      induction fuel with
      | zero => intro _ _ x hx; simp [mergeF] at hx
      | succ fuel ih =>
        intro out lists x hx
        simp only [mergeF] at hx
        by_cases hn : headTails lists = []
        · rw [if_pos hn] at hx; cases hx
        · rw [if_neg hn] at hx
          cases hg : firstGood ((headTails lists).map Prod.snd)
              ((headTails lists).map Prod.fst) with
          | none => rw [hg] at hx; cases hx; exact Or.inl rfl
          | some g =>
            rw [hg] at hx
            simp only at hx
            cases ha : advance g (headTails lists) with
            | error y => rw [ha] at hx; cases hx; exact Or.inr (hadv _ _ _ ha)
            | ok ls' => rw [ha] at hx; exact ih _ _ _ hx
    cases hf : mergeF (total (ls ++ [tags us]) + 1) [] (ls ++ [tags us]) with
    | none => exact absurd hf (merge_fuel _ _ _ (by omega))
    | some x =>
      rw [hf] at he
      simp only at he
      subst he
      exact hmerge _ _ _ _ hf

/-- **C81.** In every program that the compiler accepts, for every type `c`: its stored
ancestors are each of the types reachable through declared bases, once each and not `c`
itself; the witness path stored with an ancestor is a path of declared bases to it; and the
order of the ancestors of `c` keeps the order of the ancestors of each ancestor. -/
theorem C81_ancestors {env : Env} (hb : Built env) {tvs : List Nat} {c : Con}
    (hc : WfCon env tvs c) :
    ∃ es, findCon env c = .ok es ∧
      ((c :: cons es).map Con.name).Nodup ∧
      (∀ c', c' ∈ cons es ↔ ∃ w, Reach env (basesOf env c) w c') ∧
      (∀ e ∈ es, Reach env (basesOf env c) e.path e.con) ∧
      (∀ c' ∈ cons es, List.Sublist (orderOf env c') (cons es)) := by
  have g := built_good hb
  obtain ⟨i, hi, hl, gi, hf⟩ := findCon_known g hc
  have hbases : basesOf env c = i.bases.map (substCon (i.tvs.zip c.args)) := by
    unfold basesOf; rw [hi]
  have hpath : ∀ e ∈ i.anc.map (substEntry (i.tvs.zip c.args)),
      Reach env (basesOf env c) e.path e.con := by
    intro e he
    obtain ⟨e0, he0, rfl⟩ := List.mem_map.mp he
    rw [hbases]
    exact (reach_subst g (gi.path e0 he0) i.tvs gi.bases _).2
  refine ⟨_, hf, ?_, ?_, hpath, ?_⟩
  · rw [List.map_cons, cons_substEntry, names_subst, List.nodup_cons]
    have := gi.self
    rw [findInfo_name hi] at this
    exact ⟨this, gi.nodup⟩
  · intro c'
    constructor
    · intro h
      obtain ⟨e, he, rfl⟩ := List.mem_map.mp h
      exact ⟨e.path, hpath e he⟩
    · rintro ⟨w, hr⟩
      rw [hbases] at hr
      obtain ⟨c0, rfl, _, hr0⟩ := reach_unsubst g hr i.bases i.tvs _ rfl gi.bases
      rw [cons_substEntry]
      exact List.mem_map.mpr ⟨c0, gi.all _ _ hr0, rfl⟩
  · intro c' hc'
    obtain ⟨e, he, rfl⟩ := List.mem_map.mp hc'
    obtain ⟨es', h1, h2⟩ := findCon_mono_order g hc hf e he
    unfold orderOf
    rw [h1]
    exact h2

/-- **C82.** An attribute of a type is taken from a class that declares it (its last
declaration there) and that no class declaring it, among the type and its ancestors,
inherits from. There is none only if no class among them declares it. -/
theorem C82_attribute {env : Env} (hb : Built env) {tvs : List Nat} {c : Con}
    (hc : WfCon env tvs c) (a : Nat) :
    ∃ es, findCon env c = .ok es ∧
      ((findAttr env c a = .ok none ∧ ∀ d ∈ c :: cons es, ¬ Declares env d.name a) ∨
      ∃ e i, findAttr env c a = .ok (some (e, i)) ∧ e ∈ (⟨[], c⟩ :: es : List Entry) ∧
        (∃ j pre post, findInfo env e.con.name = some j ∧ j.attrs = pre ++ (a, i) :: post ∧
          a ∉ post.map Prod.fst) ∧
        ∀ d ∈ c :: cons es, Declares env d.name a → d ≠ e.con →
          ∀ es', findCon env d = .ok es' → e.con ∉ cons es') := by
  obtain ⟨es, hf, hnd, _, _, hmono⟩ := C81_ancestors hb hc
  refine ⟨es, hf, ?_⟩
  have hfa : findAttr env c a = .ok (attrGo env a (⟨[], c⟩ :: es)) := by
    simp only [findAttr, findAncestry, hf]
  have hcons : cons (⟨[], c⟩ :: es) = c :: cons es := rfl
  cases hg : attrGo env a (⟨[], c⟩ :: es) with
  | none =>
    left
    refine ⟨by rw [hfa, hg], ?_⟩
    intro d hd
    rw [← hcons] at hd
    obtain ⟨e, he, rfl⟩ := List.mem_map.mp hd
    exact attrGo_none hg e he
  | some p =>
    obtain ⟨e, i⟩ := p
    right
    obtain ⟨h1, pre, post, h2, h3⟩ := attrGo_some hg
    refine ⟨e, i, by rw [hfa, hg], by rw [h2]; simp, ?_, ?_⟩
    · unfold attrsOf at h1
      cases hi : findInfo env e.con.name with
      | none => rw [hi] at h1; simp [findAttrInfoIn, scan] at h1
      | some j =>
        rw [hi] at h1
        simp only [findAttrInfoIn] at h1
        rcases scan_last _ _ h1 with ⟨h4, _⟩ | ⟨pre', post', h4, h5⟩
        · cases h4
        · exact ⟨j, pre', post', rfl, h4, h5⟩
    · intro d hd hdecl hne es' hes' hin
      -- `d` comes after `e`
      have hd' : d ∈ cons pre ++ e.con :: cons post := by
        have : cons (⟨[], c⟩ :: es) = cons pre ++ e.con :: cons post := by
          rw [h2]; simp [cons]
        rw [hcons] at this
        rw [← this]; exact hd
      have hpost : d ∈ cons post := by
        rcases List.mem_append.mp hd' with h | h
        · obtain ⟨e', he', rfl⟩ := List.mem_map.mp h
          exact absurd hdecl (h3 e' he')
        · rcases List.mem_cons.mp h with h | h
          · exact absurd h hne
          · exact h
      -- but its ancestors come after it
      have hsub : List.Sublist [d, e.con] (c :: cons es) := by
        have h5 : List.Sublist [d, e.con] (d :: cons es') :=
          (List.singleton_sublist.mpr hin).cons_cons d
        rcases List.mem_cons.mp hd with rfl | hd2
        · rw [hf] at hes'
          cases hes'
          exact h5
        · have := hmono d hd2
          unfold orderOf at this
          rw [hes'] at this
          exact (h5.trans this).cons c
      have heq : c :: cons es = cons pre ++ e.con :: cons post := by
        rw [← hcons, h2]; simp [cons]
      rw [heq] at hsub hnd
      have hnames := hsub.map Con.name
      rw [List.map_append, List.map_cons] at hnames hnd
      have hdn : d.name ∈ (cons post).map Con.name := List.mem_map.mpr ⟨d, hpost, rfl⟩
      have hnp : d.name ∉ (cons pre).map Con.name ∧ d.name ≠ e.con.name ∧
          e.con.name ∉ (cons post).map Con.name := by
        rw [List.nodup_append] at hnd
        obtain ⟨_, n2, n3⟩ := hnd
        rw [List.nodup_cons] at n2
        refine ⟨fun h => n3 _ h _ (List.mem_cons_of_mem _ hdn) rfl, ?_, n2.1⟩
        intro h
        rw [h] at hdn
        exact n2.1 hdn
      simp only [List.map_cons, List.map_nil] at hnames
      have key : ∀ (x y : Nat) (p q : List Nat), List.Sublist [x, y] (p ++ y :: q) → x ∉ p →
          x ≠ y → y ∉ q → False := by
        intro x y p
        induction p with
        | nil =>
          intro q hs _ hxy hyq
          simp only [List.nil_append] at hs
          cases hs with
          | cons _ h => exact hyq (h.subset (by simp))
          | cons_cons _ h => exact hxy rfl
        | cons z p ih =>
          intro q hs hx hxy hyq
          simp only [List.cons_append] at hs
          cases hs with
          | cons _ h => exact ih q h (fun hh => hx (List.mem_cons_of_mem _ hh)) hxy hyq
          | cons_cons _ h => exact hx (by simp)
      exact key _ _ _ _ hnames hnp.1 hnp.2.1 hnp.2.2

/-- **C82.** The layout of a class (its attributes in offset order) has every attribute of
the class and its ancestors once, and it extends the layout of its base class. -/
theorem C82_layout {env : Env} (hb : Built env) {tvs : List Nat} {c : Con}
    (hc : WfCon env tvs c) :
    ∃ lay es, layout env c = .ok lay ∧ findCon env c = .ok es ∧ lay.Nodup ∧
      (∀ a, a ∈ lay ↔ ∃ d ∈ c :: cons es, Declares env d.name a) ∧
      (sortOf env c.name = some .cls → ∀ u ∈ basesOf env c,
        ∃ lay', layout env u = .ok lay' ∧ lay' <+: lay) := by
  have g := built_good hb
  obtain ⟨i, hi, hl, gi, hf⟩ := findCon_known g hc
  have hlay : layout env c = .ok (nubFrom [] (aenvDom env
      (⟨[], c⟩ :: i.anc.map (substEntry (i.tvs.zip c.args)))).reverse) := by
    simp only [layout, findAncestry, hf]
  refine ⟨_, _, hlay, hf, nodup_nubFrom _ _, ?_, ?_⟩
  · intro a
    rw [mem_nubFrom]
    simp only [List.mem_reverse, List.not_mem_nil, not_false_eq_true, and_true]
    rw [mem_aenvDom]
    constructor
    · rintro ⟨e, he, hd⟩
      exact ⟨e.con, List.mem_map.mpr ⟨e, he, rfl⟩, hd⟩
    · rintro ⟨d, hd, h⟩
      have : d ∈ cons (⟨[], c⟩ :: i.anc.map (substEntry (i.tvs.zip c.args))) := hd
      obtain ⟨e, he, rfl⟩ := List.mem_map.mp this
      exact ⟨e, he, h⟩
  · intro hs u hu
    have hcls : i.sort = .cls := by
      unfold sortOf at hs
      rw [hi] at hs
      exact Option.some.inj hs
    have hbases : basesOf env c = i.bases.map (substCon (i.tvs.zip c.args)) := by
      unfold basesOf; rw [hi]
    rw [hbases] at hu
    rcases gi.single hcls with ⟨h1, _⟩ | ⟨u0, es0, h1, h2, h3⟩
    · rw [h1] at hu; simp at hu
    · rw [h1] at hu
      simp only [List.map_cons, List.map_nil, List.mem_singleton] at hu
      subst hu
      have hw : WfCon env i.tvs u0 := gi.bases u0 (by rw [h1]; simp)
      have hfu := findCon_subst g hw (i.tvs.zip c.args) h2
      refine ⟨nubFrom [] (aenvDom env (⟨[], substCon (i.tvs.zip c.args) u0⟩ ::
        es0.map (substEntry (i.tvs.zip c.args)))).reverse, ?_, ?_⟩
      · simp only [layout, findAncestry, hfu]
      · have he : aenvDom env (i.anc.map (substEntry (i.tvs.zip c.args))) =
            aenvDom env (⟨[], substCon (i.tvs.zip c.args) u0⟩ ::
              es0.map (substEntry (i.tvs.zip c.args))) := by
          apply aenvDom_cons
          rw [cons_substEntry, h3]
          simp [cons, substEntry, Function.comp_def]
        have hsplit : aenvDom env (⟨[], c⟩ :: i.anc.map (substEntry (i.tvs.zip c.args))) =
            ((attrsOf env c.name).reverse.map Prod.fst) ++
              aenvDom env (i.anc.map (substEntry (i.tvs.zip c.args))) := rfl
        rw [hsplit, he, List.reverse_append]
        obtain ⟨zs, hz⟩ := nubFrom_append
          (aenvDom env (⟨[], substCon (i.tvs.zip c.args) u0⟩ ::
            es0.map (substEntry (i.tvs.zip c.args)))).reverse
          ((attrsOf env c.name).reverse.map Prod.fst).reverse []
        rw [hz]
        exact List.prefix_append _ _

/-! ### Examples -/

/-- `value`; protocol `1[5]`; protocol `2[5]` below `1[5]`; protocol `3` below `2[none]`;
class `4`; class `6` below `4`. -/
def env1 : Env := [⟨.cls, 0, [], [], [], [(1, 1)]⟩]
def env2 : Env := ⟨.proto, 1, [5], [], [], [(2, 2)]⟩ :: env1
def env3 : Env := ⟨.proto, 2, [5], [⟨1, [.var 5]⟩], [⟨[.left 1], ⟨1, [.var 5]⟩⟩], [(3, 3)]⟩ :: env2
def env4 : Env := ⟨.proto, 3, [], [⟨2, [.none_]⟩, ⟨1, [.none_]⟩],
  [⟨[.left 2], ⟨2, [.none_]⟩⟩, ⟨[.left 2, .left 1], ⟨1, [.none_]⟩⟩], [(2, 9)]⟩ :: env3
def env5 : Env := ⟨.cls, 4, [], [⟨0, []⟩], [⟨[.left 0], ⟨0, []⟩⟩], [(7, 7), (1, 8)]⟩ :: env4

theorem built4 : Built env4 := by
  have b1 : Built env1 := .value .nil rfl rfl
  have b2 : Built env2 := .proto b1 rfl (by decide) (by simp) (show declProto env1 1 [5] [] [(2, 2)] = .ok env2 from rfl)
  have w1 : WfCon env2 [5] ⟨1, [.var 5]⟩ := by
    refine ⟨⟨_, rfl, rfl⟩, ?_, ?_⟩ <;> simp [Ty.vfree, Ty.Norm]
  have b3 : Built env3 := .proto b2 rfl (by decide) (by
      intro u hu; rw [List.mem_singleton] at hu; subst hu; exact w1)
    (show declProto env2 2 [5] [⟨1, [.var 5]⟩] [(3, 3)] = .ok env3 by decide +kernel)
  have w2 : WfCon env3 [] ⟨2, [.none_]⟩ := by
    refine ⟨⟨_, rfl, rfl⟩, ?_, ?_⟩ <;> simp [Ty.vfree, Ty.Norm]
  have w3 : WfCon env3 [] ⟨1, [.none_]⟩ := by
    refine ⟨⟨_, rfl, rfl⟩, ?_, ?_⟩ <;> simp [Ty.vfree, Ty.Norm]
  exact .proto b3 rfl (by decide) (by
      intro u hu
      simp only [List.mem_cons, List.not_mem_nil, or_false] at hu
      rcases hu with rfl | rfl
      · exact w2
      · exact w3)
    (show declProto env3 3 [] [⟨2, [.none_]⟩, ⟨1, [.none_]⟩] [(2, 9)] = .ok env4 by decide +kernel)

theorem built5 : Built env5 := by
  have w0 : WfCon env4 [] ⟨0, []⟩ := ⟨⟨_, rfl, rfl⟩, by simp, by simp⟩
  exact .cls built4 rfl (by decide) (by simp) w0
    (show declClass env4 4 [] [] [(7, 7), (1, 8)] = .ok env5 by decide +kernel)

/-- The hypotheses of C80 hold, and so do both outcomes: bases `2[none], 1[none]` have an
order, `1[none], 2[none]` have none, nor have `2[none], 1[fx]`. -/
example : mro env3 [⟨2, [.none_]⟩, ⟨1, [.none_]⟩] = .ok
    [⟨[.left 2], ⟨2, [.none_]⟩⟩, ⟨[.left 2, .left 1], ⟨1, [.none_]⟩⟩] := by decide +kernel
example : mro env3 [⟨1, [.none_]⟩, ⟨2, [.none_]⟩] = .error .order := by decide +kernel
example : mro env3 [⟨2, [.none_]⟩, ⟨1, [.wild]⟩] = .error .inst := by decide +kernel
example : ∀ u ∈ [(⟨2, [.none_]⟩ : Con), ⟨1, [.none_]⟩], ∃ es, findCon env3 u = .ok es := by
  intro u hu
  simp only [List.mem_cons, List.not_mem_nil, or_false] at hu
  rcases hu with rfl | rfl <;> exact ⟨_, rfl⟩

/-- The hypotheses of C81 and C82 hold for the protocol `2` instantiated, and for class `4`. -/
example : Built env5 ∧ WfCon env5 [] ⟨2, [.opt .none_]⟩ ∧ WfCon env5 [] ⟨4, []⟩ := by
  refine ⟨built5, ?_, ?_⟩
  · refine ⟨⟨_, rfl, rfl⟩, ?_, ?_⟩ <;> simp [Ty.vfree, Ty.Norm, Ty.IsOpt]
  · exact ⟨⟨_, rfl, rfl⟩, by simp, by simp⟩
example : findAttr env5 ⟨3, []⟩ 2 = .ok (some (⟨[], ⟨3, []⟩⟩, 9)) := by decide +kernel
example : layout env5 ⟨4, []⟩ = .ok [1, 7] ∧ layout env5 ⟨0, []⟩ = .ok [1] := by decide +kernel
example : sortOf env5 4 = some .cls ∧ basesOf env5 ⟨4, []⟩ = [⟨0, []⟩] := by decide +kernel

end Verif.Mro
