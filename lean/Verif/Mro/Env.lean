import Verif.Mro.Merge
import Mathlib.Data.List.Perm.Subperm
import Mathlib.Data.List.Nodup

/-! Environments that declarations build are consistent. -/
namespace Verif.Mro
open Verif.Ty

theorem findInfo_name {env : Env} {n : Nat} {i : Info} (h : findInfo env n = some i) :
    i.name = n := by
  induction env with
  | nil => simp [findInfo] at h
  | cons j env ih =>
    simp only [findInfo] at h
    by_cases e : j.name = n
    · rw [if_pos e] at h; cases h; exact e
    · rw [if_neg e] at h; exact ih h

theorem findInfo_cons {env : Env} {j : Info} {n : Nat} {i : Info}
    (hf : findInfo env j.name = none) (h : findInfo env n = some i) :
    findInfo (j :: env) n = some i := by
  have : j.name ≠ n := by
    rintro rfl
    rw [hf] at h; cases h
  simp only [findInfo]
  rw [if_neg this, h]

theorem wf_mono {env : Env} {j : Info} (hf : findInfo env j.name = none) {tvs : List Nat}
    {c : Con} (h : WfCon env tvs c) : WfCon (j :: env) tvs c := by
  obtain ⟨⟨i, hi, hl⟩, hv, hn⟩ := h
  exact ⟨⟨i, findInfo_cons hf hi, hl⟩, hv, hn⟩

theorem findCon_mono {env : Env} {j : Info} (hf : findInfo env j.name = none) {c : Con}
    {es : List Entry} (h : findCon env c = .ok es) : findCon (j :: env) c = .ok es := by
  unfold findCon at h ⊢
  cases hi : findInfo env c.name with
  | none => rw [hi] at h; cases h
  | some i => rw [hi] at h; rw [findInfo_cons hf hi]; exact h

theorem reach_mono {env : Env} {j : Info} (hf : findInfo env j.name = none) {us w c}
    (h : Reach env us w c) : Reach (j :: env) us w c := by
  induction h with
  | first => exact .first
  | other hu => exact .other hu
  | step _ hi _ ih1 ih2 => exact .step ih1 (findInfo_cons hf hi) ih2

/-- What holds of a declared class or protocol. -/
structure GoodInfo (env : Env) (i : Info) : Prop where
  bases : ∀ u ∈ i.bases, WfCon env i.tvs u
  anc : ∀ e ∈ i.anc, WfCon env i.tvs e.con
  nodup : NoDup (cons i.anc)
  self : i.name ∉ (cons i.anc).map Con.name
  mono : ∀ e ∈ i.anc, ∃ es, findCon env e.con = .ok es ∧
    List.Sublist (e.con :: cons es) (cons i.anc)
  path : ∀ e ∈ i.anc, Reach env i.bases e.path e.con
  all : ∀ w c, Reach env i.bases w c → c ∈ cons i.anc
  single : i.sort = .cls → i.bases = [] ∧ i.anc = [] ∨
    ∃ u es, i.bases = [u] ∧ findCon env u = .ok es ∧ cons i.anc = u :: cons es
  root : i.name = valueName → i.anc = [] ∧ i.tvs = []

def GoodEnv (env : Env) : Prop := ∀ n i, findInfo env n = some i → GoodInfo env i

theorem zip_keys {tvs : List Nat} {ts : List Ty} (h : tvs.length = ts.length) :
    (tvs.zip ts).map Prod.fst = tvs := by
  induction tvs generalizing ts with
  | nil => simp
  | cons v tvs ih =>
    cases ts with
    | nil => simp at h
    | cons t ts => simp at h; simp [ih h]

theorem zip_range {tvs : List Nat} {ts : List Ty} (s : List (Nat × Ty)) :
    Ty.rangeSubst s (tvs.zip ts) = tvs.zip (Ty.vsubsts s ts) := by
  induction tvs generalizing ts with
  | nil => simp [Ty.rangeSubst]
  | cons v tvs ih =>
    cases ts with
    | nil => simp [Ty.rangeSubst, Ty.vsubsts]
    | cons t ts =>
      have := ih (ts := ts)
      simp only [Ty.rangeSubst] at this
      simp [Ty.rangeSubst, Ty.vsubsts, this]

theorem zip_mem {tvs : List Nat} {ts : List Ty} {p : Nat × Ty} (h : p ∈ tvs.zip ts) :
    p.2 ∈ ts := by
  obtain ⟨a, b⟩ := p
  exact (List.of_mem_zip h).2

theorem conAnc_eq {env : Env} {i : Info} (g : GoodInfo env i) (ts : List Ty) :
    conAnc i ts = i.anc.map (substEntry (i.tvs.zip ts)) := by
  unfold conAnc
  by_cases h : i.tvs.map Ty.var = ts
  · rw [if_pos h]
    subst h
    symm
    have : ∀ e ∈ i.anc, substEntry (i.tvs.zip (i.tvs.map Ty.var)) e = e := by
      intro e he
      obtain ⟨p, n, as_⟩ := e
      have := Ty.vsubsts_id i.tvs as_ (Ty.norms_iff.mpr (g.anc _ he).norm)
      simp [substEntry, substCon, this]
    rw [List.map_congr_left this]
    simp
  · rw [if_neg h]

theorem wf_subst {env : Env} {tvs tvs' : List Nat} {c : Con} {ts : List Ty}
    (hc : WfCon env tvs' c) (hl : tvs'.length = ts.length)
    (hv : ∀ t ∈ ts, ∀ v ∈ Ty.vfree t, v ∈ tvs) (hn : ∀ t ∈ ts, Ty.Norm t) :
    WfCon env tvs (substCon (tvs'.zip ts) c) := by
  obtain ⟨⟨i, hi, hlen⟩, hcv, hcn⟩ := hc
  refine ⟨⟨i, hi, by simp [substCon, Ty.vsubsts_eq_map, hlen]⟩, ?_, ?_⟩
  · intro t ht v hvt
    have h1 : v ∈ Ty.vfrees (Ty.vsubsts (tvs'.zip ts) c.args) :=
      Ty.mem_vfrees.mpr ⟨t, ht, hvt⟩
    obtain ⟨p, hp, hpv⟩ := Ty.vfrees_vsubsts _ _ (by
      intro w hw
      obtain ⟨t', ht', hw'⟩ := Ty.mem_vfrees.mp hw
      rw [zip_keys hl]
      exact hcv t' ht' w hw') v h1
    exact hv _ (zip_mem hp) _ hpv
  · have := Ty.norms_vsubsts (tvs'.zip ts) (fun p hp => hn _ (zip_mem hp)) c.args
      (Ty.norms_iff.mpr hcn)
    exact Ty.norms_iff.mp this

theorem substCon_comp {env : Env} {tvs' : List Nat} {c : Con} {ts : List Ty}
    (s : List (Nat × Ty)) (hc : WfCon env tvs' c) (hl : tvs'.length = ts.length) :
    substCon s (substCon (tvs'.zip ts) c) = substCon (tvs'.zip (Ty.vsubsts s ts)) c := by
  unfold substCon
  simp only
  rw [Ty.vsubsts_comp, zip_range]
  intro v hv
  rw [zip_keys hl]
  obtain ⟨t, ht, hvt⟩ := Ty.mem_vfrees.mp hv
  exact hc.vars t ht v hvt

theorem findCon_known {env : Env} (g : GoodEnv env) {tvs : List Nat} {c : Con}
    (hc : WfCon env tvs c) :
    ∃ i, findInfo env c.name = some i ∧ i.tvs.length = c.args.length ∧ GoodInfo env i ∧
      findCon env c = .ok (i.anc.map (substEntry (i.tvs.zip c.args))) := by
  obtain ⟨i, hi, hl⟩ := hc.known
  refine ⟨i, hi, hl, g _ _ hi, ?_⟩
  unfold findCon
  rw [hi]
  simp only [conAnc_eq (g _ _ hi)]

theorem findCon_subst {env : Env} (g : GoodEnv env) {tvs : List Nat} {c : Con}
    (hc : WfCon env tvs c) (s : List (Nat × Ty)) {es : List Entry}
    (h : findCon env c = .ok es) :
    findCon env (substCon s c) = .ok (es.map (substEntry s)) := by
  obtain ⟨i, hi, hl, gi, hf⟩ := findCon_known g hc
  rw [hf] at h
  cases h
  unfold findCon
  have : (substCon s c).name = c.name := rfl
  rw [this, hi]
  simp only [conAnc_eq gi, List.map_map]
  congr 1
  apply List.map_congr_left
  intro e he
  simp only [Function.comp, substEntry]
  congr 1
  show substCon (i.tvs.zip (Ty.vsubsts s c.args)) e.con = _
  rw [substCon_comp s (gi.anc e he) hl]

theorem findCon_wf {env : Env} (g : GoodEnv env) {tvs : List Nat} {c : Con}
    (hc : WfCon env tvs c) {es : List Entry} (h : findCon env c = .ok es) :
    ∀ e ∈ es, WfCon env tvs e.con := by
  obtain ⟨i, hi, hl, gi, hf⟩ := findCon_known g hc
  rw [hf] at h
  cases h
  intro e he
  obtain ⟨e', he', rfl⟩ := List.mem_map.mp he
  exact wf_subst (gi.anc e' he') hl hc.vars hc.norm

theorem cons_substEntry (s : List (Nat × Ty)) (es : List Entry) :
    cons (es.map (substEntry s)) = (cons es).map (substCon s) := by
  simp [cons, List.map_map, Function.comp_def, substEntry]

theorem names_subst (s : List (Nat × Ty)) (cs : List Con) :
    (cs.map (substCon s)).map Con.name = cs.map Con.name := by
  simp [List.map_map, Function.comp_def, substCon]

theorem findCon_mono_order {env : Env} (g : GoodEnv env) {tvs : List Nat} {c : Con}
    (hc : WfCon env tvs c) {es : List Entry} (h : findCon env c = .ok es) :
    ∀ e ∈ es, ∃ es', findCon env e.con = .ok es' ∧
      List.Sublist (e.con :: cons es') (cons es) := by
  obtain ⟨i, hi, hl, gi, hf⟩ := findCon_known g hc
  rw [hf] at h
  cases h
  intro e he
  obtain ⟨e', he', rfl⟩ := List.mem_map.mp he
  obtain ⟨es', h1, h2⟩ := gi.mono e' he'
  refine ⟨_, findCon_subst g (gi.anc e' he') _ h1, ?_⟩
  rw [cons_substEntry, cons_substEntry]
  exact h2.map (substCon (i.tvs.zip c.args))

theorem mem_tags {us : List Con} {e : Entry} (h : e ∈ tags us) :
    e.con ∈ us ∧ ∀ env, Reach env us e.path e.con := by
  cases us with
  | nil => simp [tags] at h
  | cons u us =>
    simp only [tags, List.mem_cons] at h
    rcases h with rfl | h
    · exact ⟨by simp, fun env => .first⟩
    · simp only [tagRest, List.mem_map] at h
      obtain ⟨v, hv, rfl⟩ := h
      exact ⟨by simp [hv], fun env => .other hv⟩

theorem cons_tags (us : List Con) : cons (tags us) = us := by
  cases us with
  | nil => rfl
  | cons u us => simp [tags, tagRest, cons, Function.comp_def]

/-- The lists `map lin us'` consists of. -/
theorem lins_ok {env : Env} : ∀ {es : List Entry} {ls : List (List Entry)},
    lins env es = .ok ls →
    (∀ e ∈ es, ∃ us, findCon env e.con = .ok us ∧
      (e :: us.map (fun e' => ⟨e.path ++ e'.path, e'.con⟩)) ∈ ls) ∧
    (∀ l ∈ ls, ∃ e ∈ es, ∃ us, findCon env e.con = .ok us ∧
      l = e :: us.map (fun e' => ⟨e.path ++ e'.path, e'.con⟩)) := by
  intro es
  induction es with
  | nil => intro ls h; simp only [lins] at h; cases h; simp
  | cons e es ih =>
    intro ls h
    simp only [lins, lin] at h
    cases hf : findCon env e.con with
    | error x => rw [hf] at h; cases h
    | ok us =>
      rw [hf] at h
      simp only at h
      cases hr : lins env es with
      | error x => rw [hr] at h; cases h
      | ok ls' =>
        rw [hr] at h
        simp only at h
        cases h
        obtain ⟨i1, i2⟩ := ih hr
        refine ⟨?_, ?_⟩
        · intro e' he'
          rcases List.mem_cons.mp he' with rfl | he'
          · exact ⟨us, hf, by simp⟩
          · obtain ⟨us', h1, h2⟩ := i1 e' he'
            exact ⟨us', h1, List.mem_cons_of_mem _ h2⟩
        · intro l hl
          rcases List.mem_cons.mp hl with rfl | hl
          · exact ⟨e, by simp, us, hf, rfl⟩
          · obtain ⟨e', he', us', h1, h2⟩ := i2 l hl
            exact ⟨e', List.mem_cons_of_mem _ he', us', h1, h2⟩

theorem cons_prefix (p : List Step) (us : List Entry) :
    cons (us.map (fun e' => (⟨p ++ e'.path, e'.con⟩ : Entry))) = cons us := by
  simp [cons, Function.comp_def]

/-- A linear order of the ancestors of known bases makes a good declaration. -/
theorem linear_good {env : Env} (g : GoodEnv env) {tvs : List Nat} {us : List Con}
    (hus : ∀ u ∈ us, WfCon env tvs u) {ls : List (List Entry)}
    (hls : lins env (tags us) = .ok ls) {r : List Entry}
    (hr : Linear (ls ++ [tags us]) r) :
    (∀ e ∈ r, WfCon env tvs e.con) ∧
    (∀ e ∈ r, ∃ es, findCon env e.con = .ok es ∧
      List.Sublist (e.con :: cons es) (cons r)) ∧
    (∀ e ∈ r, Reach env us e.path e.con) ∧
    (∀ w c, Reach env us w c → c ∈ cons r) := by
  obtain ⟨l1, l2⟩ := lins_ok hls
  -- where an entry comes from
  have hfrom : ∀ e ∈ r, e ∈ tags us ∨
      ∃ t ∈ tags us, ∃ es, findCon env t.con = .ok es ∧
        ∃ e' ∈ es, e = ⟨t.path ++ e'.path, e'.con⟩ := by
    intro e he
    obtain ⟨l, hl, hel⟩ := hr.only e he
    rcases List.mem_append.mp hl with hl | hl
    · obtain ⟨t, ht, es, hf, rfl⟩ := l2 l hl
      rcases List.mem_cons.mp hel with rfl | hel
      · exact Or.inl ht
      · obtain ⟨e', he', rfl⟩ := List.mem_map.mp hel
        exact Or.inr ⟨t, ht, es, hf, e', he', rfl⟩
    · rw [List.mem_singleton] at hl
      subst hl
      exact Or.inl hel
  have hbase : ∀ t ∈ tags us, ∃ es, findCon env t.con = .ok es ∧
      List.Sublist (t.con :: cons es) (cons r) := by
    intro t ht
    obtain ⟨es, hf, hin⟩ := l1 t ht
    refine ⟨es, hf, ?_⟩
    have := hr.keeps _ (List.mem_append_left _ hin)
    have e2 : cons (t :: es.map (fun e' => (⟨t.path ++ e'.path, e'.con⟩ : Entry)))
        = t.con :: cons es := by
      rw [← cons_prefix t.path es]
      rfl
    rw [e2] at this
    exact this
  have hmono : ∀ e ∈ r, ∃ es, findCon env e.con = .ok es ∧
      List.Sublist (e.con :: cons es) (cons r) := by
    intro e he
    rcases hfrom e he with ht | ⟨t, ht, es, hf, e', he', rfl⟩
    · exact hbase e ht
    · obtain ⟨es', h1, h2⟩ := findCon_mono_order g (hus _ (mem_tags ht).1) hf e' he'
      obtain ⟨es2, h3, h4⟩ := hbase t ht
      rw [hf] at h3
      cases h3
      exact ⟨es', h1, (h2.trans (List.sublist_cons_self _ _)).trans h4⟩
  refine ⟨?_, hmono, ?_, ?_⟩
  · intro e he
    rcases hfrom e he with ht | ⟨t, ht, es, hf, e', he', rfl⟩
    · exact hus _ (mem_tags ht).1
    · exact findCon_wf g (hus _ (mem_tags ht).1) hf e' he'
  · intro e he
    rcases hfrom e he with ht | ⟨t, ht, es, hf, e', he', rfl⟩
    · exact (mem_tags ht).2 env
    · obtain ⟨i, hi, _, gi, hf'⟩ := findCon_known g (hus _ (mem_tags ht).1)
      rw [hf'] at hf
      cases hf
      obtain ⟨e0, he0, rfl⟩ := List.mem_map.mp he'
      exact .step ((mem_tags ht).2 env) hi (gi.path e0 he0)
  · intro w c h
    have hus' : ∀ u ∈ us, u ∈ cons r := by
      intro u hu
      have := hr.keeps (tags us) (by simp)
      rw [cons_tags] at this
      exact this.subset hu
    generalize hv : us = vs at h
    induction h with
    | first => subst hv; exact hus' _ (by simp)
    | other hu => subst hv; exact hus' _ (by simp [hu])
    | @step vs w u i w' c h1 hi h2 ih1 ih2 =>
      have hin := ih1 hv
      obtain ⟨e, he, rfl⟩ := List.mem_map.mp hin
      obtain ⟨es, hf, hsub⟩ := hmono e he
      have hc := (g _ _ hi).all _ _ h2
      have : substCon (i.tvs.zip e.con.args) c ∈ cons es := by
        unfold findCon at hf
        rw [hi] at hf
        simp only [conAnc_eq (g _ _ hi)] at hf
        cases hf
        rw [cons_substEntry]
        exact List.mem_map.mpr ⟨c, hc, rfl⟩
      exact hsub.subset (List.mem_cons_of_mem _ this)

theorem reach_back {env : Env} (g : GoodEnv env) {j : Info}
    (hf : findInfo env j.name = none) {us w c} (h : Reach (j :: env) us w c) :
    ∀ tvs, (∀ u ∈ us, WfCon env tvs u) → Reach env us w c ∧ WfCon env tvs c := by
  induction h with
  | first => intro tvs hw; exact ⟨.first, hw _ (by simp)⟩
  | other hu => intro tvs hw; exact ⟨.other hu, hw _ (by simp [hu])⟩
  | @step us w u i w' c h1 hi h2 ih1 ih2 =>
    intro tvs hw
    obtain ⟨r1, w1⟩ := ih1 tvs hw
    obtain ⟨i', hi', hl⟩ := w1.known
    have : i' = i := by
      have := findInfo_cons hf hi'
      rw [hi] at this
      exact (Option.some.inj this).symm
    subst this
    obtain ⟨r2, w2⟩ := ih2 i'.tvs (g _ _ hi').bases
    exact ⟨.step r1 hi' r2, wf_subst w2 hl w1.vars w1.norm⟩

theorem good_mono {env : Env} (g : GoodEnv env) {j : Info}
    (hf : findInfo env j.name = none) {i : Info} (gi : GoodInfo env i) :
    GoodInfo (j :: env) i where
  bases := fun u hu => wf_mono hf (gi.bases u hu)
  anc := fun e he => wf_mono hf (gi.anc e he)
  nodup := gi.nodup
  self := gi.self
  mono := fun e he => by
    obtain ⟨es, h1, h2⟩ := gi.mono e he
    exact ⟨es, findCon_mono hf h1, h2⟩
  path := fun e he => reach_mono hf (gi.path e he)
  all := fun w c h => gi.all w c (reach_back g hf h i.tvs gi.bases).1
  single := fun hs => by
    rcases gi.single hs with h | ⟨u, es, h1, h2, h3⟩
    · exact Or.inl h
    · exact Or.inr ⟨u, es, h1, findCon_mono hf h2, h3⟩
  root := gi.root

theorem good_cons {env : Env} (g : GoodEnv env) {j : Info}
    (hf : findInfo env j.name = none) (gj : GoodInfo (j :: env) j) : GoodEnv (j :: env) := by
  intro n i hi
  simp only [findInfo] at hi
  by_cases e : j.name = n
  · rw [if_pos e] at hi; cases hi; exact gj
  · rw [if_neg e] at hi
    exact good_mono g hf (g _ _ hi)

theorem known_ne {env : Env} {n : Nat} (hf : findInfo env n = none) {tvs : List Nat}
    {c : Con} (hc : WfCon env tvs c) : c.name ≠ n := by
  rintro rfl
  obtain ⟨i, hi, _⟩ := hc.known
  rw [hf] at hi; cases hi

/-- A declaration whose stored ancestors are a linear order of those of its bases keeps the
environment good. -/
theorem good_decl {env : Env} (g : GoodEnv env) {j : Info}
    (hf : findInfo env j.name = none)
    (hus : ∀ u ∈ j.bases, WfCon env j.tvs u) {ls : List (List Entry)}
    (hls : lins env (tags j.bases) = .ok ls)
    (hr : Linear (ls ++ [tags j.bases]) j.anc)
    (hsingle : j.sort = .cls → j.bases = [] ∧ j.anc = [] ∨ ∃ u, j.bases = [u])
    (hroot : j.name = valueName → j.anc = [] ∧ j.tvs = []) : GoodEnv (j :: env) := by
  obtain ⟨h1, h2, h3, h4⟩ := linear_good g hus hls hr
  apply good_cons g hf
  refine ⟨fun u hu => wf_mono hf (hus u hu), fun e he => wf_mono hf (h1 e he), hr.nodup, ?_, ?_,
    fun e he => reach_mono hf (h3 e he), ?_, ?_, hroot⟩
  · intro hin
    simp only [cons, List.map_map, List.mem_map, Function.comp] at hin
    obtain ⟨e, he, hen⟩ := hin
    exact known_ne hf (h1 e he) hen
  · intro e he
    obtain ⟨es, h5, h6⟩ := h2 e he
    exact ⟨es, findCon_mono hf h5, h6⟩
  · intro w c h
    exact h4 w c (reach_back g hf h j.tvs hus).1
  · intro hs
    rcases hsingle hs with h | ⟨u, hu⟩
    · exact Or.inl h
    · refine Or.inr ⟨u, ?_⟩
      obtain ⟨l1, l2⟩ := lins_ok hls
      rw [hu] at l1 l2
      obtain ⟨es, hfc, hin⟩ := l1 ⟨[.left u.name], u⟩ (by simp [tags])
      refine ⟨es, hu, findCon_mono hf hfc, ?_⟩
      have hkeep := hr.keeps _ (List.mem_append_left _ hin)
      have e2 : cons ((⟨[.left u.name], u⟩ : Entry) ::
          es.map (fun e' => (⟨[.left u.name] ++ e'.path, e'.con⟩ : Entry))) = u :: cons es := by
        rw [← cons_prefix [.left u.name] es]
        rfl
      rw [e2] at hkeep
      -- nothing else is in the order
      have hsub : cons j.anc ⊆ u :: cons es := by
        intro c hc
        obtain ⟨e, he, rfl⟩ := List.mem_map.mp hc
        obtain ⟨l, hl, hel⟩ := hr.only e he
        rcases List.mem_append.mp hl with hl | hl
        · obtain ⟨t, ht, es', hf', rfl⟩ := l2 l hl
          simp only [tags, tagRest, List.map_nil, List.mem_singleton] at ht
          subst ht
          simp only at hf' hel
          rw [hfc] at hf'
          cases hf'
          rw [← e2]
          exact List.mem_map.mpr ⟨e, hel, rfl⟩
        · rw [List.mem_singleton] at hl
          subst hl
          rw [hu] at hel
          simp only [tags, tagRest, List.map_nil, List.mem_singleton] at hel
          subst hel
          simp
      have hnd : (cons j.anc).Nodup := by
        have := hr.nodup
        unfold NoDup at this
        exact List.Nodup.of_map _ this
      have hlen := (List.subperm_of_subset hnd hsub).length_le
      exact (hkeep.eq_of_length_le hlen).symm

theorem mro_linear {env : Env} {us : List Con} {r : List Entry} (h : mro env us = .ok r) :
    ∃ ls, lins env (tags us) = .ok ls ∧ Linear (ls ++ [tags us]) r := by
  unfold mro at h
  cases hl : lins env (tags us) with
  | error x => rw [hl] at h; cases h
  | ok ls =>
    rw [hl] at h
    exact ⟨ls, rfl, merge_sound h⟩

theorem mro2_empty {env : Env} {us : List Con} {a : List Entry}
    (h : mro2 env us = .ok (a, [])) :
    us = [] ∧ a = [] ∨ ∃ u, us = [u] ∧ mro env [u] = .ok a := by
  cases us with
  | nil => simp only [mro2] at h; cases h; exact Or.inl ⟨rfl, rfl⟩
  | cons u us =>
    right
    have hne : ∀ {vs : List Con} {r : List Entry}, mro env vs = .ok r → r = [] → vs = [] := by
      intro vs r hr hre
      obtain ⟨ls, _, hlin⟩ := mro_linear hr
      have := hlin.keeps (tags vs) (by simp)
      rw [cons_tags, hre] at this
      simpa [cons] using this
    simp only [mro2] at h
    by_cases h1 : sortOf env u.name = some .actor
    · rw [if_pos h1] at h; cases h
    · rw [if_neg h1] at h
      by_cases h2 : sortOf env u.name = some .proto
      · rw [if_pos h2] at h
        cases hm : mro env (u :: us) with
        | error x => rw [hm] at h; cases h
        | ok r =>
          rw [hm] at h
          simp only at h
          cases h
          have := hne hm rfl
          cases this
      · rw [if_neg h2] at h
        cases hm : mro env [u] with
        | error x => rw [hm] at h; cases h
        | ok r =>
          rw [hm] at h
          simp only at h
          cases hp : mro env us with
          | error x => rw [hp] at h; cases h
          | ok p =>
            rw [hp] at h
            simp only at h
            cases h
            exact ⟨u, by rw [hne hp rfl], hm⟩

theorem built_good {env : Env} (h : Built env) : GoodEnv env := by
  induction h with
  | nil => intro n i hi; simp [findInfo] at hi
  | @proto env env' n tvs us te _ hf hnv hus hd g =>
    unfold declProto at hd
    cases hm : mro env us with
    | error x => rw [hm] at hd; cases hd
    | ok r =>
      rw [hm] at hd
      cases hd
      obtain ⟨ls, hls, hlin⟩ := mro_linear hm
      exact good_decl g hf hus hls hlin (fun hs => by cases hs) (fun hv => absurd hv hnv)
  | @cls env env' n tvs us te _ hf hnv hus hval hd g =>
    unfold declClass at hd
    cases hm : mro2 env us with
    | error x => rw [hm] at hd; cases hd
    | ok ap =>
      obtain ⟨a, p⟩ := ap
      rw [hm] at hd
      simp only at hd
      by_cases hp : p = []
      · rw [if_pos hp] at hd
        cases hd
        subst hp
        rcases mro2_empty hm with ⟨rfl, rfl⟩ | ⟨u, rfl, hm1⟩
        · -- no base: `value`
          have hb : classBases n [] = [⟨valueName, []⟩] := by simp [classBases, hnv]
          have ha : classAnc n [] = [⟨[.left valueName], ⟨valueName, []⟩⟩] := by
            simp [classAnc, hnv]
          obtain ⟨i, hi, hl, gi, hfc⟩ := findCon_known g hval
          have hroot := gi.root (findInfo_name hi)
          rw [hroot.1] at hfc
          simp only [List.map_nil] at hfc
          have hls : lins env (tags [⟨valueName, []⟩]) =
              .ok [[⟨[.left valueName], ⟨valueName, []⟩⟩]] := by
            simp [tags, tagRest, lins, lin, hfc]
          refine good_decl (ls := [[⟨[.left valueName], ⟨valueName, []⟩⟩]]) g hf ?_ ?_ ?_ ?_ ?_
          · simp only [hb]
            intro u hu
            rw [List.mem_singleton] at hu
            subst hu; exact hval
          · simp only [hb]; exact hls
          · simp only [hb, ha]
            refine ⟨by simp [NoDup, cons], ?_, ?_⟩
            · intro l hl
              simp only [tags, tagRest, List.map_nil, List.singleton_append, List.mem_cons,
                List.not_mem_nil, or_false, or_self] at hl
              subst hl
              exact List.Sublist.refl _
            · intro e he
              exact ⟨_, List.mem_append_left _ (List.mem_singleton.mpr rfl), he⟩
          · intro _; right; exact ⟨_, hb⟩
          · intro hv; exact absurd hv hnv
        · obtain ⟨ls, hls, hlin⟩ := mro_linear hm1
          have hane : a ≠ [] := by
            intro h0
            have := hlin.keeps (tags [u]) (by simp)
            rw [cons_tags, h0] at this
            simp [cons] at this
          have ha : classAnc n a = a := by simp [classAnc, hane]
          refine good_decl (ls := ls) g hf hus hls ?_ ?_ ?_
          · simp only [ha]; exact hlin
          · intro _; right; exact ⟨u, rfl⟩
          · intro hv; exact absurd hv hnv
      · rw [if_neg hp] at hd; cases hd
  | @value env env' te _ hf hd g =>
    have : env' = ⟨.cls, valueName, [], [], [], te⟩ :: env := by
      simp only [declClass, mro2, if_true] at hd
      cases hd
      simp [classBases, classAnc]
    subst this
    refine good_decl (ls := []) g hf (by simp) rfl ?_ ?_ ?_
    · exact ⟨by simp [NoDup, cons], by simp [tags], by simp⟩
    · intro _; left; exact ⟨rfl, rfl⟩
    · intro _; exact ⟨rfl, rfl⟩
  | @actor env n tvs te _ hf hnv g =>
    refine good_decl (ls := []) g hf (by simp) rfl ?_ ?_ ?_
    · exact ⟨by simp [NoDup, cons], by simp [tags], by simp⟩
    · intro hs; cases hs
    · intro hv; exact absurd hv hnv

end Verif.Mro
