import Verif.Incr.Lemmas

namespace Verif.Incr

set_option linter.unusedSectionVars false

variable {κ ν η σ τ : Type} [DecidableEq κ] [DecidableEq ν] [DecidableEq η]
variable {C : Compiler κ ν η σ τ}

/-! ## The decision -/

/-- The recorded public hashes are the current ones. -/
def PubCurrent (C : Compiler κ ν η σ τ) (look : Look κ ν η σ τ) (r : Rec κ ν η σ τ) : Prop :=
  ∀ x ∈ pubIdx r.rows, hashOf C Row.pub look x.1 = some x.2

/-- The recorded implementation hashes are the current ones. -/
def ImplCurrent (C : Compiler κ ν η σ τ) (look : Look κ ν η σ τ) (r : Rec κ ν η σ τ) : Prop :=
  ∀ x ∈ implIdx r.rows, hashOf C Row.impl look x.1 = some x.2

/-- All names of which the implementation hash is recorded have one. -/
def ImplThere (C : Compiler κ ν η σ τ) (look : Look κ ν η σ τ) (r : Rec κ ν η σ τ) : Prop :=
  ∀ x ∈ implIdx r.rows, (hashOf C Row.impl look x.1).isSome

theorem unchanged_pub (hI : Ideal C) {look : Look κ ν η σ τ} (hw : WFLook C look)
    {r : Rec κ ν η σ τ} (hv : Kept C r) {x : (κ × ν) × η} (hx : x ∈ pubIdx r.rows)
    (h : changedPub look r x.1.1 = false) : hashOf C Row.pub look x.1 = some x.2 := by
  obtain ⟨e, he, hex⟩ := hv.listed x (List.mem_append_left _ hx)
  obtain ⟨q, hq, h1, -, h3, -⟩ := hv.mods e he
  have h := (List.any_eq_false.1 h) e he
  simp only [hex, decide_true, Bool.true_and, changedMod] at h
  cases hl : look x.1.1 with
  | none => simp [hl] at h
  | some r' =>
      simp only [hl, Bool.not_eq_true, Bool.not_eq_false', decide_eq_true_eq] at h
      simp only [hashOf, find, hl, Option.bind_some]
      rw [pub_of_hash hI (hw _ _ hl) hq (h.trans h1)]
      exact h3 x hx hex.symm

theorem unchanged_impl (hI : Ideal C) {look : Look κ ν η σ τ} (hw : WFLook C look)
    {r : Rec κ ν η σ τ} (hv : Kept C r) {x : (κ × ν) × η} (hx : x ∈ implIdx r.rows)
    (h : changedImpl look r x.1.1 = false) : hashOf C Row.impl look x.1 = some x.2 := by
  obtain ⟨e, he, hex⟩ := hv.listed x (List.mem_append_right _ hx)
  obtain ⟨q, hq, -, h1, -, h3⟩ := hv.mods e he
  have h := (List.any_eq_false.1 h) e he
  simp only [hex, decide_true, Bool.true_and, changedMod] at h
  cases hl : look x.1.1 with
  | none => simp [hl] at h
  | some r' =>
      simp only [hl, Bool.not_eq_true, Bool.not_eq_false', decide_eq_true_eq] at h
      simp only [hashOf, find, hl, Option.bind_some]
      rw [impl_of_hash hI (hw _ _ hl) hq (h.trans h1)]
      exact h3 x hx hex.symm

theorem pubChanges_iff (hI : Ideal C) {look : Look κ ν η σ τ} (hw : WFLook C look)
    {r : Rec κ ν η σ τ} (hv : Kept C r) : pubChanges C look r = false ↔ PubCurrent C look r := by
  constructor
  · intro h x hx
    have h := (List.any_eq_false.1 h) x hx
    cases hc : changedPub look r x.1.1 with
    | false => exact unchanged_pub hI hw hv hx hc
    | true => simpa [hc] using h
  · intro h
    refine List.any_eq_false.2 fun x hx => ?_
    simp [h x hx]

theorem implMissing_iff (hI : Ideal C) {look : Look κ ν η σ τ} (hw : WFLook C look)
    {r : Rec κ ν η σ τ} (hv : Kept C r) : implMissing C look r = false ↔ ImplThere C look r := by
  constructor
  · intro h x hx
    have h := (List.any_eq_false.1 h) x hx
    cases hc : changedImpl look r x.1.1 with
    | false => rw [unchanged_impl hI hw hv hx hc]; rfl
    | true =>
        simp only [hc, Bool.true_and] at h
        cases hh : hashOf C Row.impl look x.1 with
        | none => simp [hh] at h
        | some _ => rfl
  · intro h
    refine List.any_eq_false.2 fun x hx => ?_
    have := h x hx
    cases hh : hashOf C Row.impl look x.1 with
    | none => simp [hh] at this
    | some _ => simp

theorem implDeltas_iff (hI : Ideal C) {look : Look κ ν η σ τ} (hw : WFLook C look)
    {r : Rec κ ν η σ τ} (hv : Kept C r) (ht : ImplThere C look r) :
    implDeltas C look r = false ↔ ImplCurrent C look r := by
  constructor
  · intro h x hx
    have h := (List.any_eq_false.1 h) x hx
    cases hc : changedImpl look r x.1.1 with
    | false => exact unchanged_impl hI hw hv hx hc
    | true =>
        have := ht x hx
        cases hh : hashOf C Row.impl look x.1 with
        | none => simp [hh] at this
        | some _ => simpa [hc, hh] using h
  · intro h
    refine List.any_eq_false.2 fun x hx => ?_
    simp [h x hx]

theorem rowMissing_false {look : Look κ ν η σ τ} {r : Rec κ ν η σ τ} (hv : Kept C r) :
    rowMissing look r = false := by
  refine List.any_eq_false.2 fun e he => ?_
  obtain ⟨x, hx, h⟩ := hv.named e he
  have : (pubIdx r.rows ++ implIdx r.rows).any (fun x => decide (x.1.1 = e.1)) = true :=
    List.any_eq_true.2 ⟨x, hx, by simpa using h⟩
  simp [this]

/-- The decision is as if all recorded hashes were compared. -/
theorem decision_iff (hI : Ideal C) {look : Look κ ν η σ τ} (hw : WFLook C look)
    {r : Rec κ ν η σ τ} (hv : Kept C r) :
    (decision C look r ≠ .front ↔ PubCurrent C look r ∧ ImplThere C look r) ∧
    (decision C look r = .reuse ↔ PubCurrent C look r ∧ ImplCurrent C look r) := by
  have h1 := pubChanges_iff hI hw hv
  have h2 := implMissing_iff hI hw hv
  have h3 := implDeltas_iff hI hw hv
  have h4 := rowMissing_false (look := look) hv
  have h5 : ImplCurrent C look r → ImplThere C look r := fun h x hx => by rw [h x hx]; rfl
  simp only [decision, h4, Bool.or_false]
  by_cases hp : PubCurrent C look r
  · by_cases ht : ImplThere C look r
    · by_cases hc : ImplCurrent C look r
      · simp [h1.2 hp, h2.2 ht, (h3 ht).2 hc, hp, ht, hc]
      · have : implDeltas C look r = true := by
          cases h : implDeltas C look r with
          | true => rfl
          | false => exact absurd ((h3 ht).1 h) hc
        simp [h1.2 hp, h2.2 ht, this, hp, ht, hc]
    · have : implMissing C look r = true := by
        cases h : implMissing C look r with
        | true => rfl
        | false => exact absurd (h2.1 h) ht
      simp only [this, Bool.or_true, if_true, ht, and_false, iff_false, not_and]
      simpa using fun _ h => ht (h5 h)
  · have : pubChanges C look r = true := by
      cases h : pubChanges C look r with
      | true => rfl
      | false => exact absurd (h1.1 h) hp
    simp [this, hp]

/-! ## Running the front passes again would give the same -/

theorem mem_pubExt {e : Entry κ ν η} {d : κ × ν} :
    d ∈ pubExt C e ↔ d ∈ e.sigExt ++ e.implExt.filter (fun d => !C.derived d.2) := by
  simp only [pubExt, List.mem_append, List.mem_filter, Bool.and_eq_true, Bool.not_eq_true',
    decide_eq_false_iff_not]
  tauto

theorem seen_eq (look : Look κ ν η σ τ) (d : κ × ν) :
    (seen C look d.1).bind (fun f => f d.2) = hashOf C Row.pub look d := by
  simp only [seen, hashOf, find]
  cases look d.1 <;> rfl

/-- With the recorded public hashes current and the names of the implementation there, the front
passes give the recorded typed module. -/
theorem compile_again (hL : Laws C) {look : Look κ ν η σ τ} {r : Rec κ ν η σ τ} (hv : Valid C r)
    (hm : importsThere C look r.src = true) (hp : PubCurrent C look r)
    (hi : ImplThere C look r) :
    ∃ look0 s, C.front r.src s = some r.typed ∧ r.typed.entries.all (okEntry C look0) = true ∧
      r.rows = r.typed.entries.map (rowOf C look0 r.typed) ∧
      r.typed.entries.all (okEntry C look) = true ∧
      compile C look r.src = some (record C look r.src r.typed) := by
  obtain ⟨look0, c, hc, hs⟩ := hv.made
  obtain ⟨-, t, ht, ho, hr⟩ := compile_some hc
  have ety : r.typed = t := by rw [← hs.typed, hr]; rfl
  have erows : r.rows = t.entries.map (rowOf C look0 t) := by rw [← hs.rows, hr]; rfl
  obtain ⟨h1, h2⟩ := idx_hash ho
  have hpub : ∀ e ∈ t.entries, ∀ d ∈ pubExt C e,
      hashOf C Row.pub look d = hashOf C Row.pub look0 d ∧ (hashOf C Row.pub look d).isSome := by
    intro e he d hd
    obtain ⟨x, hx, rfl⟩ := (idx_mem ho he).1 d hd
    have := hp x (erows ▸ hx)
    rw [this, h1 x hx]; exact ⟨rfl, rfl⟩
  have himpl : ∀ e ∈ t.entries, ∀ d ∈ e.implExt, (hashOf C Row.impl look d).isSome := by
    intro e he d hd
    obtain ⟨x, hx, rfl⟩ := (idx_mem ho he).2 d hd
    exact hi x (erows ▸ hx)
  have hfront : C.front r.src (seen C look) = some t := by
    refine hL.loc r.src _ _ t ht ?_ ?_
    · intro m hmm
      have := List.all_eq_true.1 hm m hmm
      simpa [seen] using this
    · intro e he d hd
      have hd := mem_pubExt.2 hd
      rw [seen_eq, seen_eq]
      exact (hpub e he d hd).1
  have hok : t.entries.all (okEntry C look) = true := by
    refine List.all_eq_true.2 fun e he => ?_
    simp only [okEntry, Bool.and_eq_true]
    exact ⟨resolve_isSome.2 fun d hd => (hpub e he d hd).2, resolve_isSome.2 (himpl e he)⟩
  subst ety
  refine ⟨look0, _, ht, ho, erows, hok, ?_⟩
  simp only [compile, hm, hfront, hok, if_true]

/-- A module that is taken as recorded is what the front passes would give. -/
theorem reuse_same (hL : Laws C) {look : Look κ ν η σ τ} {r : Rec κ ν η σ τ} (hv : Valid C r)
    (hm : importsThere C look r.src = true) (hp : PubCurrent C look r)
    (hi : ImplCurrent C look r) : ∃ c, compile C look r.src = some c ∧ Same r c := by
  have ht : ImplThere C look r := fun x hx => by rw [hi x hx]; rfl
  obtain ⟨look0, s, hf, ho, erows, hok, hc⟩ := compile_again hL hv hm hp ht
  obtain ⟨h1, h2⟩ := idx_hash ho
  refine ⟨_, hc, ?_⟩
  have hrows : r.rows = r.typed.entries.map (rowOf C look r.typed) := by
    rw [erows]
    refine List.map_congr_left fun e he => rowOf_congr ?_ ?_ he
    · intro e he d hd
      obtain ⟨x, hx, rfl⟩ := (idx_mem ho he).1 d hd
      rw [h1 x hx, hp x (erows ▸ hx)]
    · intro e he d hd
      obtain ⟨x, hx, rfl⟩ := (idx_mem ho he).2 d hd
      rw [h2 x hx, hi x (erows ▸ hx)]
  constructor
  · rfl
  · rfl
  · exact hrows
  · rw [hv.wf.1, hrows]; rfl
  · rw [hv.wf.2, hrows]; rfl

theorem rowIn_entries (f : Entry κ ν η → Row κ ν η) (hf : ∀ e, (f e).name = e.name) (n : ν) :
    ∀ es : List (Entry κ ν η), rowIn (es.map f) n =
      (es.find? (fun e => decide (e.name = n))).map f
  | [] => rfl
  | e :: es => by
      have ih := rowIn_entries f hf n es
      simp only [rowIn] at ih ⊢
      by_cases h : e.name = n
      · simp [hf, h]
      · simp only [List.map_cons, List.find?_cons, hf, h, decide_false]; exact ih

theorem rowMap_entries {α : Type} {look : Look κ ν η σ τ} {t : Typed κ ν η τ}
    (f : Row κ ν η → α) (g : Entry κ ν η → α) (dflt : α)
    (h : ∀ e ∈ t.entries, f (rowOf C look t e) = g e) :
    rowMap (t.entries.map (rowOf C look t)) f dflt = t.map g dflt := by
  funext n
  simp only [rowMap, Typed.map, Typed.entry]
  rw [rowIn_entries (rowOf C look t) (fun _ => rfl) n t.entries]
  cases he : t.entries.find? (fun e => decide (e.name = n)) with
  | none => rfl
  | some e => exact h e (List.mem_of_find?_eq_some he)

theorem entry_self {t : Typed κ ν η τ} (hd : (t.entries.map Entry.name).Nodup)
    {e : Entry κ ν η} (he : e ∈ t.entries) : t.entry e.name = some e := by
  simp only [Typed.entry]
  revert hd he
  generalize t.entries = es
  induction es with
  | nil => intro _ h; simp at h
  | cons a es ih =>
      intro hd he
      simp only [List.map_cons, List.nodup_cons] at hd
      rcases List.mem_cons.1 he with rfl | he
      · simp
      · have : a.name ≠ e.name := fun h => hd.1 (h ▸ List.mem_map_of_mem he)
        simp only [List.find?_cons, this, decide_false]
        exact ih hd.2 he

theorem refresh_rows (hL : Laws C) {look0 look : Look κ ν η σ τ} {s : σ}
    {env : κ → Option (ν → Option η)} {t : Typed κ ν η τ} (hf : C.front s env = some t)
    (ho : t.entries.all (okEntry C look0) = true)
    (hp : ∀ e ∈ t.entries, ∀ d ∈ pubExt C e,
      hashOf C Row.pub look0 d = hashOf C Row.pub look d) :
    (t.entries.map (rowOf C look0 t)).map (refreshRow C look (t.entries.map (rowOf C look0 t))) =
      t.entries.map (rowOf C look t) := by
  rw [List.map_map]
  refine List.map_congr_left fun e he => ?_
  simp only [Function.comp]
  have hkey : ∀ e ∈ t.entries, C.key e.implLocals = e.implLocals := hL.keyed s env t hf
  have hdeps : ∀ e ∈ t.entries, newDeps C look (rowOf C look0 t e) =
      resolved C Row.impl look e.implExt := by
    intro e he
    simp only [newDeps]
    by_cases h : e.own.isSome
    · rw [if_pos (show (rowOf C look0 t e).own.isSome from h)]
      simp only [rowOf, (resolved_spec (ok_pub ho he).2).1]
    · rw [if_neg (show ¬ (rowOf C look0 t e).own.isSome from h)]
      rw [(own_none (by simpa using h)).2.1]; rfl
  have hext : t.map (fun e => resolved C Row.pub look0 e.sigExt) [] =
      t.map (fun e => resolved C Row.pub look e.sigExt) [] := by
    funext n
    simp only [Typed.map]
    cases h : t.entry n with
    | none => rfl
    | some e =>
        exact resolved_congr fun d hd => hp e (List.mem_of_find?_eq_some h) d
          (List.mem_append_left _ hd)
  have hpub : pubHash C look0 t = pubHash C look t := by
    simp only [pubHash, hext]
  have hself : rowMap (t.entries.map (rowOf C look0 t)) Row.own none = t.map Entry.own none :=
    rowMap_entries _ _ _ fun _ _ => rfl
  have hloc : rowMap (t.entries.map (rowOf C look0 t))
      (fun r => if r.own.isSome then r.locals else []) [] = t.map Entry.implLocals [] := by
    refine rowMap_entries _ _ _ fun e he => ?_
    by_cases h : e.own.isSome
    · rw [if_pos (show (rowOf C look0 t e).own.isSome from h)]; exact hkey e he
    · rw [if_neg (show ¬ (rowOf C look0 t e).own.isSome from h), (own_none (by simpa using h)).2.2]
  have hnew : rowMap (t.entries.map (rowOf C look0 t)) (newDeps C look) [] =
      t.map (fun e => resolved C Row.impl look e.implExt) [] := rowMap_entries _ _ _ hdeps
  simp only [refreshRow, hself, hloc, hnew]
  by_cases h : e.own.isSome
  · rw [if_pos (show (rowOf C look0 t e).own.isSome from h)]
    rw [hdeps e he]
    simp only [rowOf, hpub, resolved_congr (hp e he), hkey e he]
    rfl
  · rw [if_neg (show ¬ (rowOf C look0 t e).own.isSome from h)]
    have hn := own_none (e := e) (by simpa using h)
    have hs : t.map Entry.own none e.name = none := by
      simp only [Typed.map, entry_self (hL.distinct s env t hf) he]
      simpa using h
    have himpl : ∀ l, implHash C l t e.name = none := fun l => hL.domain _ _ _ _ hs
    simp only [rowOf, hpub, resolved_congr (hp e he), himpl, hn.2.1]
    rfl

/-- A module whose hashes are refreshed is what the front passes would give. -/
theorem refresh_same (hL : Laws C) {look : Look κ ν η σ τ} (hw : WFLook C look)
    {r : Rec κ ν η σ τ} (hv : Valid C r)
    (hm : importsThere C look r.src = true) (hp : PubCurrent C look r)
    (hi : ImplThere C look r) :
    ∃ r' c, refresh C look r = some r' ∧ compile C look r.src = some c ∧ Same r' c ∧
      Valid C r' := by
  obtain ⟨look0, s, hf, ho, erows, hok, hc⟩ := compile_again hL hv hm hp hi
  obtain ⟨h1, h2⟩ := idx_hash ho
  have hrows := refresh_rows hL (look0 := look0) (look := look) hf ho (by
    intro e he d hd
    obtain ⟨x, hx, rfl⟩ := (idx_mem ho he).1 d hd
    rw [h1 x hx, hp x (erows ▸ hx)])
  rw [← erows] at hrows
  obtain ⟨h3, h4⟩ := idx_hash hok
  have hall : r.rows.all (fun x => !x.own.isSome ||
      (resolve C Row.impl look (x.implDeps.map Prod.fst)).isSome) = true := by
    refine List.all_eq_true.2 fun x hx => ?_
    have : (resolve C Row.impl look (x.implDeps.map Prod.fst)).isSome := by
      refine resolve_isSome.2 fun d hd => ?_
      obtain ⟨y, hy, rfl⟩ := List.mem_map.1 hd
      exact hi y (List.mem_flatMap.2 ⟨x, hx, hy⟩)
    simp [this]
  have hmods : (extMods (r.rows.map (refreshRow C look r.rows))).all
      (fun m => (look m).isSome) = true := by
    refine List.all_eq_true.2 fun m hm => ?_
    rw [hrows] at hm
    obtain ⟨x, hx, rfl⟩ := List.mem_map.1 (List.mem_dedup.1 hm)
    have : ∀ get, hashOf C get look x.1 = some x.2 → (look x.1.1).isSome = true := by
      intro get h
      cases hl : look x.1.1 with
      | none => simp [hashOf, find, hl] at h
      | some _ => rfl
    rcases List.mem_append.1 hx with hx | hx
    · exact this _ (h3 x hx)
    · exact this _ (h4 x hx)
  have hpubH : r.pubH = modPub C (r.typed.entries.map (rowOf C look r.typed)) := by
    rw [hv.wf.1, ← hrows]
    simp only [modPub, List.filter_map, List.map_map]
    congr 1
    have h : ∀ x : Row κ ν η, (refreshRow C look r.rows x).name = x.name ∧
        (refreshRow C look r.rows x).pub = x.pub := by
      intro x
      simp only [refreshRow]
      split <;> exact ⟨rfl, rfl⟩
    simp only [Function.comp_def, (h _).1, (h _).2]
  refine ⟨{ r with
      rows := r.typed.entries.map (rowOf C look r.typed)
      depMods := depMods look (extMods (r.typed.entries.map (rowOf C look r.typed)))
      implH := modImpl C (r.typed.entries.map (rowOf C look r.typed)) }, _, ?_, hc,
    ⟨rfl, rfl, rfl, hpubH, rfl⟩, ?_⟩
  · rw [hrows] at hmods
    simp only [refresh, hall, if_true, hrows, hmods]
  · obtain ⟨h5, h6, h7⟩ := depMods_ok hw h3 h4
    exact ⟨⟨⟨hpubH, rfl⟩, h5, h6, h7, items_ok look r.typed⟩,
      ⟨look, _, hc, ⟨rfl, rfl, rfl, hpubH.symm, rfl⟩⟩⟩

/-! ## Builds -/

section
variable [DecidableEq σ]

theorem step_same (hL : Laws C) {look : Look κ ν η σ τ} (hw : WFLook C look)
    {stored : Option (Rec κ ν η σ τ)} (hv : ∀ r, stored = some r → Valid C r) (s : σ) :
    Option.Rel Same (step C look stored s) (compile C look s) ∧
      ∀ r, step C look stored s = some r → Valid C r := by
  have hrefl : Option.Rel Same (compile C look s) (compile C look s) := by
    cases compile C look s
    · exact .none
    · exact .some (Same.refl _)
  have hc : ∀ r, compile C look s = some r → Valid C r := fun r h => (valid_compile hw h).1
  cases stored with
  | none => exact ⟨hrefl, hc⟩
  | some r =>
      have hv := hv r rfl
      simp only [step]
      by_cases hs : r.src = s
      · subst hs
        rw [if_pos rfl]
        by_cases hm : importsThere C look r.src = true
        · rw [if_pos hm]
          obtain ⟨d1, d2⟩ := decision_iff hL.ideal hw hv.toKept
          cases hd : decision C look r with
          | front => exact ⟨hrefl, hc⟩
          | refresh =>
              obtain ⟨hp, hi⟩ := d1.1 (by rw [hd]; decide)
              obtain ⟨r', c, e1, e2, e3, e4⟩ := refresh_same hL hw hv hm hp hi
              rw [e1, e2]
              exact ⟨.some e3, fun x hx => by cases hx; exact e4⟩
          | reuse =>
              obtain ⟨hp, hi⟩ := d2.1 hd
              obtain ⟨c, e2, e3⟩ := reuse_same hL hv hm hp hi
              rw [e2]
              exact ⟨.some e3, fun x hx => by cases hx; exact hv⟩
        · rw [if_neg hm]
          have : compile C look r.src = none := by simp only [compile, hm]; rfl
          rw [this]
          exact ⟨.none, fun x hx => by cases hx⟩
      · rw [if_neg hs]
        exact ⟨hrefl, hc⟩

theorem build_same (hL : Laws C) : ∀ (p : List (κ × σ)) (look look' : Look κ ν η σ τ)
    (store : κ → Option (Rec κ ν η σ τ)), SameLook look look' → WFLook C look →
    (∀ m r, store m = some r → Valid C r) → (∀ m r, look m = some r → store m = some r) →
    SameLook (build C p look store).1 (clean C p look') ∧
      (∀ m r, (build C p look store).2 m = some r → Valid C r) ∧
      (∀ m r, (build C p look store).1 m = some r → (build C p look store).2 m = some r)
  | [], look, look', store, h, _, hv, hk => ⟨h, hv, hk⟩
  | (m, s) :: p, look, look', store, h, hw, hv, hk => by
      obtain ⟨e1, e2⟩ := step_same hL hw (stored := store m) (hv m) s
      have e3 := rel_trans e1 (compile_same h s)
      simp only [build, clean]
      cases h1 : step C look (store m) s with
      | none =>
          cases h2 : compile C look' s with
          | none => exact build_same hL p look look' store h hw hv hk
          | some c => rw [h1, h2] at e3; cases e3
      | some r =>
          cases h2 : compile C look' s with
          | none => rw [h1, h2] at e3; cases e3
          | some c =>
              rw [h1, h2] at e3
              have hrc : Same r c := by cases e3; assumption
              have hvr := e2 r h1
              refine build_same hL p _ _ _ ?_ ?_ ?_ ?_
              · intro x
                by_cases hx : x = m
                · simp only [hx, if_true]; exact .some hrc
                · simp only [hx, if_false]; exact h x
              · intro x q hq
                by_cases hx : x = m
                · simp only [hx, if_true, Option.some.injEq] at hq; exact hq ▸ hvr.wf
                · simp only [hx, if_false] at hq; exact hw x q hq
              · intro x q hq
                by_cases hx : x = m
                · simp only [hx, if_true, Option.some.injEq] at hq; exact hq ▸ hvr
                · simp only [hx, if_false] at hq; exact hv x q hq
              · intro x q hq
                by_cases hx : x = m
                · simp only [hx, if_true] at hq ⊢; exact hq
                · simp only [hx, if_false] at hq ⊢; exact hk x q hq

theorem stored_valid (hL : Laws C) {store : κ → Option (Rec κ ν η σ τ)} (h : Stored C store) :
    ∀ m r, store m = some r → Valid C r := by
  induction h with
  | empty => intro m r h; cases h
  | build p _ ih =>
      exact (build_same hL p _ (fun _ => none) _ (fun _ => .none) (fun _ _ h => by cases h) ih
        (fun _ _ h => by cases h)).2.1

end

end Verif.Incr
