import Verif.Incr.Spec

namespace Verif.Incr

set_option linter.unusedSectionVars false

variable {κ ν η σ τ : Type} [DecidableEq κ] [DecidableEq ν] [DecidableEq η]
variable {C : Compiler κ ν η σ τ}

/-! ## Resolving -/

theorem resolve_isSome {get : Row κ ν η → Option η} {look : Look κ ν η σ τ} :
    ∀ {ds : List (κ × ν)}, (resolve C get look ds).isSome ↔
      ∀ d ∈ ds, (hashOf C get look d).isSome
  | [] => by simp [resolve]
  | d :: ds => by
      have ih := resolve_isSome (get := get) (look := look) (ds := ds)
      rw [resolve]
      cases h1 : hashOf C get look d <;> cases h2 : resolve C get look ds <;>
        simp_all

theorem resolve_spec {get : Row κ ν η → Option η} {look : Look κ ν η σ τ} :
    ∀ {ds : List (κ × ν)} {l}, resolve C get look ds = some l →
      l.map Prod.fst = ds ∧ ∀ x ∈ l, hashOf C get look x.1 = some x.2
  | [], l, h => by simp [resolve] at h; subst h; simp
  | d :: ds, l, h => by
      rw [resolve] at h
      cases h1 : hashOf C get look d <;> cases h2 : resolve C get look ds <;> simp_all
      obtain ⟨h3, h4⟩ := resolve_spec h2
      subst h
      refine ⟨by simp only [List.map_cons, h3], fun a b x hx => ?_⟩
      rcases List.mem_cons.1 hx with hx | hx
      · simp only [Prod.mk.injEq] at hx
        rw [hx.1, hx.2]; exact h1
      · exact h4 ((a, b), x) hx

theorem resolve_congr {get : Row κ ν η → Option η} {look look' : Look κ ν η σ τ} :
    ∀ {ds : List (κ × ν)}, (∀ d ∈ ds, hashOf C get look d = hashOf C get look' d) →
      resolve C get look ds = resolve C get look' ds
  | [], _ => rfl
  | d :: ds, h => by
      rw [resolve, resolve, h d (by simp), resolve_congr (ds := ds) fun x hx => h x (by simp [hx])]

theorem resolved_congr {get : Row κ ν η → Option η} {look look' : Look κ ν η σ τ}
    {ds : List (κ × ν)} (h : ∀ d ∈ ds, hashOf C get look d = hashOf C get look' d) :
    resolved C get look ds = resolved C get look' ds := by
  rw [resolved, resolved, resolve_congr h]

theorem resolved_spec {get : Row κ ν η → Option η} {look : Look κ ν η σ τ} {ds : List (κ × ν)}
    (h : (resolve C get look ds).isSome) :
    (resolved C get look ds).map Prod.fst = ds ∧
      ∀ x ∈ resolved C get look ds, hashOf C get look x.1 = some x.2 := by
  obtain ⟨l, hl⟩ := Option.isSome_iff_exists.1 h
  rw [resolved, hl]
  exact resolve_spec hl

/-! ## Records that say the same -/

theorem Same.refl (r : Rec κ ν η σ τ) : Same r r := ⟨rfl, rfl, rfl, rfl, rfl⟩

theorem Same.symm {r r' : Rec κ ν η σ τ} (h : Same r r') : Same r' r :=
  ⟨h.src.symm, h.typed.symm, h.rows.symm, h.pubH.symm, h.implH.symm⟩

theorem Same.trans {a b c : Rec κ ν η σ τ} (h : Same a b) (h' : Same b c) : Same a c :=
  ⟨h.src.trans h'.src, h.typed.trans h'.typed, h.rows.trans h'.rows, h.pubH.trans h'.pubH,
    h.implH.trans h'.implH⟩

/-- The same modules are there, with records that say the same. -/
def SameLook (look look' : Look κ ν η σ τ) : Prop := ∀ m, Option.Rel Same (look m) (look' m)

theorem rel_trans {a b c : Option (Rec κ ν η σ τ)} (h : Option.Rel Same a b)
    (h' : Option.Rel Same b c) : Option.Rel Same a c := by
  cases h with
  | none => cases h'; exact .none
  | some h => cases h' with | some h' => exact .some (h.trans h')

theorem same_find {look look' : Look κ ν η σ τ} (h : SameLook look look') (d : κ × ν) :
    find C look d = find C look' d := by
  have := h d.1
  simp only [find]
  generalize look d.1 = a at this ⊢
  generalize look' d.1 = b at this ⊢
  cases this
  case none => rfl
  case some =>
    rename_i h3
    simp only [Option.bind_some, Rec.find, h3.rows]

theorem same_hashOf {look look' : Look κ ν η σ τ} (h : SameLook look look')
    (get : Row κ ν η → Option η) (d : κ × ν) : hashOf C get look d = hashOf C get look' d := by
  simp only [hashOf, same_find h]

theorem same_isSome {look look' : Look κ ν η σ τ} (h : SameLook look look') (m : κ) :
    (look m).isSome = (look' m).isSome := by
  have := h m
  generalize look m = a at this ⊢
  generalize look' m = b at this ⊢
  cases this <;> rfl

theorem same_seen {look look' : Look κ ν η σ τ} (h : SameLook look look') :
    seen C look = seen C look' := by
  funext m
  have := h m
  simp only [seen]
  generalize look m = a at this ⊢
  generalize look' m = b at this ⊢
  cases this
  case none => rfl
  case some =>
    rename_i h3
    simp only [Option.map_some, Rec.find, h3.rows]

/-- Rows depend on other modules only through the hashes of names. -/
theorem rowOf_congr {look look' : Look κ ν η σ τ} {t : Typed κ ν η τ}
    (hp : ∀ e ∈ t.entries, ∀ d ∈ pubExt C e, hashOf C Row.pub look d = hashOf C Row.pub look' d)
    (hi : ∀ e ∈ t.entries, ∀ d ∈ e.implExt,
      hashOf C Row.impl look d = hashOf C Row.impl look' d) {e : Entry κ ν η} (he : e ∈ t.entries) :
    rowOf C look t e = rowOf C look' t e := by
  have h1 : t.map (fun e => resolved C Row.pub look e.sigExt) [] =
      t.map (fun e => resolved C Row.pub look' e.sigExt) [] := by
    funext n
    simp only [Typed.map]
    cases h : t.entry n with
    | none => rfl
    | some e =>
        exact resolved_congr fun d hd => hp e (List.mem_of_find?_eq_some h) d
          (List.mem_append_left _ hd)
  have h2 : t.map (fun e => resolved C Row.impl look e.implExt) [] =
      t.map (fun e => resolved C Row.impl look' e.implExt) [] := by
    funext n
    simp only [Typed.map]
    cases h : t.entry n with
    | none => rfl
    | some e => exact resolved_congr fun d hd => hi e (List.mem_of_find?_eq_some h) d hd
  simp only [rowOf, pubHash, implHash, h1, h2, resolved_congr (hp e he), resolved_congr (hi e he)]

theorem record_same {look look' : Look κ ν η σ τ} {s : σ} {t : Typed κ ν η τ}
    (hp : ∀ e ∈ t.entries, ∀ d ∈ pubExt C e, hashOf C Row.pub look d = hashOf C Row.pub look' d)
    (hi : ∀ e ∈ t.entries, ∀ d ∈ e.implExt,
      hashOf C Row.impl look d = hashOf C Row.impl look' d) :
    Same (record C look s t) (record C look' s t) := by
  have : t.entries.map (rowOf C look t) = t.entries.map (rowOf C look' t) :=
    List.map_congr_left fun e he => rowOf_congr hp hi he
  constructor <;> simp only [record, this]

theorem compile_same {look look' : Look κ ν η σ τ} (h : SameLook look look') (s : σ) :
    Option.Rel Same (compile C look s) (compile C look' s) := by
  have h1 : importsThere C look s = importsThere C look' s := by
    simp only [importsThere, same_isSome h]
  have h2 : ∀ e, okEntry C look e = okEntry C look' e := fun e => by
    simp only [okEntry, resolve_congr fun d _ => same_hashOf h _ d]
  have h2' : okEntry C look = okEntry C look' := funext h2
  simp only [compile, h1, same_seen h, h2']
  split
  · split
    · split
      · exact .some (record_same (fun _ _ d _ => same_hashOf h _ d) (fun _ _ d _ => same_hashOf h _ d))
      · exact .none
    · exact .none
  · exact .none

/-! ## Records that can be on disk -/

/-- The hashes of a module are those of its rows. -/
def WF (C : Compiler κ ν η σ τ) (r : Rec κ ν η σ τ) : Prop :=
  r.pubH = modPub C r.rows ∧ r.implH = modImpl C r.rows

def WFLook (C : Compiler κ ν η σ τ) (look : Look κ ν η σ τ) : Prop :=
  ∀ m r, look m = some r → WF C r

theorem rowIn_map {α : Type} (get : Row κ ν η → Option α) (n : ν) : ∀ rows : List (Row κ ν η),
    (rowIn rows n).bind get =
      ((rows.map (fun r => (r.name, get r))).find? (fun x => decide (x.1 = n))).bind Prod.snd
  | [] => rfl
  | r :: rows => by
      have ih := rowIn_map get n rows
      simp only [rowIn] at ih ⊢
      by_cases h : r.name = n
      · simp [h]
      · simp only [List.find?_cons, h, decide_false, List.map_cons]; exact ih

theorem rowIn_filter {n : ν} (h : C.isPub n = true) : ∀ rows : List (Row κ ν η),
    rowIn (rows.filter (fun r => C.isPub r.name)) n = rowIn rows n
  | [] => rfl
  | r :: rows => by
      have ih := rowIn_filter h rows
      simp only [rowIn] at ih ⊢
      by_cases hn : r.name = n
      · simp [hn, h]
      · by_cases hp : C.isPub r.name = true
        · simp only [List.filter_cons, hp, if_true, List.find?_cons, hn, decide_false]; exact ih
        · simp only [List.filter_cons, hp, List.find?_cons, hn, decide_false]; exact ih

theorem pub_of_hash (hI : Ideal C) {q q' : Rec κ ν η σ τ} (hq : WF C q) (hq' : WF C q')
    (h : q.pubH = q'.pubH) (n : ν) : (q.find C n).bind Row.pub = (q'.find C n).bind Row.pub := by
  rw [hq.1, hq'.1] at h
  have h := hI.pub _ _ h
  simp only [Rec.find]
  split
  · rename_i hp
    rw [← rowIn_filter hp q.rows, ← rowIn_filter hp q'.rows, rowIn_map, rowIn_map, h]
  · rfl

theorem impl_of_hash (hI : Ideal C) {q q' : Rec κ ν η σ τ} (hq : WF C q) (hq' : WF C q')
    (h : q.implH = q'.implH) (n : ν) :
    (q.find C n).bind Row.impl = (q'.find C n).bind Row.impl := by
  rw [hq.2, hq'.2] at h
  have h := hI.impl _ _ h
  simp only [Rec.find]
  split
  · rw [rowIn_map, rowIn_map, h]
  · rfl

/-- What is known of a record on disk. -/
structure Kept (C : Compiler κ ν η σ τ) (r : Rec κ ν η σ τ) : Prop where
  wf : WF C r
  mods : ∀ e ∈ r.depMods, ∃ q : Rec κ ν η σ τ, WF C q ∧ e.2.1 = q.pubH ∧ e.2.2 = q.implH ∧
    (∀ x ∈ pubIdx r.rows, x.1.1 = e.1 → (q.find C x.1.2).bind Row.pub = some x.2) ∧
    (∀ x ∈ implIdx r.rows, x.1.1 = e.1 → (q.find C x.1.2).bind Row.impl = some x.2)
  listed : ∀ x ∈ pubIdx r.rows ++ implIdx r.rows, ∃ e ∈ r.depMods, e.1 = x.1.1
  named : ∀ e ∈ r.depMods, ∃ x ∈ pubIdx r.rows ++ implIdx r.rows, x.1.1 = e.1
  items : ∀ x ∈ r.rows, x.own = none → x.implDeps = []

/-- What is known of it under the laws: it is what the front passes gave for some other modules. -/
structure Valid (C : Compiler κ ν η σ τ) (r : Rec κ ν η σ τ) : Prop extends Kept C r where
  made : ∃ look c, compile C look r.src = some c ∧ Same c r

theorem compile_some {look : Look κ ν η σ τ} {s : σ} {c : Rec κ ν η σ τ}
    (h : compile C look s = some c) : importsThere C look s = true ∧
      ∃ t, C.front s (seen C look) = some t ∧ t.entries.all (okEntry C look) = true ∧
        c = record C look s t := by
  simp only [compile] at h
  split at h
  · rename_i hi
    split at h
    · rename_i t ht
      split at h
      · rename_i ho
        simp only [Option.some.injEq] at h
        exact ⟨hi, t, ht, ho, h.symm⟩
      · simp at h
    · simp at h
  · simp at h

theorem mem_pubIdx {look : Look κ ν η σ τ} {t : Typed κ ν η τ} {x : (κ × ν) × η} :
    x ∈ pubIdx (t.entries.map (rowOf C look t)) ↔
      ∃ e ∈ t.entries, x ∈ resolved C Row.pub look (pubExt C e) := by
  simp [pubIdx, rowOf]

theorem mem_implIdx {look : Look κ ν η σ τ} {t : Typed κ ν η τ} {x : (κ × ν) × η} :
    x ∈ implIdx (t.entries.map (rowOf C look t)) ↔
      ∃ e ∈ t.entries, x ∈ resolved C Row.impl look e.implExt := by
  simp [implIdx, rowOf]

theorem ok_pub {look : Look κ ν η σ τ} {t : Typed κ ν η τ}
    (ho : t.entries.all (okEntry C look) = true) {e : Entry κ ν η} (he : e ∈ t.entries) :
    (resolve C Row.pub look (pubExt C e)).isSome ∧ (resolve C Row.impl look e.implExt).isSome := by
  have := List.all_eq_true.1 ho e he
  simpa [okEntry] using this

/-- The recorded hashes are those there were. -/
theorem idx_hash {look : Look κ ν η σ τ} {t : Typed κ ν η τ}
    (ho : t.entries.all (okEntry C look) = true) :
    (∀ x ∈ pubIdx (t.entries.map (rowOf C look t)), hashOf C Row.pub look x.1 = some x.2) ∧
    (∀ x ∈ implIdx (t.entries.map (rowOf C look t)), hashOf C Row.impl look x.1 = some x.2) := by
  constructor
  · intro x hx
    obtain ⟨e, he, hx⟩ := mem_pubIdx.1 hx
    exact (resolved_spec (ok_pub ho he).1).2 x hx
  · intro x hx
    obtain ⟨e, he, hx⟩ := mem_implIdx.1 hx
    exact (resolved_spec (ok_pub ho he).2).2 x hx

/-- Every dependency is recorded. -/
theorem idx_mem {look : Look κ ν η σ τ} {t : Typed κ ν η τ}
    (ho : t.entries.all (okEntry C look) = true) {e : Entry κ ν η} (he : e ∈ t.entries) :
    (∀ d ∈ pubExt C e, ∃ x ∈ pubIdx (t.entries.map (rowOf C look t)), x.1 = d) ∧
    (∀ d ∈ e.implExt, ∃ x ∈ implIdx (t.entries.map (rowOf C look t)), x.1 = d) := by
  constructor
  · intro d hd
    rw [← (resolved_spec (ok_pub ho he).1).1] at hd
    obtain ⟨x, hx, rfl⟩ := List.mem_map.1 hd
    exact ⟨x, mem_pubIdx.2 ⟨e, he, hx⟩, rfl⟩
  · intro d hd
    rw [← (resolved_spec (ok_pub ho he).2).1] at hd
    obtain ⟨x, hx, rfl⟩ := List.mem_map.1 hd
    exact ⟨x, mem_implIdx.2 ⟨e, he, hx⟩, rfl⟩

/-- The modules of dependencies, recorded where the hashes of names are current. -/
theorem depMods_ok {look : Look κ ν η σ τ} (hw : WFLook C look) {rows : List (Row κ ν η)}
    (hp : ∀ x ∈ pubIdx rows, hashOf C Row.pub look x.1 = some x.2)
    (hi : ∀ x ∈ implIdx rows, hashOf C Row.impl look x.1 = some x.2) :
    (∀ e ∈ depMods look (extMods rows), ∃ q : Rec κ ν η σ τ, WF C q ∧ e.2.1 = q.pubH ∧
      e.2.2 = q.implH ∧
      (∀ x ∈ pubIdx rows, x.1.1 = e.1 → (q.find C x.1.2).bind Row.pub = some x.2) ∧
      (∀ x ∈ implIdx rows, x.1.1 = e.1 → (q.find C x.1.2).bind Row.impl = some x.2)) ∧
    (∀ x ∈ pubIdx rows ++ implIdx rows, ∃ e ∈ depMods look (extMods rows), e.1 = x.1.1) ∧
    (∀ e ∈ depMods look (extMods rows), ∃ x ∈ pubIdx rows ++ implIdx rows, x.1.1 = e.1) := by
  refine ⟨?_, ?_, ?_⟩
  · intro e he
    simp only [depMods, List.mem_filterMap, Option.map_eq_some_iff] at he
    obtain ⟨m, hm, q, hq, rfl⟩ := he
    refine ⟨q, hw m q hq, rfl, rfl, fun x hx he => ?_, fun x hx he => ?_⟩
    · have := hp x hx
      simpa only [hashOf, find, he, hq, Option.bind_some] using this
    · have := hi x hx
      simpa only [hashOf, find, he, hq, Option.bind_some] using this
  · intro x hx
    have hs : ∃ q, look x.1.1 = some q := by
      rcases List.mem_append.1 hx with hx | hx
      · have := hp x hx
        cases h : look x.1.1 with
        | none => simp [hashOf, find, h] at this
        | some q => exact ⟨q, rfl⟩
      · have := hi x hx
        cases h : look x.1.1 with
        | none => simp [hashOf, find, h] at this
        | some q => exact ⟨q, rfl⟩
    obtain ⟨q, hq⟩ := hs
    refine ⟨(x.1.1, q.pubH, q.implH), ?_, rfl⟩
    simp only [depMods, List.mem_filterMap, Option.map_eq_some_iff]
    exact ⟨x.1.1, List.mem_dedup.2 (List.mem_map.2 ⟨x, hx, rfl⟩), q, hq, rfl⟩
  · intro e he
    simp only [depMods, List.mem_filterMap, Option.map_eq_some_iff] at he
    obtain ⟨m, hm, q, hq, rfl⟩ := he
    obtain ⟨x, hx, rfl⟩ := List.mem_map.1 (List.mem_dedup.1 hm)
    exact ⟨x, hx, rfl⟩

theorem own_none {e : Entry κ ν η} (h : e.own = none) :
    e.impl = none ∧ e.implExt = [] ∧ e.implLocals = [] := by
  have : e.impl = none := by simpa [Entry.own] using h
  simp [Entry.implExt, Entry.implLocals, this]

theorem items_ok (look : Look κ ν η σ τ) (t : Typed κ ν η τ) :
    ∀ x ∈ t.entries.map (rowOf C look t), x.own = none → x.implDeps = [] := by
  intro x hx h
  obtain ⟨e, he, rfl⟩ := List.mem_map.1 hx
  have := (own_none (e := e) h).2.1
  simp only [rowOf, this]
  rfl

theorem kept_record {look : Look κ ν η σ τ} (hw : WFLook C look) {s : σ} {t : Typed κ ν η τ}
    (ho : t.entries.all (okEntry C look) = true) : Kept C (record C look s t) := by
  obtain ⟨h1, h2⟩ := idx_hash ho
  obtain ⟨h3, h4, h5⟩ := depMods_ok hw h1 h2
  exact ⟨⟨rfl, rfl⟩, h3, h4, h5, items_ok look t⟩

theorem valid_compile {look : Look κ ν η σ τ} (hw : WFLook C look) {s : σ} {c : Rec κ ν η σ τ}
    (h : compile C look s = some c) : Valid C c ∧ c.src = s := by
  obtain ⟨-, t, ht, ho, rfl⟩ := compile_some h
  exact ⟨⟨kept_record hw ho, ⟨look, _, h, Same.refl _⟩⟩, rfl⟩

end Verif.Incr
