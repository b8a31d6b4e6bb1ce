import Verif.Zon.Props
/-!
# C173: the dependencies of a manifest

compiler/lib/src/Acton/Zon.hs:195-215. `readZonDependencies` (Zon.hs:219-227) is these after
`parseZon`; a missing file and the decoding of UTF-8 are not modelled.
-/
namespace Verif.Zon

/-- `ZonDep`, Zon.hs:53-58. -/
structure Dep where
  url : Option Text
  hash : Option Text
  path : Option Text
  lzy : Bool

/-- `lookup`. -/
def look (k : Text) : List (Text × Z) → Option Z
  | [] => none
  | (n, v) :: fs => if k = n then some v else look k fs

/-- `strField` in `toDep`, Zon.hs:212-214. -/
def strField (k : Text) (fs : List (Text × Z)) : Option Text :=
  match look k fs with
  | some (.str s) => some s
  | _ => none

/-- `toDep`, Zon.hs:202-215. -/
def toDep : Z → Dep
  | .struct fs => ⟨strField "url".toList fs, strField "hash".toList fs, strField "path".toList fs,
      match look "lazy".toList fs with | some (.bool b) => b | _ => false⟩
  | _ => ⟨none, none, none, false⟩

/-- `zonDependencies`, Zon.hs:195-200. -/
def zonDependencies : Z → List (Text × Dep)
  | .struct fs =>
    match look "dependencies".toList fs with
    | some (.struct deps) => deps.map (fun nv => (nv.1, toDep nv.2))
    | _ => []
  | _ => []

/-! ## Specification -/

/-- No field is given twice; Zig refuses a struct where one is. -/
def Once (fs : List (Text × Z)) : Prop := (fs.map Prod.fst).Nodup

/-- What a struct says about a dependency. -/
structure Says (fs : List (Text × Z)) (d : Dep) : Prop where
  url : ∀ s, d.url = some s ↔ ("url".toList, Z.str s) ∈ fs
  hash : ∀ s, d.hash = some s ↔ ("hash".toList, Z.str s) ∈ fs
  path : ∀ s, d.path = some s ↔ ("path".toList, Z.str s) ∈ fs
  lzy : d.lzy = true ↔ ("lazy".toList, Z.bool true) ∈ fs

theorem look_iff {fs : List (Text × Z)} (h : Once fs) (k : Text) (v : Z) : look k fs = some v ↔ (k, v) ∈ fs := by
  induction fs with
  | nil => simp [look]
  | cons f fs ih =>
    obtain ⟨n, w⟩ := f
    have h' := List.nodup_cons.1 (show (n :: fs.map Prod.fst).Nodup from h)
    rw [look, List.mem_cons]
    by_cases e : k = n
    · rw [if_pos e]
      subst e
      constructor
      · intro hv; left; rw [Option.some.inj hv]
      · rintro (hv | hv)
        · rw [(Prod.mk.inj hv).2]
        · exact absurd (List.mem_map_of_mem (f := Prod.fst) hv) h'.1
    · rw [if_neg e, ih h'.2]
      constructor
      · exact Or.inr
      · rintro (hv | hv)
        · exact absurd (Prod.mk.inj hv).1 e
        · exact hv

theorem strField_iff {fs : List (Text × Z)} (h : Once fs) (k s : Text) : strField k fs = some s ↔ (k, Z.str s) ∈ fs := by
  rw [← look_iff h]
  unfold strField
  constructor
  · intro hs
    split at hs
    · rename_i e; rw [e, Option.some.inj hs]
    · cases hs
  · intro hs; rw [hs]

theorem says_toDep {fs : List (Text × Z)} (h : Once fs) : Says fs (toDep (.struct fs)) := by
  refine ⟨strField_iff h _, strField_iff h _, strField_iff h _, ?_⟩
  rw [← look_iff h]
  show (match look "lazy".toList fs with | some (.bool b) => b | _ => false) = true ↔ _
  constructor
  · intro hs
    split at hs
    · rename_i e; rw [e, hs]
    · cases hs
  · intro hs; rw [hs]

/-- **C173** A manifest that gives every field once, wherever its field `dependencies` stands and
whatever its other fields hold, yields exactly the dependencies of that field, in order, each with
what its own struct says about it. -/
theorem C173 {s g1 g2 : Text} {fs deps : List (Text × Z)} (hs : Gr (.value (.struct fs)) s) (h1 : Gap g1) (h2 : Tail g2)
    (ho : Once fs) (hd : ("dependencies".toList, Z.struct deps) ∈ fs) :
    ∃ ds, (parseZon (g1 ++ (s ++ g2))).map zonDependencies = some ds ∧ ds.map Prod.fst = deps.map Prod.fst ∧
      List.Forall₂ (fun nv nd => ∀ gs, nv.2 = Z.struct gs → Once gs → Says gs nd.2) deps ds := by
  have e := C171 hs h1 h2 0
  rw [List.replicate_zero, List.nil_append] at e
  refine ⟨deps.map (fun nv => (nv.1, toDep nv.2)), ?_, ?_, ?_⟩
  · rw [e]
    show some (zonDependencies (.struct fs)) = _
    rw [zonDependencies, (look_iff ho _ _).2 hd]
  · rw [List.map_map]; rfl
  · rw [List.forall₂_map_right_iff, List.forall₂_same]
    rintro ⟨n, v⟩ - gs rfl hg
    exact says_toDep hg

/-- A manifest without the field has no dependencies. -/
theorem C173_none {s g1 g2 : Text} {fs : List (Text × Z)} (hs : Gr (.value (.struct fs)) s) (h1 : Gap g1) (h2 : Tail g2)
    (hd : "dependencies".toList ∉ fs.map Prod.fst) :
    (parseZon (g1 ++ (s ++ g2))).map zonDependencies = some [] := by
  have e := C171 hs h1 h2 0
  rw [List.replicate_zero, List.nil_append] at e
  rw [e]
  show some (zonDependencies (.struct fs)) = _
  rw [zonDependencies]
  have : look "dependencies".toList fs = none := by
    generalize "dependencies".toList = k at hd
    clear hs e
    induction fs with
    | nil => rfl
    | cons f fs ih =>
      obtain ⟨n, w⟩ := f
      rw [List.map_cons, List.mem_cons, not_or] at hd
      rw [look, if_neg hd.1]
      exact ih hd.2
  rw [this]

/-- A manifest with one lazy dependency, after another field. -/
theorem sampleDeps : Gr (.value (.struct [("n".toList, .num "1".toList), ("dependencies".toList,
      .struct [("a".toList, .struct [("lazy".toList, .bool true), ("url".toList, .str "u".toList)])])]))
    ".{.n=1,.dependencies=.{.a=.{.lazy=true,.url=\"u\"}}}".toList := by
  have u : Gr (.value (.str "u".toList)) "\"u\"".toList := .str (is := [.plain 'u']) (by simp [Item.Ok])
  have a : Gr (.value (.struct [("lazy".toList, .bool true), ("url".toList, .str "u".toList)])) ".{.lazy=true,.url=\"u\"}".toList :=
    .struct .nil (.fieldCons (.bare (c := 'l') (cs := "azy".toList) (by decide) (by decide)) .nil .nil .tru .nil .nil
      (.field (.bare (c := 'u') (cs := "rl".toList) (by decide) (by decide)) .nil .nil u .nil))
  have d : Gr (.value (.struct [("a".toList, .struct [("lazy".toList, .bool true), ("url".toList, .str "u".toList)])]))
      ".{.a=.{.lazy=true,.url=\"u\"}}".toList :=
    .struct .nil (.field (.bare (c := 'a') (cs := []) (by decide) (by decide)) .nil .nil a .nil)
  exact .struct .nil (.fieldCons (.bare (c := 'n') (cs := []) (by decide) (by decide)) .nil .nil
    (.num (c := '1') (cs := []) (by decide) (by decide)) .nil .nil
    (.field (.bare (c := 'd') (cs := "ependencies".toList) (by decide) (by decide)) .nil .nil d .nil))

example : ∃ ds, (parseZon ([] ++ (".{.n=1,.dependencies=.{.a=.{.lazy=true,.url=\"u\"}}}".toList ++ []))).map zonDependencies = some ds ∧
    ds.map Prod.fst = ["a".toList] := by
  obtain ⟨ds, h1, h2, -⟩ := C173 sampleDeps .nil (.gap .nil) (by unfold Once; decide)
    (List.mem_cons_of_mem _ List.mem_cons_self)
  exact ⟨ds, h1, h2⟩

example : Once [("lazy".toList, .bool true), ("url".toList, .str "u".toList)] := by unfold Once; decide

end Verif.Zon
