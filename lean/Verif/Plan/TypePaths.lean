import Verif.Plan.Discover
/-!
# The search path of a single file (C153): `collectDepTypePaths` of Compile.hs

`findPaths` (Compile.hs:4605-4629) puts the interfaces of all dependencies on the search path. A directory that is not
there and one without a `Build.act` are the same here.
-/
namespace Verif.Plan.Discover

/-- The dependency is given by a path. -/
def Dep.isPath : Dep → Bool
  | .hash _ => false
  | _ => true

section
variable (world : Path → Option Spec) (cache : Name → Nat → Path)

/-- `step` of `collectDepTypePaths` (Compile.hs:5329-5355) and `canonicalizeDep`, with `go` as a parameter: the directories
seen, the fingerprints and the directories whose interfaces are listed. -/
def tstep (go : List Path → FpMap → Path → Option (List Path × FpMap × List Path)) (base : Path) (x : Name × Dep)
    (st : List Path × FpMap × List Path) : Option (List Path × FpMap × List Path) :=
  match world (resolve cache base x.1 x.2) with
  | none => if x.2.isPath then none else some st
  | some t =>
    let c := (applyFp st.2.1 (resolve cache base x.1 x.2) t.fp).1
    let m := (applyFp st.2.1 (resolve cache base x.1 x.2) t.fp).2
    if c ∈ st.1 then some (st.1, m, st.2.2)
    else (go (c :: st.1) m c).map fun q => (q.1, q.2.1, st.2.2 ++ [c] ++ q.2.2)

/-- `go` (Compile.hs:5324-5327); `none` is an error, also if the steps do not suffice. -/
def tgo : Nat → List Path → FpMap → Path → Option (List Path × FpMap × List Path)
  | 0, _, _, _ => none
  | f + 1, seen, m, dir =>
    match world dir with
    | none => none
    | some s => s.deps.foldl (fun r x => r.bind (tstep world cache (tgo f) dir x)) (some (seen, (applyFp m dir s.fp).2, []))

/-- `collectDepTypePaths` (Compile.hs:5317-5322) -/
def typePaths (f : Nat) (root : Path) : Option (List Path) := (tgo world cache f [] [] root).map (·.2.2)

end

variable {world : Path → Option Spec} {cache : Name → Nat → Path}

/-- The project declares a dependency itself, and it is there. -/
def Own (world : Path → Option Spec) (cache : Name → Nat → Path) (d e : Path) : Prop :=
  (∃ s n dep, world d = some s ∧ (n, dep) ∈ s.deps ∧ e = resolve cache d n dep) ∧ world e ≠ none

/-- What is in the map has the fingerprint under which it is there. -/
def Fps (world : Path → Option Spec) (m : FpMap) : Prop := ∀ fp d, m.lookup fp = some d → ∃ s, world d = some s ∧ s.fp = fp

theorem applyFp_unique (hu : Unique world) {m : FpMap} (hs : Fps world m) {d : Path} {s : Spec} (hd : world d = some s) :
    (applyFp m d s.fp).1 = d ∧ Fps world (applyFp m d s.fp).2 := by
  unfold applyFp
  cases h : m.lookup s.fp with
  | some c =>
    obtain ⟨t, h1, h2⟩ := hs _ _ h
    exact ⟨hu _ _ _ _ h1 hd h2, hs⟩
  | none =>
    refine ⟨rfl, fun fp e he => ?_⟩
    dsimp only at he
    rw [lookup_cons] at he
    by_cases hf : fp = s.fp
    · rw [if_pos hf] at he
      cases he
      exact ⟨s, hd, hf.symm⟩
    · rw [if_neg hf] at he
      exact hs fp e he

/-- What a call adds: the directories `l`, for a start in `dir`. -/
structure Adds (world : Path → Option Spec) (cache : Name → Nat → Path) (seen : List Path) (dir : Path) (q : List Path × FpMap × List Path) :
    Prop where
  fps : Fps world q.2.1
  both : ∀ x, x ∈ q.1 ↔ x ∈ seen ∨ x ∈ q.2.2
  reach : ∀ x ∈ q.2.2, Relation.TransGen (Own world cache) dir x
  closed : ∀ x ∈ q.2.2, ∀ y, Own world cache x y → y ∈ q.1
  once : q.2.2.Nodup
  fresh : ∀ x ∈ q.2.2, x ∉ seen

theorem foldl_none {α β : Type} (g : α → β → Option β) (l : List α) : l.foldl (fun r x => r.bind (g x)) none = none := by
  induction l with
  | nil => rfl
  | cons _ _ ih => rw [List.foldl_cons, Option.bind_none, ih]

theorem tgo_ok (hu : Unique world) : ∀ (f : Nat) (seen : List Path) (m : FpMap) (dir : Path) (q : List Path × FpMap × List Path),
    Fps world m → tgo world cache f seen m dir = some q →
    Adds world cache seen dir q ∧ ∀ y, Own world cache dir y → y ∈ q.1
  | 0, _, _, _, _, _, h => by rw [tgo] at h; cases h
  | f + 1, seen, m, dir, q, hm, h => by
    rw [tgo] at h
    cases hw : world dir with
    | none => rw [hw] at h; cases h
    | some s =>
      simp only [hw] at h
      have hm1 := (applyFp_unique hu hm hw).2
      have key : ∀ (l : List (Name × Dep)) (st : List Path × FpMap × List Path), (∀ x ∈ l, x ∈ s.deps) →
          Adds world cache seen dir st → l.foldl (fun r x => r.bind (tstep world cache (tgo world cache f) dir x)) (some st) = some q →
          Adds world cache seen dir q ∧ (∀ x ∈ st.1, x ∈ q.1) ∧
            ∀ x ∈ l, world (resolve cache dir x.1 x.2) ≠ none → resolve cache dir x.1 x.2 ∈ q.1 := by
        intro l
        induction l with
        | nil =>
          intro st _ hst he
          cases he
          exact ⟨hst, fun _ h => h, by simp⟩
        | cons x l ih =>
          intro st hl hst he
          rw [List.foldl_cons, Option.bind_some] at he
          have hl' : ∀ y ∈ l, y ∈ s.deps := fun y hy => hl y (.tail _ hy)
          cases hx : world (resolve cache dir x.1 x.2) with
          | none =>
            simp only [tstep, hx] at he
            by_cases hp : x.2.isPath = true
            · rw [if_pos hp, foldl_none] at he; cases he
            · rw [if_neg hp] at he
              obtain ⟨h1, h2, h3⟩ := ih st hl' hst he
              refine ⟨h1, h2, fun y hy hyw => ?_⟩
              rcases List.mem_cons.1 hy with rfl | hy
              · exact absurd hx hyw
              · exact h3 y hy hyw
          | some t =>
            obtain ⟨e1, e2⟩ := applyFp_unique hu hst.fps hx
            simp only [tstep, hx] at he
            rw [e1] at he
            have hown : Own world cache dir (resolve cache dir x.1 x.2) :=
              ⟨⟨s, x.1, x.2, hw, hl x (by simp), rfl⟩, by rw [hx]; simp⟩
            by_cases hin : resolve cache dir x.1 x.2 ∈ st.1
            · rw [if_pos hin] at he
              obtain ⟨h1, h2, h3⟩ := ih (st.1, (applyFp st.2.1 (resolve cache dir x.1 x.2) t.fp).2, st.2.2) hl' ⟨e2, hst.both, hst.reach, hst.closed, hst.once, hst.fresh⟩ he
              refine ⟨h1, h2, fun y hy hyw => ?_⟩
              rcases List.mem_cons.1 hy with rfl | hy
              · exact h2 _ hin
              · exact h3 y hy hyw
            · rw [if_neg hin] at he
              cases hg : tgo world cache f (resolve cache dir x.1 x.2 :: st.1)
                  (applyFp st.2.1 (resolve cache dir x.1 x.2) t.fp).2 (resolve cache dir x.1 x.2) with
              | none => rw [hg, Option.map_none, foldl_none] at he; cases he
              | some w =>
                rw [hg, Option.map_some] at he
                obtain ⟨ha, hb⟩ := tgo_ok hu f _ _ _ w e2 hg
                have hmem : ∀ y, y ∈ w.1 ↔ (y = resolve cache dir x.1 x.2 ∨ y ∈ st.1) ∨ y ∈ w.2.2 := by
                  intro y
                  rw [ha.both, List.mem_cons]
                have hadd : Adds world cache seen dir (w.1, w.2.1, st.2.2 ++ [resolve cache dir x.1 x.2] ++ w.2.2) := by
                  refine ⟨ha.fps, fun y => ?_, fun y hy => ?_, fun y hy z hz => ?_, ?_, fun y hy => ?_⟩
                  · simp only [hmem, hst.both, List.mem_append, List.mem_singleton]
                    constructor
                    · rintro ((h | h | h) | h)
                      · exact .inr (.inl (.inr h))
                      · exact .inl h
                      · exact .inr (.inl (.inl h))
                      · exact .inr (.inr h)
                    · rintro (h | (h | h) | h)
                      · exact .inl (.inr (.inl h))
                      · exact .inl (.inr (.inr h))
                      · exact .inl (.inl h)
                      · exact .inr h
                  · simp only [List.mem_append, List.mem_singleton] at hy
                    rcases hy with (hy | hy) | hy
                    · exact hst.reach y hy
                    · rw [hy]; exact .single hown
                    · exact .head hown (ha.reach y hy)
                  · simp only [List.mem_append, List.mem_singleton] at hy
                    rcases hy with (hy | hy) | hy
                    · exact (hmem z).2 (.inl (.inr (hst.closed y hy z hz)))
                    · rw [hy] at hz; exact hb z hz
                    · exact ha.closed y hy z hz
                  · rw [List.nodup_append, List.nodup_append]
                    refine ⟨⟨hst.once, by simp, fun a h1 b h2 => ?_⟩, ha.once, fun a h1 b h2 => ?_⟩
                    · rw [List.mem_singleton.1 h2]
                      rintro rfl
                      exact hin ((hst.both _).2 (.inr h1))
                    · rintro rfl
                      have := ha.fresh a h2
                      rw [List.mem_cons] at this
                      rcases List.mem_append.1 h1 with h1 | h1
                      · exact this (.inr ((hst.both _).2 (.inr h1)))
                      · exact this (.inl (List.mem_singleton.1 h1))
                  · simp only [List.mem_append, List.mem_singleton] at hy
                    rcases hy with (hy | hy) | hy
                    · exact hst.fresh y hy
                    · rw [hy]
                      exact fun h => hin ((hst.both _).2 (.inl h))
                    · intro h
                      exact ha.fresh y hy (.tail _ ((hst.both _).2 (.inl h)))
                obtain ⟨h1, h2, h3⟩ := ih _ hl' hadd he
                refine ⟨h1, fun y hy => h2 y ((hmem y).2 (.inl (.inr hy))), fun y hy hyw => ?_⟩
                rcases List.mem_cons.1 hy with rfl | hy
                · exact h2 _ ((hmem _).2 (.inl (.inl rfl)))
                · exact h3 y hy hyw
      obtain ⟨h1, _, h3⟩ := key s.deps _ (fun _ h => h) ⟨hm1, by simp, by simp, by simp, by simp, by simp⟩ h
      refine ⟨h1, fun y hy => ?_⟩
      obtain ⟨⟨s', n, dep, e1, e2, rfl⟩, hne⟩ := hy
      rw [hw] at e1
      cases e1
      exact h3 (n, dep) e2 hne

/-- **C153.** If no two directories have the same fingerprint then the interfaces of the projects are listed that the root
uses by their own declarations, each once. -/
theorem C153_own_partial (hu : Unique world) {f : Nat} {root : Path} {l : List Path} (h : typePaths world cache f root = some l) :
    l.Nodup ∧ ∀ x, x ∈ l ↔ Relation.TransGen (Own world cache) root x := by
  unfold typePaths at h
  cases hg : tgo world cache f [] [] root with
  | none => rw [hg] at h; cases h
  | some q =>
    rw [hg] at h
    cases h
    obtain ⟨h1, h2⟩ := tgo_ok hu f _ _ _ q (fun _ _ h => by cases h) hg
    have hs : ∀ x, x ∈ q.1 ↔ x ∈ q.2.2 := by
      intro x
      rw [h1.both]
      simp
    refine ⟨h1.once, fun x => ⟨h1.reach x, fun hx => ?_⟩⟩
    induction hx with
    | single h => exact (hs _).1 (h2 _ h)
    | tail _ h ih => exact (hs _).1 (h1.closed _ ih _ h)

/-- **C153.** If moreover no project declares a name of the root otherwise than the root, then the projects found for the
build are the root and those whose interfaces are listed. -/
theorem C153_partial (hu : Unique world) {f g : Nat} {root : Path} {r : Spec} (hr : world root = some r) {acc : Acc} {l : List Path}
    (hc : ∀ d s n dep, world d = some s → (n, dep) ∈ s.deps →
      resolve cache d n ((r.deps.lookup n).getD dep) = resolve cache d n dep)
    (hd : discover world cache f root = some acc) (hl : typePaths world cache g root = some l) (x : Path) :
    x ∈ acc.map (·.1) ↔ x = root ∨ x ∈ l := by
  rw [C148_exact_partial hu hr hd, (C153_own_partial hu hl).2, Relation.reflTransGen_iff_eq_or_transGen]
  have hex : ∀ y, Relation.ReflTransGen (Uses world cache r.deps) root y → world y ≠ none := by
    intro y hy
    rw [← C148_exact_partial hu hr hd] at hy
    obtain ⟨m, hg, _⟩ := discover_ok hr hd
    obtain ⟨e, he, rfl⟩ := List.mem_map.1 hy
    obtain ⟨s, h1, _⟩ := hg.canon e he
    rw [h1]; simp
  constructor
  · rintro (h | h)
    · exact .inl h
    · right
      induction h with
      | single h =>
        have hn := hex _ (.single h)
        obtain ⟨s, n, dep, e1, e2, rfl⟩ := h
        exact .single ⟨⟨s, n, dep, e1, e2, hc _ _ _ _ e1 e2⟩, hn⟩
      | tail h1 h ih =>
        have hn := hex _ (h1.to_reflTransGen.tail h)
        obtain ⟨s, n, dep, e1, e2, rfl⟩ := h
        exact .tail ih ⟨⟨s, n, dep, e1, e2, hc _ _ _ _ e1 e2⟩, hn⟩
  · rintro (h | h)
    · exact .inl h
    · right
      refine Relation.TransGen.mono (fun a b hab => ?_) _ _ h
      obtain ⟨⟨s, n, dep, e1, e2, rfl⟩, _⟩ := hab
      exact ⟨s, n, dep, e1, e2, (hc _ _ _ _ e1 e2).symm⟩

/-- The root `1` declares `8` in `2` and `9` in `5`; `2` declares `9` in `6`. -/
def pinned (p : Path) : Option Spec :=
  if p = [1] then some ⟨1, [(8, .abs [2]), (9, .abs [5])]⟩
  else if p = [2] then some ⟨2, [(9, .abs [6])]⟩
  else if p = [5] then some ⟨5, []⟩
  else if p = [6] then some ⟨6, []⟩
  else none

/-- The declaration of the root is ignored: the interfaces of `6` are listed, in front of those of `5`, though the build
uses `5` everywhere. -/
theorem C153_refuted_pins : typePaths pinned (fun _ _ => []) 5 [1] = some [[2], [6], [5]] ∧
    (discover pinned (fun _ _ => []) 5 [1]).map (·.map (·.1)) = some [[5], [2], [1]] := by decide

/-- In a cycle the root is listed among its dependencies. -/
theorem C153_refuted_cycle : typePaths (fun p => if p = [1] then some ⟨1, [(8, .abs [2])]⟩ else if p = [2] then some ⟨2, [(7, .abs [1])]⟩ else none)
    (fun _ _ => []) 5 [1] = some [[2], [1]] := by decide

/-- Of two copies the one is listed that comes first in depth, while the build uses the one that comes first in breadth. -/
theorem C153_refuted_copies :
    let w : Path → Option Spec := fun p =>
      if p = [1] then some ⟨1, [(8, .abs [2]), (9, .abs [5])]⟩
      else if p = [2] then some ⟨2, [(7, .abs [6])]⟩
      else if p = [5] ∨ p = [6] then some ⟨5, []⟩
      else none
    typePaths w (fun _ _ => []) 5 [1] = some [[2], [6]] ∧
    (discover w (fun _ _ => []) 5 [1]).map (·.map (·.1)) = some [[5], [2], [1]] := by decide

/-- A diamond without repeated fingerprints, for the theorems. -/
def diamond (p : Path) : Option Spec :=
  if p = [1] then some ⟨1, [(8, .abs [2]), (9, .abs [3])]⟩
  else if p = [2] then some ⟨2, [(7, .rel 1 [4])]⟩
  else if p = [3] then some ⟨3, [(7, .rel 1 [4])]⟩
  else if p = [4] then some ⟨4, []⟩
  else none

theorem diamond_fp {d : Path} {s : Spec} (h : diamond d = some s) : d = [s.fp] := by
  unfold diamond at h
  by_cases h1 : d = [1]
  · rw [if_pos h1] at h; cases h; exact h1
  · rw [if_neg h1] at h
    by_cases h2 : d = [2]
    · rw [if_pos h2] at h; cases h; exact h2
    · rw [if_neg h2] at h
      by_cases h3 : d = [3]
      · rw [if_pos h3] at h; cases h; exact h3
      · rw [if_neg h3] at h
        by_cases h4 : d = [4]
        · rw [if_pos h4] at h; cases h; exact h4
        · rw [if_neg h4] at h; cases h

theorem diamond_unique : Unique diamond := by
  intro d e s t hd he h
  rw [diamond_fp hd, diamond_fp he, h]

example (x : Path) : x ∈ [[4], [3], [2], [1]] ↔ x = [1] ∨ x ∈ [[2], [4], [3]] :=
  C153_partial (world := diamond) (cache := fun _ _ => []) (f := 5) (g := 5) (root := [1])
    (acc := [([4], []), ([3], [(7, [4])]), ([2], [(7, [4])]), ([1], [(8, [2]), (9, [3])])]) diamond_unique rfl
    (fun d s n dep hd hn => by
      have hfp := diamond_fp hd
      by_cases h7 : n = 7
      · subst h7; rfl
      · have : d = [1] := by
          unfold diamond at hd
          by_cases h1 : d = [1]
          · exact h1
          · exfalso
            rw [if_neg h1] at hd
            by_cases h2 : d = [2]
            · rw [if_pos h2] at hd; cases hd; simp at hn; exact h7 hn.1
            · rw [if_neg h2] at hd
              by_cases h3 : d = [3]
              · rw [if_pos h3] at hd; cases hd; simp at hn; exact h7 hn.1
              · rw [if_neg h3] at hd
                by_cases h4 : d = [4]
                · rw [if_pos h4] at hd; cases hd; cases hn
                · rw [if_neg h4] at hd; cases hd
        subst this
        cases hd
        simp at hn
        rcases hn with ⟨rfl, rfl⟩ | ⟨rfl, rfl⟩ <;> rfl) (by decide) (by decide) x

end Verif.Plan.Discover
