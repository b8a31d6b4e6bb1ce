import Verif.Common
import Mathlib.Logic.Relation
/-!
# Finding the projects of a build (C148): `discoverProjects` of compiler/lib/src/Acton/Compile.hs

Directories are lists of parts, names and hashes are numbers. Reading a `Build.act` is a function of the directory;
overrides given on the command line are not modelled (they only change what is read).
-/
namespace Verif.Plan.Discover

abbrev Path := List Nat
abbrev Name := Nat

/-- `PkgDep` (BuildSpec.hs): a path that is relative (some steps up, then down) or absolute, or a hash. -/
inductive Dep
  | rel (up : Nat) (down : Path)
  | abs (p : Path)
  | hash (h : Nat)
deriving DecidableEq

/-- `BuildSpec`: the fingerprint, and the dependencies in the order of their names. -/
structure Spec where
  fp : Nat
  deps : List (Name × Dep)

/-- Fingerprints with the project that was found first (`FingerprintMap`). -/
abbrev FpMap := List (Nat × Path)

/-- The projects with their dependencies (`projDeps`). -/
abbrev Acc := List (Path × List (Name × Path))

section
variable (world : Path → Option Spec) (cache : Name → Nat → Path)

/-- `resolveDepBase` (Compile.hs:5305-5313), with `rebasePath` (Compile.hs:4938-4941). -/
def resolve (base : Path) (n : Name) : Dep → Path
  | .rel up down => base.take (base.length - up) ++ down
  | .abs p => p
  | .hash h => cache n h

/-- What the root says about the name counts (Compile.hs:4456-4462). -/
def choose (pins : List (Name × Dep)) (n : Name) (dep : Dep) : Dep := (pins.lookup n).getD dep

/-- `applyFingerprint` (Compile.hs:4407-4412) -/
def applyFp (m : FpMap) (d : Path) (fp : Nat) : Path × FpMap :=
  match m.lookup fp with
  | some c => (c, m)
  | none => (d, (fp, d) :: m)

/-- `collectDep` and `canonicalizeDep` on all dependencies (Compile.hs:4436-4438, 4455-4481); `none` is an error. -/
def collect (pins : List (Name × Dep)) (base : Path) : List (Name × Dep) → FpMap → Option (List (Name × Path) × FpMap)
  | [], m => some ([], m)
  | (n, dep) :: ds, m =>
    match world (resolve cache base n (choose pins n dep)) with
    | none => none
    | some s =>
      match collect pins base ds (applyFp m (resolve cache base n (choose pins n dep)) s.fp).2 with
      | none => none
      | some (r, m') => some ((n, (applyFp m (resolve cache base n (choose pins n dep)) s.fp).1) :: r, m')

/-- `go` (Compile.hs:4426-4453, 4483-4484); `none` is an error too if the steps do not suffice. -/
def go (pins : List (Name × Dep)) : Nat → List Path → Acc → FpMap → Path → Option (Acc × FpMap)
  | 0, _, _, _, _ => none
  | f + 1, seen, acc, m, dir =>
    if dir ∈ seen then some (acc, m)
    else
      match world dir with
      | none => none
      | some s =>
        match collect world cache pins dir s.deps (applyFp m dir s.fp).2 with
        | none => none
        | some (ds, m2) =>
          ds.foldl (fun r d => r.bind fun x => go pins f (dir :: seen) x.1 x.2 d.2) (some ((dir, ds) :: acc.filter (·.1 ≠ dir), m2))

/-- `discoverProjects` (Compile.hs:4417-4424) -/
def discover (f : Nat) (root : Path) : Option Acc :=
  match world root with
  | none => none
  | some s => (go world cache s.deps f [] [] (applyFp [] root s.fp).2 root).map (·.1)

end

variable {world : Path → Option Spec} {cache : Name → Nat → Path} {pins : List (Name × Dep)} {root : Path}

/-- The project declares a dependency that is in this directory, by the root's declaration if it has the name. -/
def Uses (world : Path → Option Spec) (cache : Name → Nat → Path) (pins : List (Name × Dep)) (d e : Path) : Prop :=
  ∃ s n dep, world d = some s ∧ (n, dep) ∈ s.deps ∧ e = resolve cache d n ((pins.lookup n).getD dep)

/-- The directory is the one that stands for its fingerprint. -/
def Canon (world : Path → Option Spec) (m : FpMap) (d : Path) : Prop := ∃ s, world d = some s ∧ m.lookup s.fp = some d

def Le (m m' : FpMap) : Prop := ∀ fp d, m.lookup fp = some d → m'.lookup fp = some d

theorem Le.trans {a b c : FpMap} (h : Le a b) (h' : Le b c) : Le a c := fun fp d hd => h' fp d (h fp d hd)

theorem Canon.mono {m m' : FpMap} {d : Path} (h : Canon world m d) (hl : Le m m') : Canon world m' d := by
  obtain ⟨s, h1, h2⟩ := h
  exact ⟨s, h1, hl _ _ h2⟩

/-- What is in the map has the fingerprint under which it is there. -/
def Sound (world : Path → Option Spec) (cache : Name → Nat → Path) (pins : List (Name × Dep)) (root : Path) (m : FpMap) : Prop :=
  ∀ fp d, m.lookup fp = some d → (∃ s, world d = some s ∧ s.fp = fp) ∧ Relation.ReflTransGen (Uses world cache pins) root d

theorem lookup_cons {α : Type} (k k' : Nat) (v : α) (l : List (Nat × α)) :
    List.lookup k ((k', v) :: l) = if k = k' then some v else List.lookup k l := by
  rw [List.lookup_cons]
  by_cases h : k = k'
  · simp [h]
  · have : (k == k') = false := by simpa using h
    rw [if_neg h, this]

theorem applyFp_ok {m : FpMap} (hs : Sound world cache pins root m) {d : Path} {s : Spec} (hd : world d = some s)
    (hr : Relation.ReflTransGen (Uses world cache pins) root d) :
    Sound world cache pins root (applyFp m d s.fp).2 ∧ Le m (applyFp m d s.fp).2 ∧ Canon world (applyFp m d s.fp).2 (applyFp m d s.fp).1 ∧
    (applyFp m d s.fp).2.lookup s.fp = some (applyFp m d s.fp).1 := by
  unfold applyFp
  cases h : m.lookup s.fp with
  | some c =>
    obtain ⟨⟨sc, h1, h2⟩, _⟩ := hs _ _ h
    exact ⟨hs, fun _ _ h => h, ⟨sc, h1, by rw [h2]; exact h⟩, h⟩
  | none =>
    refine ⟨fun fp e he => ?_, fun fp e he => ?_, ⟨s, hd, ?_⟩, ?_⟩
    · dsimp only at he
      rw [lookup_cons] at he
      by_cases hf : fp = s.fp
      · rw [if_pos hf] at he
        cases he
        exact ⟨⟨s, hd, hf.symm⟩, hr⟩
      · rw [if_neg hf] at he
        exact hs fp e he
    · dsimp only
      rw [lookup_cons]
      by_cases hf : fp = s.fp
      · rw [hf, h] at he; cases he
      · rw [if_neg hf]; exact he
    · dsimp only
      rw [lookup_cons, if_pos rfl]
    · dsimp only
      rw [lookup_cons, if_pos rfl]

/-- What a name of a project stands for: the canonical directory of the one that it resolves to. -/
def Right (world : Path → Option Spec) (cache : Name → Nat → Path) (pins : List (Name × Dep)) (m : FpMap) (base : Path)
    (n : Name) (c : Path) : Prop :=
  ∃ s dep, world base = some s ∧ (n, dep) ∈ s.deps ∧
    ∃ t, world (resolve cache base n (choose pins n dep)) = some t ∧ m.lookup t.fp = some c

theorem Right.mono {m m' : FpMap} {b : Path} {n : Name} {c : Path} (h : Right world cache pins m b n c) (hl : Le m m') :
    Right world cache pins m' b n c := by
  obtain ⟨s, dep, h1, h2, t, h3, h4⟩ := h
  exact ⟨s, dep, h1, h2, t, h3, hl _ _ h4⟩

theorem collect_ok {base : Path} {s : Spec} (hb : world base = some s) (hbr : Relation.ReflTransGen (Uses world cache pins) root base) : ∀ (ds : List (Name × Dep)) (m : FpMap) (r : List (Name × Path))
    (m' : FpMap), Sound world cache pins root m → (∀ x ∈ ds, x ∈ s.deps) → collect world cache pins base ds m = some (r, m') →
    Sound world cache pins root m' ∧ Le m m' ∧ (∀ x ∈ r, Canon world m' x.2 ∧ Right world cache pins m' base x.1 x.2) ∧
    r.map (·.1) = ds.map (·.1) ∧ ∀ x ∈ ds, ∃ t c, (x.1, c) ∈ r ∧
      world (resolve cache base x.1 (choose pins x.1 x.2)) = some t ∧ m'.lookup t.fp = some c
  | [], m, r, m', hs, _, h => by
    rw [collect] at h
    cases h
    exact ⟨hs, fun _ _ h => h, by simp, rfl, by simp⟩
  | (n, dep) :: ds, m, r, m', hs, hd, h => by
    rw [collect] at h
    cases hw : world (resolve cache base n (choose pins n dep)) with
    | none => rw [hw] at h; cases h
    | some t =>
      simp only [hw] at h
      obtain ⟨a1, a2, a3, a4⟩ := applyFp_ok hs hw (hbr.tail ⟨s, n, dep, hb, hd _ (by simp), rfl⟩)
      cases hc : collect world cache pins base ds (applyFp m (resolve cache base n (choose pins n dep)) t.fp).2 with
      | none => rw [hc] at h; cases h
      | some q =>
        obtain ⟨r', m''⟩ := q
        rw [hc] at h
        cases h
        obtain ⟨b1, b2, b3, b4, b5⟩ := collect_ok hb hbr ds _ _ _ a1 (fun x hx => hd x (.tail _ hx)) hc
        refine ⟨b1, a2.trans b2, fun x hx => ?_, by simp [b4], fun x hx => ?_⟩
        rcases List.mem_cons.1 hx with rfl | hx
        · exact ⟨a3.mono b2, s, dep, hb, hd _ (by simp), t, hw, b2 _ _ a4⟩
        · exact b3 x hx
        rcases List.mem_cons.1 hx with rfl | hx
        · exact ⟨t, _, .head _, hw, b2 _ _ a4⟩
        · obtain ⟨u, c, h1, h2, h3⟩ := b5 x hx
          exact ⟨u, c, .tail _ h1, h2, h3⟩

/-- The map of projects, while those in `seen` are being looked at. -/
structure Good (world : Path → Option Spec) (cache : Name → Nat → Path) (pins : List (Name × Dep)) (root : Path) (seen : List Path) (acc : Acc)
    (m : FpMap) : Prop where
  sound : Sound world cache pins root m
  canon : ∀ e ∈ acc, Canon world m e.1
  right : ∀ e ∈ acc, ∀ x ∈ e.2, Right world cache pins m e.1 x.1 x.2
  onpath : ∀ d ∈ seen, d ∈ acc.map (·.1)
  closed : ∀ e ∈ acc, e.1 ∈ seen ∨ ∀ x ∈ e.2, x.2 ∈ acc.map (·.1)
  all : ∀ e ∈ acc, ∀ s, world e.1 = some s → e.2.map (·.1) = s.deps.map (·.1)
  once : (acc.map (·.1)).Nodup
  every : ∀ e ∈ acc, ∀ s, world e.1 = some s → ∀ x ∈ s.deps, ∃ t c, (x.1, c) ∈ e.2 ∧
    world (resolve cache e.1 x.1 (choose pins x.1 x.2)) = some t ∧ m.lookup t.fp = some c

theorem go_ok : ∀ (f : Nat) (seen : List Path) (acc : Acc) (m : FpMap) (dir : Path) (acc' : Acc) (m' : FpMap),
    Good world cache pins root seen acc m → Canon world m dir → go world cache pins f seen acc m dir = some (acc', m') →
    Good world cache pins root seen acc' m' ∧ Le m m' ∧ (∀ d ∈ acc.map (·.1), d ∈ acc'.map (·.1)) ∧ dir ∈ acc'.map (·.1) ∧
    (∀ ds, (∀ d ∈ seen, ((d, ds) ∈ acc' ↔ (d, ds) ∈ acc)))
  | 0, _, _, _, _, _, _, _, _, h => by rw [go] at h; cases h
  | f + 1, seen, acc, m, dir, acc', m', hg, hc, h => by
    rw [go] at h
    by_cases hin : dir ∈ seen
    · rw [if_pos hin] at h
      cases h
      exact ⟨hg, fun _ _ h => h, fun _ h => h, hg.onpath dir hin, fun _ _ _ => Iff.rfl⟩
    · rw [if_neg hin] at h
      cases hw : world dir with
      | none => rw [hw] at h; cases h
      | some s =>
        simp only [hw] at h
        have hdr : Relation.ReflTransGen (Uses world cache pins) root dir := by
          obtain ⟨s', _, h2⟩ := hc
          exact (hg.sound _ _ h2).2
        obtain ⟨a1, a2, _, _⟩ := applyFp_ok hg.sound hw hdr
        cases hcol : collect world cache pins dir s.deps (applyFp m dir s.fp).2 with
        | none => rw [hcol] at h; cases h
        | some q =>
          obtain ⟨ds, m2⟩ := q
          simp only [hcol] at h
          obtain ⟨b1, b2, b3, b4, b5⟩ := collect_ok hw hdr s.deps _ _ _ a1 (fun _ h => h) hcol
          have hm2 : Le m m2 := a2.trans b2
          have hkeys : ∀ d, d ∈ ((dir, ds) :: acc.filter (·.1 ≠ dir)).map (·.1) ↔ d = dir ∨ d ∈ acc.map (·.1) := by
            intro d
            rw [List.map_cons, List.mem_cons, List.mem_map, List.mem_map]
            constructor
            · rintro (h | ⟨e, he, rfl⟩)
              · exact .inl h
              · exact .inr ⟨e, (List.mem_filter.1 he).1, rfl⟩
            · rintro (h | ⟨e, he, rfl⟩)
              · exact .inl h
              · by_cases hd : e.1 = dir
                · exact .inl hd
                · exact .inr ⟨e, List.mem_filter.2 ⟨he, by simpa using hd⟩, rfl⟩
          have hold : ∀ e ∈ ((dir, ds) :: acc.filter (·.1 ≠ dir)), e = (dir, ds) ∨ e ∈ acc ∧ e.1 ≠ dir := by
            intro e he
            rcases List.mem_cons.1 he with h | h
            · exact .inl h
            · rw [List.mem_filter] at h
              exact .inr ⟨h.1, by simpa using h.2⟩
          have hg0 : Good world cache pins root (dir :: seen) ((dir, ds) :: acc.filter (·.1 ≠ dir)) m2 := by
            refine ⟨b1, fun e he => ?_, fun e he x hx => ?_, fun d hd => ?_, fun e he => ?_, fun e he s' hs' => ?_, ?_, fun e he s' hs' => ?_⟩
            · rcases hold e he with rfl | ⟨h1, _⟩
              · exact hc.mono hm2
              · exact (hg.canon e h1).mono hm2
            · rcases hold e he with rfl | ⟨h1, _⟩
              · exact (b3 x hx).2
              · exact (hg.right e h1 x hx).mono hm2
            · rw [hkeys]
              rcases List.mem_cons.1 hd with h | h
              · exact .inl h
              · exact .inr (hg.onpath d h)
            · rcases hold e he with rfl | ⟨h1, _⟩
              · exact .inl (by simp)
              · rcases hg.closed e h1 with h2 | h2
                · exact .inl (.tail _ h2)
                · exact .inr fun x hx => (hkeys _).2 (.inr (h2 x hx))
            · rcases hold e he with rfl | ⟨h1, _⟩
              · rw [hw] at hs'; cases hs'; exact b4
              · exact hg.all e h1 s' hs'
            · rw [List.map_cons, List.nodup_cons]
              constructor
              · intro hm
                obtain ⟨e, he, h1⟩ := List.mem_map.1 hm
                have := (List.mem_filter.1 he).2
                simp [h1] at this
              · exact hg.once.sublist (List.filter_sublist.map _)
            · rcases hold e he with rfl | ⟨h1, _⟩
              · rw [hw] at hs'; cases hs'; exact b5
              · intro x hx
                obtain ⟨t, c, h2, h3, h4⟩ := hg.every e h1 s' hs' x hx
                exact ⟨t, c, h2, h3, hm2 _ _ h4⟩
          have key : ∀ (l : List (Name × Path)) (acc1 : Acc) (m1 : FpMap), (∀ x ∈ l, Canon world m1 x.2) →
              Good world cache pins root (dir :: seen) acc1 m1 →
              l.foldl (fun r d => r.bind fun x => go world cache pins f (dir :: seen) x.1 x.2 d.2) (some (acc1, m1)) = some (acc', m') →
              Good world cache pins root (dir :: seen) acc' m' ∧ Le m1 m' ∧ (∀ d ∈ acc1.map (·.1), d ∈ acc'.map (·.1)) ∧
              (∀ x ∈ l, x.2 ∈ acc'.map (·.1)) ∧ (∀ ds, (∀ d ∈ dir :: seen, ((d, ds) ∈ acc' ↔ (d, ds) ∈ acc1))) := by
            intro l
            induction l with
            | nil =>
              intro acc1 m1 _ hg1 he
              cases he
              exact ⟨hg1, fun _ _ h => h, fun _ h => h, by simp, fun _ _ _ => Iff.rfl⟩
            | cons d l ih =>
              intro acc1 m1 hl hg1 he
              rw [List.foldl_cons, Option.bind_some] at he
              cases hgo : go world cache pins f (dir :: seen) acc1 m1 d.2 with
              | none =>
                rw [hgo] at he
                have : ∀ l : List (Name × Path), l.foldl (fun r d => r.bind fun x => go world cache pins f (dir :: seen) x.1 x.2 d.2) none
                    = (none : Option (Acc × FpMap)) := by
                  intro l
                  induction l with
                  | nil => rfl
                  | cons _ _ ih => rw [List.foldl_cons, Option.bind_none, ih]
                rw [this] at he
                cases he
              | some q =>
                obtain ⟨acc2, m3⟩ := q
                rw [hgo] at he
                obtain ⟨c1, c2, c3, c4, c5⟩ := go_ok f _ _ _ _ _ _ hg1 (hl d (by simp)) hgo
                obtain ⟨d1, d2, d3, d4, d5⟩ := ih acc2 m3 (fun x hx => (hl x (.tail _ hx)).mono c2) c1 he
                refine ⟨d1, c2.trans d2, fun x hx => d3 x (c3 x hx), fun x hx => ?_, fun ds d hd => (d5 ds d hd).trans (c5 ds d hd)⟩
                rcases List.mem_cons.1 hx with rfl | hx
                · exact d3 _ c4
                · exact d4 x hx
          obtain ⟨k1, k2, k3, k4, k5⟩ := key ds _ _ (fun x hx => (b3 x hx).1) hg0 h
          have hds : ∀ ds', (dir, ds') ∈ acc' → ds' = ds := by
            intro ds' h'
            rcases hold _ ((k5 ds' dir (by simp)).1 h') with h | ⟨_, h⟩
            · cases h; rfl
            · exact absurd rfl h
          refine ⟨⟨k1.sound, k1.canon, k1.right, fun d hd => k1.onpath d (.tail _ hd), fun e he => ?_, k1.all, k1.once, k1.every⟩,
            hm2.trans k2, fun d hd => k3 d ((hkeys d).2 (.inr hd)), k1.onpath dir (by simp), fun ds' d hd => ?_⟩
          · rcases k1.closed e he with h1 | h1
            · rcases List.mem_cons.1 h1 with h2 | h2
              · refine .inr fun x hx => ?_
                have : e.2 = ds := hds e.2 (by rw [← h2]; exact he)
                rw [this] at hx
                exact k4 x hx
              · exact .inl h2
            · exact .inr h1
          · rw [k5 ds' d (.tail _ hd), List.mem_cons, List.mem_filter]
            have hne : d ≠ dir := fun h => hin (h ▸ hd)
            constructor
            · rintro (h | h)
              · cases h; exact absurd rfl hne
              · exact h.1
            · intro h
              exact .inr ⟨h, by simpa using hne⟩

theorem discover_ok {f : Nat} {root : Path} {s : Spec} (hr : world root = some s) {acc : Acc} (h : discover world cache f root = some acc) :
    ∃ m, Good world cache s.deps root [] acc m ∧ root ∈ acc.map (·.1) := by
  simp only [discover, hr] at h
  cases hgo : go world cache s.deps f [] [] (applyFp [] root s.fp).2 root with
  | none => rw [hgo] at h; cases h
  | some q =>
    obtain ⟨acc', m'⟩ := q
    rw [hgo] at h
    cases h
    have h0 : (applyFp [] root s.fp).2 = [(s.fp, root)] := rfl
    rw [h0] at hgo
    have hs : Sound world cache s.deps root [(s.fp, root)] := by
      intro fp d hd
      rw [lookup_cons] at hd
      by_cases hf : fp = s.fp
      · rw [if_pos hf] at hd; cases hd; exact ⟨⟨s, hr, hf.symm⟩, .refl⟩
      · rw [if_neg hf] at hd; cases hd
    obtain ⟨k1, _, _, k4, _⟩ := go_ok f [] [] _ root _ _ ⟨hs, by simp, by simp, by simp, by simp, by simp, by simp, by simp⟩
      ⟨s, hr, by rw [lookup_cons, if_pos rfl]⟩ hgo
    exact ⟨m', k1, k4⟩

/-- **C148.** The root is found, and with each project those on which it depends; each project is found once. -/
theorem C148_closed {f : Nat} {root : Path} {acc : Acc} (h : discover world cache f root = some acc) :
    root ∈ acc.map (·.1) ∧ (acc.map (·.1)).Nodup ∧ ∀ e ∈ acc, ∀ x ∈ e.2, x.2 ∈ acc.map (·.1) := by
  cases hr : world root with
  | none => simp [discover, hr] at h
  | some s =>
    obtain ⟨m, hg, h1⟩ := discover_ok hr h
    refine ⟨h1, hg.once, fun e he => ?_⟩
    rcases hg.closed e he with h2 | h2
    · cases h2
    · exact h2

/-- **C148.** No two of the projects found have the same fingerprint. -/
theorem C148_fingerprints {f : Nat} {root : Path} {acc : Acc} (h : discover world cache f root = some acc) {d e : Path}
    (hd : d ∈ acc.map (·.1)) (he : e ∈ acc.map (·.1)) {s t : Spec} (hs : world d = some s) (ht : world e = some t) (hf : s.fp = t.fp) :
    d = e := by
  cases hr : world root with
  | none => simp [discover, hr] at h
  | some r =>
    obtain ⟨m, hg, _⟩ := discover_ok hr h
    obtain ⟨x, hx, rfl⟩ := List.mem_map.1 hd
    obtain ⟨y, hy, rfl⟩ := List.mem_map.1 he
    obtain ⟨s', h1, h2⟩ := hg.canon x hx
    obtain ⟨t', h3, h4⟩ := hg.canon y hy
    rw [hs] at h1; cases h1
    rw [ht] at h3; cases h3
    rw [hf, h4] at h2
    exact (Option.some.inj h2).symm

/-- **C148.** The dependencies of a project have the names that it declares, and stand for projects with the fingerprint
of the directory that is declared, by the root if it knows the name. -/
theorem C148_names {f : Nat} {root : Path} {r : Spec} (hr : world root = some r) {acc : Acc} (h : discover world cache f root = some acc)
    {d : Path} {ds : List (Name × Path)} (hd : (d, ds) ∈ acc) {s : Spec} (hs : world d = some s) :
    ds.map (·.1) = s.deps.map (·.1) ∧ ∀ n c, (n, c) ∈ ds → ∃ dep, (n, dep) ∈ s.deps ∧
      ∃ t u, world (resolve cache d n ((r.deps.lookup n).getD dep)) = some t ∧ world c = some u ∧ t.fp = u.fp := by
  obtain ⟨m, hg, _⟩ := discover_ok hr h
  refine ⟨hg.all _ hd s hs, fun n c hc => ?_⟩
  obtain ⟨s', dep, h1, h2, t, h3, h4⟩ := hg.right _ hd (n, c) hc
  dsimp only at h1 h2 h3
  rw [hs] at h1; cases h1
  obtain ⟨⟨u, h5, h6⟩, _⟩ := hg.sound _ _ h4
  exact ⟨dep, h2, t, u, h3, h5, h6.symm⟩

/-- No two directories have the same fingerprint. -/
def Unique (world : Path → Option Spec) : Prop := ∀ d e s t, world d = some s → world e = some t → s.fp = t.fp → d = e

/-- **C148.** All projects found are used by the root, in any number of steps. -/
theorem C148_reached {f : Nat} {root : Path} {r : Spec} (hr : world root = some r) {acc : Acc} (h : discover world cache f root = some acc)
    {d : Path} (hd : d ∈ acc.map (·.1)) : Relation.ReflTransGen (Uses world cache r.deps) root d := by
  obtain ⟨m, hg, _⟩ := discover_ok hr h
  obtain ⟨x, hx, rfl⟩ := List.mem_map.1 hd
  obtain ⟨_, _, h2⟩ := hg.canon x hx
  exact (hg.sound _ _ h2).2

/-- **C148.** If no two directories have the same fingerprint then exactly the projects are found that the root uses. -/
theorem C148_exact_partial (hu : Unique world) {f : Nat} {root : Path} {r : Spec} (hr : world root = some r) {acc : Acc}
    (h : discover world cache f root = some acc) (d : Path) :
    d ∈ acc.map (·.1) ↔ Relation.ReflTransGen (Uses world cache r.deps) root d := by
  constructor
  · exact C148_reached hr h
  · intro hd
    obtain ⟨h1, _, h3⟩ := C148_closed h
    obtain ⟨m, hg, _⟩ := discover_ok hr h
    induction hd with
    | refl => exact h1
    | tail _ hstep ih =>
      obtain ⟨s, n, dep, e1, e2, rfl⟩ := hstep
      obtain ⟨x, hx, rfl⟩ := List.mem_map.1 ih
      obtain ⟨t, c, k1, k2, k3⟩ := hg.every x hx s e1 (n, dep) e2
      obtain ⟨⟨u, k4, k5⟩, _⟩ := hg.sound _ _ k3
      have := hu _ _ _ _ k4 k2 k5
      have h4 := h3 x hx _ k1
      rw [this] at h4
      exact h4

/-- **C148.** A name that the root declares stands for the same project everywhere, if it is declared with an absolute
path or a hash. -/
theorem C148_partial {f : Nat} {root : Path} {r : Spec} (hr : world root = some r) {acc : Acc} (h : discover world cache f root = some acc)
    {n : Name} {dep : Dep} (hn : r.deps.lookup n = some dep) (hrel : ∀ up down, dep ≠ .rel up down)
    {d e : Path} {ds es : List (Name × Path)} (hd : (d, ds) ∈ acc) (he : (e, es) ∈ acc) {c c' : Path}
    (hc : (n, c) ∈ ds) (hc' : (n, c') ∈ es) : c = c' := by
  obtain ⟨m, hg, _⟩ := discover_ok hr h
  obtain ⟨_, _, _, _, t, h3, h4⟩ := hg.right _ hd (n, c) hc
  obtain ⟨_, _, _, _, t', h3', h4'⟩ := hg.right _ he (n, c') hc'
  simp only [choose, hn, Option.getD_some] at h3 h3'
  have : ∀ b b', resolve cache b n dep = resolve cache b' n dep := by
    intro b b'
    cases dep with
    | rel up down => exact absurd rfl (hrel up down)
    | abs p => rfl
    | hash h => rfl
  rw [this d e] at h3
  rw [h3] at h3'
  cases h3'
  rw [h4] at h4'
  cases h4'; rfl

/-- The root `/1` depends on `7` at `../5` and on `8` at `../2/3`; the latter depends on `7` too, anywhere. -/
def sample (p : Path) : Option Spec :=
  if p = [1] then some ⟨1, [(7, .rel 1 [5]), (8, .rel 1 [2, 3])]⟩
  else if p = [5] then some ⟨5, []⟩
  else if p = [2, 3] then some ⟨3, [(7, .abs [9])]⟩
  else if p = [2, 5] then some ⟨6, []⟩
  else none

/-- The path that the root gives for a name is taken relative to the directory of each project that uses the name:
the name stands for two projects. -/
theorem C148_refuted_relative : discover sample (fun _ _ => []) 5 [1] =
    some [([2, 5], []), ([2, 3], [(7, [2, 5])]), ([5], []), ([1], [(7, [5]), (8, [2, 3])])] := by decide

/-- Or it is not found at all, though it is where the root says. -/
theorem C148_refuted_missing :
    let w := fun p => if p = [2, 5] then none else sample p
    discover w (fun _ _ => []) 5 [1] = none ∧ (w [5]).isSome := by decide

/-- A name that the root declares by an absolute path, used by two projects. -/
example : discover (fun p => if p = [1] then some ⟨1, [(7, .abs [5]), (8, .abs [6])]⟩ else if p = [5] then some ⟨5, []⟩
    else if p = [6] then some ⟨6, [(7, .abs [9])]⟩ else none) (fun _ _ => []) 5 [1] =
    some [([5], []), ([6], [(7, [5])]), ([1], [(7, [5]), (8, [6])])] := by decide

/-- Two copies of a project, and a cycle. -/
example : discover (fun p => if p = [1] then some ⟨1, [(7, .abs [5]), (8, .abs [6])]⟩ else if p = [5] then some ⟨5, [(9, .rel 1 [1])]⟩
    else if p = [6] then some ⟨5, []⟩ else none) (fun _ _ => []) 5 [1] =
    some [([5], [(9, [1])]), ([1], [(7, [5]), (8, [5])])] := by decide

end Verif.Plan.Discover
