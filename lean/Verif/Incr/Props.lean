import Verif.Incr.Small

/-!
# C119, C120, C121: incremental builds

Laws and notions used in the statements are in `Verif.Incr.Spec`; the small language of the
witnesses is in `Verif.Incr.Small`.
-/

namespace Verif.Incr

variable {κ ν η σ τ : Type} [DecidableEq κ] [DecidableEq ν] [DecidableEq η] [DecidableEq σ]
variable {C : Compiler κ ν η σ τ}

/-- **C119**, with assumptions on the front passes: after any builds of any projects, a build gives
for every module what a clean build gives, and that is what is then on disk. -/
theorem C119_same_partial (hL : Laws C) {store : κ → Option (Rec κ ν η σ τ)} (h : Stored C store)
    (p : List (κ × σ)) (m : κ) :
    Option.Rel Same ((build C p (fun _ => none) store).1 m) (clean C p (fun _ => none) m) ∧
    ∀ r, (build C p (fun _ => none) store).1 m = some r →
      (build C p (fun _ => none) store).2 m = some r := by
  obtain ⟨h1, -, h3⟩ := build_same hL p (fun _ => none) (fun _ => none) store (fun _ => .none)
    (fun _ _ h => by cases h) (stored_valid hL h) (fun _ _ h => by cases h)
  exact ⟨h1 m, h3 m⟩

/-- The recorded hashes of one kind are those that the modules have now. -/
def Current (C : Compiler κ ν η σ τ) (look : Look κ ν η σ τ)
    (deps : Row κ ν η → List ((κ × ν) × η)) (get : Row κ ν η → Option η)
    (r : Rec κ ν η σ τ) : Prop :=
  ∀ row ∈ r.rows, ∀ x ∈ deps row, ∃ q q', look x.1.1 = some q ∧ C.isPub x.1.2 = true ∧
    q.rows.find? (fun y => decide (y.name = x.1.2)) = some q' ∧ get q' = some x.2

/-- All names that are recorded have a hash now. -/
def Present (C : Compiler κ ν η σ τ) (look : Look κ ν η σ τ) (r : Rec κ ν η σ τ) : Prop :=
  ∀ row ∈ r.rows, ∀ x ∈ row.implDeps, ∃ q q' h, look x.1.1 = some q ∧ C.isPub x.1.2 = true ∧
    q.rows.find? (fun y => decide (y.name = x.1.2)) = some q' ∧ q'.impl = some h

theorem hashOf_some {get : Row κ ν η → Option η} {look : Look κ ν η σ τ} {d : κ × ν} {h : η} :
    hashOf C get look d = some h ↔ ∃ q q', look d.1 = some q ∧ C.isPub d.2 = true ∧
      q.rows.find? (fun y => decide (y.name = d.2)) = some q' ∧ get q' = some h := by
  simp only [hashOf, find, Rec.find, rowIn]
  cases look d.1 with
  | none => simp
  | some q =>
      by_cases hp : C.isPub d.2 = true
      · simp only [Option.bind_some, hp, if_true, Option.bind_eq_some_iff, true_and]
        constructor
        · rintro ⟨q', e1, e2⟩
          exact ⟨q, q', rfl, e1, e2⟩
        · rintro ⟨_, q', e, e1, e2⟩
          cases e
          exact ⟨q', e1, e2⟩
      · simp [hp]

theorem current_pub {look : Look κ ν η σ τ} {r : Rec κ ν η σ τ} :
    Current C look Row.pubDeps Row.pub r ↔ PubCurrent C look r := by
  simp only [Current, PubCurrent, pubIdx, List.mem_flatMap, hashOf_some]
  constructor
  · rintro h x ⟨row, hr, hx⟩; exact h row hr x hx
  · intro h row hr x hx; exact h x ⟨row, hr, hx⟩

theorem current_impl {look : Look κ ν η σ τ} {r : Rec κ ν η σ τ} :
    Current C look Row.implDeps Row.impl r ↔ ImplCurrent C look r := by
  simp only [Current, ImplCurrent, implIdx, List.mem_flatMap, hashOf_some]
  constructor
  · rintro h x ⟨row, hr, hx⟩; exact h row hr x hx
  · intro h row hr x hx; exact h x ⟨row, hr, hx⟩

theorem present_impl {look : Look κ ν η σ τ} {r : Rec κ ν η σ τ} :
    Present C look r ↔ ImplThere C look r := by
  simp only [Present, ImplThere, implIdx, List.mem_flatMap, Option.isSome_iff_exists, hashOf_some]
  constructor
  · rintro h x ⟨row, hr, hx⟩
    obtain ⟨q, q', y, e⟩ := h row hr x hx
    exact ⟨y, q, q', e⟩
  · intro h row hr x hx
    obtain ⟨y, q, q', e⟩ := h x ⟨row, hr, hx⟩
    exact ⟨q, q', y, e⟩

/-- **C120**: for any record on disk and the results of any build, the decision is the one that
comparing every recorded hash of a name with the present one would give, although only the names of
modules whose hashes as a whole have changed are compared: the record is reused exactly if all are
equal, and the front passes run exactly if a public hash differs or a name is missing. -/
theorem C120_decision (hI : Ideal C) {store : κ → Option (Rec κ ν η σ τ)} (h : Stored C store)
    (p : List (κ × σ)) {m : κ} {r : Rec κ ν η σ τ} (hr : store m = some r) :
    let look := (build C p (fun _ => none) store).1
    (decision C look r = .reuse ↔
      Current C look Row.pubDeps Row.pub r ∧ Current C look Row.implDeps Row.impl r) ∧
    (decision C look r = .front ↔
      ¬ (Current C look Row.pubDeps Row.pub r ∧ Present C look r)) := by
  intro look
  have hk := stored_kept hI h
  obtain ⟨d1, d2⟩ := decision_iff hI (build_kept hI p (fun _ => none) store
    (fun _ _ h => by cases h) hk).1
    (hk m r hr)
  rw [current_pub, current_impl, present_impl]
  exact ⟨d2, by rw [← d1]; exact (not_not).symm⟩

/-- **C121**: a build right after a build of the same project gives the same results and leaves the
disk as it is, and does so with a compiler whose front passes always fail. -/
theorem C121_again (hI : Ideal C) {store : κ → Option (Rec κ ν η σ τ)} (h : Stored C store)
    (p : List (κ × σ)) (hn : (p.map Prod.fst).Nodup) :
    build { C with front := fun _ _ => none } p (fun _ => none)
      (build C p (fun _ => none) store).2 = build C p (fun _ => none) store :=
  build_again hI p _ store hn (fun _ _ h => by cases h) (stored_kept hI h)

/-! ## Witnesses -/

section
open Small

/-- Simple sources, in two versions: `1` takes `f` and `g` of `0`, `2` takes those of `1`; then the
body of `f` in `0` changes, and the signature of `k` in `1`. -/
def simple1 : List (Nat × Src) :=
  [(0, ⟨[], [⟨1, 0, 0, []⟩, ⟨2, 0, 0, [.plain 1]⟩]⟩),
   (1, ⟨[.mod 0, .pick 0 2], [⟨3, 0, 0, [.qual 0 1, .plain 2]⟩, ⟨4, 0, 0, []⟩]⟩),
   (2, ⟨[.pick 1 3], [⟨5, 0, 0, [.plain 3]⟩]⟩)]

def simple2 : List (Nat × Src) :=
  [(0, ⟨[], [⟨1, 0, 7, []⟩, ⟨2, 0, 0, [.plain 1]⟩]⟩),
   (1, ⟨[.mod 0, .pick 0 2], [⟨3, 0, 0, [.qual 0 1, .plain 2]⟩, ⟨4, 0, 0, []⟩]⟩),
   (2, ⟨[.pick 1 3], [⟨5, 0, 0, [.plain 3]⟩]⟩)]

def small : Compiler Nat Nat H Src (List Item) := compiler simpleFront id

/-- What is on disk after building the first version. -/
def disk : Nat → Option (Rec Nat Nat H Src (List Item)) :=
  (build small simple1 (fun _ => none) (fun _ => none)).2

/-- The hypotheses hold for a compiler under which all of these modules compile, and in the second
build the second module is only refreshed. -/
example : Laws small ∧ Stored small disk ∧
    [0, 1, 2].map (fun m => ((build small simple2 (fun _ => none) disk).1 m).isSome) =
      [true, true, true] ∧
    [0, 1, 2].map (fun m => ((disk m).map (fun r =>
      decision small (build small simple2 (fun _ => none) disk).1 r))) =
      [some .reuse, some .refresh, some .refresh] :=
  ⟨laws, .build _ .empty, by decide +kernel, by decide +kernel⟩

example : Ideal small ∧ Stored small disk ∧ (simple2.map Prod.fst).Nodup ∧ (disk 1).isSome :=
  ⟨ideal _ _, .build _ .empty, by decide, by decide +kernel⟩

/-- All sources of the small language. -/
def full : Compiler Nat Nat H Src (List Item) := compiler front sortKey

/-- The results of a first build and, after it, of a second one. -/
def first (p : List (Nat × Src)) : Nat → Option (Rec Nat Nat H Src (List Item)) :=
  (build full p (fun _ => none) (fun _ => none)).1

def second (p q : List (Nat × Src)) : Nat → Option (Rec Nat Nat H Src (List Item)) :=
  (build full q (fun _ => none) (build full p (fun _ => none) (fun _ => none)).2).1

/-- `2` takes all names of `0` and of `1` and mentions `f`, which is in `0`. -/
def star1 : List (Nat × Src) :=
  [(0, ⟨[], [⟨1, 0, 0, []⟩]⟩), (1, ⟨[], [⟨2, 0, 0, []⟩]⟩),
   (2, ⟨[.all 0, .all 1], [⟨3, 0, 0, [.plain 1]⟩]⟩)]

/-- An `f` with another signature is added to `1`. -/
def star2 : List (Nat × Src) :=
  [(0, ⟨[], [⟨1, 0, 0, []⟩]⟩), (1, ⟨[], [⟨2, 0, 0, []⟩, ⟨1, 5, 0, []⟩]⟩),
   (2, ⟨[.all 0, .all 1], [⟨3, 0, 0, [.plain 1]⟩]⟩)]

/-- **C119 fails for `from m import *`**: a name added to a module hides one that was taken from an
earlier import; a clean build takes the new one, the incremental build keeps the old. -/
theorem C119_refuted_star :
    (second star1 star2 2).map (fun r => r.typed.content) = some [⟨3, 0, [(.there 0 1,
      (first star1 0).bind (fun r => (rowIn r.rows 1).bind Row.pub))]⟩] ∧
    (clean full star2 (fun _ => none) 2).map (fun r => r.typed.content) = some [⟨3, 0, [(.there 1 1,
      (clean full star2 (fun _ => none) 1).bind (fun r => (rowIn r.rows 1).bind Row.pub))]⟩] ∧
    ¬ Option.Rel Same (second star1 star2 2) (clean full star2 (fun _ => none) 2) := by
  have h1 : (second star1 star2 2).map (fun r => r.typed.content) ≠
      (clean full star2 (fun _ => none) 2).map (fun r => r.typed.content) := by decide +kernel
  refine ⟨by decide +kernel, by decide +kernel, fun h => h1 ?_⟩
  generalize second star1 star2 2 = a at h
  generalize clean full star2 (fun _ => none) 2 = b at h
  cases h with
  | none => rfl
  | some h => simp only [Option.map_some, h.typed]

/-- `2` imports `f` and `g` of `0` by name and mentions only `g`. -/
def unused1 : List (Nat × Src) :=
  [(0, ⟨[], [⟨1, 0, 0, []⟩, ⟨2, 0, 0, []⟩]⟩), (2, ⟨[.pick 0 1, .pick 0 2], [⟨3, 0, 0, [.plain 2]⟩]⟩)]

/-- `f` is removed. -/
def unused2 : List (Nat × Src) :=
  [(0, ⟨[], [⟨2, 0, 0, []⟩]⟩), (2, ⟨[.pick 0 1, .pick 0 2], [⟨3, 0, 0, [.plain 2]⟩]⟩)]

/-- **C119 fails for imported names that are not mentioned**: a clean build reports that the name is
not there, the incremental build succeeds. -/
theorem C119_refuted_unused :
    (second unused1 unused2 2).isSome = true ∧
    (clean full unused2 (fun _ => none) 2).isSome = false := by
  decide +kernel

/-- `0` has a class and an extension of it, which `2` uses. -/
def witness1 : List (Nat × Src) :=
  [(0, ⟨[], [⟨1, 0, 0, []⟩, ⟨10, 0, 0, [.plain 1]⟩]⟩),
   (2, ⟨[.mod 0], [⟨3, 0, 0, [.qual 0 1, .wit 10]⟩]⟩)]

/-- The signature of the extension changes. -/
def witness2 : List (Nat × Src) :=
  [(0, ⟨[], [⟨1, 0, 0, []⟩, ⟨10, 5, 0, [.plain 1]⟩]⟩),
   (2, ⟨[.mod 0], [⟨3, 0, 0, [.qual 0 1, .wit 10]⟩]⟩)]

/-- **C119 fails for extensions**: their names are derived and not recorded as public dependencies,
so that a change of the interface of an extension only refreshes the hashes of a module that uses
it; its typed contents, with the witness of the old interface, stay. -/
theorem C119_refuted_witness :
    (second witness1 witness2 2).map (fun r => r.typed.content) =
      (first witness1 2).map (fun r => r.typed.content) ∧
    (second witness1 witness2 2).map (fun r => r.typed.content) ≠
      (clean full witness2 (fun _ => none) 2).map (fun r => r.typed.content) ∧
    (second witness1 witness2 2).map Rec.implH ≠ (first witness1 2).map Rec.implH := by
  decide +kernel

/-- `3` in module `2` mentions the names `zeta` (5) and `OrdD_Foo` (12) of its module, and `f`. -/
def order1 : List (Nat × Src) :=
  [(0, ⟨[], [⟨1, 0, 0, []⟩]⟩),
   (2, ⟨[.mod 0], [⟨5, 0, 0, []⟩, ⟨12, 0, 1, []⟩, ⟨3, 0, 0, [.plain 5, .plain 12, .qual 0 1]⟩]⟩)]

/-- The body of `f` changes. -/
def order2 : List (Nat × Src) :=
  [(0, ⟨[], [⟨1, 0, 7, []⟩]⟩),
   (2, ⟨[.mod 0], [⟨5, 0, 0, []⟩, ⟨12, 0, 1, []⟩, ⟨3, 0, 0, [.plain 5, .plain 12, .qual 0 1]⟩]⟩)]

/-- **C119 fails for hashes where the two orders of names differ**: the front passes feed the local
dependencies of a name in the order of `Ord`, a refresh in the order of the keys in which they are
recorded, so that the hashes of the module differ from those of a clean build. -/
theorem C119_refuted_order :
    (second order1 order2 2).map (fun r => r.typed.content) =
      (clean full order2 (fun _ => none) 2).map (fun r => r.typed.content) ∧
    (second order1 order2 2).map Rec.implH ≠
      (clean full order2 (fun _ => none) 2).map Rec.implH := by
  decide +kernel

end

end Verif.Incr
