import Verif.Hash.DepsInj
import Mathlib.Logic.Equiv.List

/-!
C109 and C110: the final hashes of names that depend on one another.
-/

namespace Verif.Hash
open Relation

/-! ### C109: the hashes are those of the equations, on either path -/

/-- The hashes computed solve the equations. -/
theorem C109_final (D : Deps) (H : List Nat → Hash) (cs : List Scc) (hI : IsSccs D cs) :
    Final D H (compute D H cs) := by
  unfold compute
  cases h : fast D H with
  | some m => exact fast_final h
  | none => exact slow_final hI

/-- The equations have one solution: the hash of a name is a function of what
it depends on, not of the order of the walk. -/
theorem C109_unique (D : Deps) (H : List Nat → Hash) (cs : List Scc) (hI : IsSccs D cs)
    (hK : KeysDiffer D) (F : Acc) (hF : Final D H F) : F = compute D H cs :=
  final_unique hI hF (C109_final D H cs hI) (Or.inl hK)

/-- When the depth-first search succeeds, the path over components would give
the same hashes. -/
theorem C109_paths (D : Deps) (H : List Nat → Hash) (cs : List Scc) (hI : IsSccs D cs) (m : Acc)
    (h : fast D H = some m) : slow D H cs = m :=
  final_unique hI (slow_final hI) (fast_final h) (Or.inr (fast_acyclic h))

/-- The order in which the library lists the components does not matter. -/
theorem C109_order (D : Deps) (H : List Nat → Hash) (cs cs' : List Scc) (hI : IsSccs D cs)
    (hI' : IsSccs D cs') (hK : KeysDiffer D) : compute D H cs = compute D H cs' :=
  final_unique hI (C109_final D H cs hI) (C109_final D H cs' hI') (Or.inl hK)

/-- The depth-first search gives up when there is a cycle. -/
theorem C109_cycle (D : Deps) (H : List Nat → Hash) (n : Nat) (h : OnCycle D n) :
    fast D H = none := by
  cases hf : fast D H with
  | none => rfl
  | some m => exact absurd h (fast_acyclic hf n)

theorem foldVisit_total {f : Acc → Nat → Option Acc} : ∀ (ns : List Nat) (m : Acc),
    (∀ n ∈ ns, ∀ m, f m n ≠ none) → foldVisit f m ns ≠ none
  | [], m, _ => by simp [foldVisit]
  | n :: ns, m, h => by
    obtain ⟨m', hm⟩ := Option.ne_none_iff_exists'.1 (h n (by simp) m)
    simp only [foldVisit, hm, Option.bind_some]
    exact foldVisit_total ns m' (fun x hx => h x (by simp [hx]))

theorem visit_total {D : Deps} {H : List Nat → Hash} (hac : ∀ n, ¬ OnCycle D n) :
    ∀ (fuel : Nat) (vis : List Nat) (m : Acc) (n : Nat), vis.Nodup →
      (∀ v ∈ vis, D.self v ≠ none) →
      (D.self n ≠ none → ∀ v ∈ vis, TransGen (Edge D) v n) →
      D.selfs.length < fuel + vis.length → visit D H fuel vis m n ≠ none := by
  intro fuel
  induction fuel with
  | zero =>
    intro vis m n hv hk _ hf
    have : vis.length ≤ (D.selfs.map (·.1)).length :=
      (List.subperm_of_subset hv (fun v h => mem_selfs (hk v h))).length_le
    simp at this
    omega
  | succ k ih =>
    intro vis m n hv hk hr hf
    rw [visit.eq_def]
    cases hm : m n with
    | some x => simp [hm]
    | none =>
      cases hs : D.self n with
      | none => simp [hm, hs]
      | some s =>
        have hne : D.self n ≠ none := by rw [hs]; simp
        have hn : n ∉ vis := fun h => hac n (hr hne n h)
        simp only [hm, hs, hn, if_false, ne_eq, Option.map_eq_none_iff]
        refine foldVisit_total _ _ (fun d hd m' => ?_)
        refine ih (n :: vis) m' d (List.nodup_cons.2 ⟨hn, hv⟩) ?_ ?_ (by simp; omega)
        · intro v hv'
          rcases List.mem_cons.1 hv' with rfl | hv'
          · exact hne
          · exact hk v hv'
        · intro hsd v hv'
          have e : Edge D n d := ⟨hne, hd, hsd⟩
          rcases List.mem_cons.1 hv' with rfl | hv'
          · exact .single e
          · exact .tail (hr hne v hv') e

/-- The depth-first search succeeds on up to 10000 names without a cycle. -/
theorem C109_fast (D : Deps) (H : List Nat → Hash) (hac : ∀ n, ¬ OnCycle D n)
    (hl : D.selfs.length ≤ 10000) : ∃ m, fast D H = some m := by
  apply Option.ne_none_iff_exists'.1
  refine foldVisit_total _ _ (fun n _ m => ?_)
  refine visit_total hac _ [] m n (by simp) (by simp) (by simp) ?_
  simp [maxDepth]
  omega

/-! ### C110: what the hash of a name tells -/

/-- If a name has the same final hash in two versions of a module, then every
name that it depends on, directly or not, has the same own hash in both, and
every name of another module so reached has the same hash.  SHA256 is taken to
have no collisions.  Partial: where no dependency is on a cycle, or where own
hashes tell names apart (`C110_refuted_cycle`), and where every local
dependency has a hash (`C110_refuted_missing`). -/
theorem C110_sound_partial (D E : Deps) (H : List Nat → Hash) (hH : Function.Injective H)
    (cs ds : List Scc) (hD : IsSccs D cs) (hE : IsSccs E ds) (hcD : Closed D) (hcE : Closed E)
    (hS : SameDeps D E) (hO : OneHash D) (hO' : OneHash E) (n : Nat) (hn : D.self n ≠ none)
    (hN : Named D E ∨ ∀ m, ReflTransGen (Edge D) n m → ¬ OnCycle D m)
    (h : compute D H cs n = compute E H ds n) :
    ∀ m, ReflTransGen (Edge D) n m → D.self m = E.self m ∧ D.ext m = E.ext m :=
  sound_aux hH hD (C109_final D H cs hD) (C109_final E H ds hE) hcD hcE hS hO hO' n hn hN h

/-- Three names: 0 depends on 1 and 2, and on `a`, which depends on 0, it
depends mutually. -/
def ver (a : Nat) : Deps where
  selfs := [(0, [0]), (1, if a = 1 then [10] else [20]), (2, if a = 2 then [10] else [20])]
  loc n := if n = 0 then [1, 2] else if n = a then [0] else []
  ext _ := []
  key n := [⟨97 + n % 26, by omega⟩]

/-- The components of `ver a`; `b` is the other name. -/
def verSccs (a b : Nat) : List Scc := [.acyclic b, .cyclic [0, a]]

theorem ver_self {a n : Nat} : (ver a).self n ≠ none ↔ n = 0 ∨ n = 1 ∨ n = 2 := by
  have e : (ver a).self n = if n = 0 then some [0] else if n = 1 then
      some (if a = 1 then [10] else [20]) else if n = 2 then
      some (if a = 2 then [10] else [20]) else none := by
    simp only [Deps.self, ver, List.lookup]
    by_cases h0 : n = 0
    · subst h0; simp
    · by_cases h1 : n = 1
      · subst h1; simp
      · by_cases h2 : n = 2
        · subst h2; simp
        · have := beq_false_of_ne h0
          have := beq_false_of_ne h1
          have := beq_false_of_ne h2
          simp [*]
  rw [e]
  by_cases h0 : n = 0 <;> by_cases h1 : n = 1 <;> by_cases h2 : n = 2 <;> simp [h0, h1, h2]

theorem ver_sccs {a b : Nat} (h : a = 1 ∧ b = 2 ∨ a = 2 ∧ b = 1) : IsSccs (ver a) (verSccs a b) := by
  have hab : a ≠ b ∧ a ≠ 0 ∧ b ≠ 0 := by omega
  have dom : ∀ n, (ver a).self n ≠ none ↔ n = 0 ∨ n = a ∨ n = b := by
    intro n; rw [ver_self]; omega
  have e0 : Edge (ver a) 0 a := ⟨(dom 0).2 (by simp), by simp [ver]; omega, (dom a).2 (by simp)⟩
  have ea : Edge (ver a) a 0 := ⟨(dom a).2 (by simp), by simp [ver, hab], (dom 0).2 (by simp)⟩
  have eb : ∀ d, ¬ Edge (ver a) b d := by
    rintro d ⟨_, hd, _⟩
    simp [ver, hab, hab.1.symm] at hd
  have tb : ∀ d, ¬ TransGen (Edge (ver a)) b d := by
    intro d hd
    obtain ⟨c, hc, _⟩ := (TransGen.head'_iff).1 hd
    exact eb c hc
  have m00 : Mutual (ver a) 0 0 := ⟨.tail (.single e0) ea, .tail (.single e0) ea⟩
  have m0a : Mutual (ver a) 0 a := ⟨.single e0, .single ea⟩
  have ma0 : Mutual (ver a) a 0 := ⟨.single ea, .single e0⟩
  have maa : Mutual (ver a) a a := ⟨.tail (.single ea) e0, .tail (.single ea) e0⟩
  refine ⟨?_, ?_, ?_, ?_, ?_⟩
  · simp [verSccs, members, Scc.members]; omega
  · intro n
    rw [dom]
    simp [verSccs, members, Scc.members]
    tauto
  · intro n hn
    simp [verSccs] at hn
    subst hn
    exact tb n
  · intro ns hns n hn m
    simp [verSccs] at hns
    subst hns
    simp only [List.mem_cons, List.not_mem_nil, or_false] at hn
    constructor
    · simp only [List.mem_cons, List.not_mem_nil, or_false]
      rcases hn with rfl | rfl <;> rintro (rfl | rfl) <;> assumption
    · intro hm
      have := (dom m).1 (edge_mem hm.1).2
      rcases this with rfl | rfl | rfl
      · simp
      · simp
      · exact absurd hm.2 (tb _)
  · intro pre c post he n hn d hd
    have hd' := (dom d).1 hd.2.2
    have hn' := (dom n).1 hd.1
    have hnb : n ≠ b := by rintro rfl; exact eb d hd
    match pre, he with
    | [], he =>
      simp [verSccs] at he
      rw [← he.1] at hn
      simp [Scc.members] at hn
      exact absurd hn hnb
    | [p], he =>
      simp [verSccs] at he
      rw [← he.2.1, ← he.1]
      simp [members, Scc.members]
      tauto
    | p :: q :: r, he =>
      have := congrArg List.length he
      simp [verSccs] at this

theorem ver_final (a b : Nat) (h : a = 1 ∧ b = 2 ∨ a = 2 ∧ b = 1) (H : List Nat → Hash) :
    compute (ver a) H (verSccs a b) 0 = some (digest H (feedMember [0]
      (digest H (feedGroup [[0], [10]] (fun _ => some (digest H (feedSelf [20] (fun _ => none) [] [])))
        [0] [])) [⟨97, by decide⟩])) := by
  have hc : OnCycle (ver a) 0 := by
    have hI := ver_sccs h
    exact ((hI.group [0, a] (by simp [verSccs]) 0 (by simp) 0).1 (by simp)).1
  rw [compute, C109_cycle _ H 0 hc]
  rcases h with ⟨rfl, rfl⟩ | ⟨rfl, rfl⟩
  · rfl
  · rfl

/-- Two names that swap their places, one in a cycle and one outside it, leave
the final hash of a third name that depends on both as it was, whatever the
hash function: the own hash of an interface entry does not tell its name, and
the hash of a group lists own hashes only. -/
theorem C110_refuted_cycle : ∃ (D E : Deps) (cs ds : List Scc) (f : Hash → List Nat) (n m : Nat),
    IsSccs D cs ∧ IsSccs E ds ∧ Closed D ∧ Closed E ∧ OneHash D ∧ OneHash E ∧ SameDeps D E ∧
    KeysDiffer D ∧ D.key = E.key ∧
    (∀ x s, D.self x = some s → D.loc x = f s) ∧ (∀ x s, E.self x = some s → E.loc x = f s) ∧
    (∀ H, compute D H cs n = compute E H ds n) ∧ Edge D n m ∧ D.self m ≠ E.self m := by
  have cl : ∀ a, Closed (ver a) := by
    intro a n _ d hd
    rw [ver_self]
    simp only [ver] at hd
    split at hd
    · simp at hd; tauto
    · split at hd
      · simp at hd; tauto
      · simp at hd
  have fl : ∀ a, a = 1 ∨ a = 2 → ∀ x s, (ver a).self x = some s →
      (ver a).loc x = if s = [0] then [1, 2] else if s = [10] then [0] else [] := by
    intro a ha x s hs
    have hx := ver_self.1 (show (ver a).self x ≠ none by rw [hs]; simp)
    rcases ha with rfl | rfl <;> rcases hx with rfl | rfl | rfl <;>
      (have : some s = _ := hs.symm.trans rfl; cases this; decide)
  refine ⟨ver 1, ver 2, verSccs 1 2, verSccs 2 1,
    fun s => if s = [0] then [1, 2] else if s = [10] then [0] else [], 0, 1,
    ver_sccs (by simp), ver_sccs (by simp), cl 1, cl 2, ?_, ?_, ?_, ?_, rfl, fl 1 (by simp),
    fl 2 (by simp), ?_, ?_, ?_⟩
  · intro n m q h h' hq; simp [ver] at hq
  · intro n m q h h' hq; simp [ver] at hq
  · intro n s h1 h2
    exact ⟨(fl 1 (by simp) n s h1).trans (fl 2 (by simp) n s h2).symm, rfl⟩
  · intro a b ha hb hk
    have ha := ver_self.1 ha
    have hb := ver_self.1 hb
    simp only [ver, List.cons.injEq, Fin.mk.injEq, and_true] at hk
    omega
  · intro H
    rw [ver_final 1 2 (by simp) H, ver_final 2 1 (by simp) H]
  · exact ⟨ver_self.2 (by simp), by simp [ver], ver_self.2 (by simp)⟩
  · decide

/-- Name 0 depends on 1 and 2, of which only `a` has a hash. -/
def miss (a : Nat) : Deps where
  selfs := [(0, [0]), (a, [10])]
  loc n := if n = 0 then [1, 2] else []
  ext _ := []
  key n := [⟨97 + n % 26, by omega⟩]

theorem miss_self {a n : Nat} (ha : a ≠ 0) : (miss a).self n ≠ none ↔ n = 0 ∨ n = a := by
  simp only [Deps.self, miss, List.lookup]
  by_cases h0 : n = 0
  · subst h0; simp
  · by_cases h1 : n = a
    · subst h1; simp [h0, beq_false_of_ne h0]
    · simp [h0, h1, beq_false_of_ne h0, beq_false_of_ne h1]

theorem miss_edge {a n d : Nat} (ha : a ≠ 0) (h : Edge (miss a) n d) : n = 0 ∧ d = a := by
  obtain ⟨h1, h2, h3⟩ := h
  have h3 := (miss_self ha).1 h3
  by_cases e : n = 0
  · simp [miss, e] at h2
    exact ⟨e, by omega⟩
  · simp [miss, e] at h2

theorem miss_acyclic {a n : Nat} (ha : a ≠ 0) : ¬ OnCycle (miss a) n := by
  intro h
  obtain ⟨c, hc, _⟩ := (TransGen.head'_iff).1 h
  obtain ⟨d, _, hd⟩ := (TransGen.tail'_iff).1 h
  have := miss_edge ha hc
  have := miss_edge ha hd
  omega

theorem miss_sccs {a : Nat} (ha : a ≠ 0) : IsSccs (miss a) [.acyclic a, .acyclic 0] := by
  refine ⟨by simp [members, Scc.members, ha], ?_, fun n _ => miss_acyclic ha, by simp, ?_⟩
  · intro n
    rw [miss_self ha]
    simp [members, Scc.members]
    tauto
  · intro pre c post he n hn d hd
    obtain ⟨rfl, rfl⟩ := miss_edge ha hd
    match pre, he with
    | [], he =>
      simp at he
      rw [← he.1] at hn
      simp [Scc.members] at hn
      exact absurd hn.symm ha
    | [p], he =>
      simp at he
      rw [← he.1]
      simp [members, Scc.members]
    | p :: q :: r, he =>
      have := congrArg List.length he
      simp at this

/-- A local dependency without a hash of its own is skipped, so that nothing
tells which of the following hashes belongs to which dependency. -/
theorem C110_refuted_missing : ∃ (D E : Deps) (cs ds : List Scc) (n m : Nat),
    IsSccs D cs ∧ IsSccs E ds ∧ OneHash D ∧ OneHash E ∧ SameDeps D E ∧ (∀ x, ¬ OnCycle D x) ∧
    (∀ H, compute D H cs n = compute E H ds n) ∧ Edge D n m ∧ D.self m ≠ E.self m := by
  refine ⟨miss 1, miss 2, [.acyclic 1, .acyclic 0], [.acyclic 2, .acyclic 0], 0, 1,
    miss_sccs (by decide), miss_sccs (by decide), ?_, ?_, ?_, fun _ => miss_acyclic (by decide),
    ?_, ?_, by decide⟩
  · intro n m q h h' hq; simp [miss] at hq
  · intro n m q h h' hq; simp [miss] at hq
  · intro n s _ _; exact ⟨rfl, rfl⟩
  · intro H
    obtain ⟨m1, h1⟩ := C109_fast (miss 1) H (fun _ => miss_acyclic (by decide)) (by decide)
    obtain ⟨m2, h2⟩ := C109_fast (miss 2) H (fun _ => miss_acyclic (by decide)) (by decide)
    have e1 := C109_paths (miss 1) H _ (miss_sccs (by decide)) m1 h1
    have e2 := C109_paths (miss 2) H _ (miss_sccs (by decide)) m2 h2
    simp only [compute, h1, h2]
    rw [← e1, ← e2]
    rfl
  · exact ⟨(miss_self (by decide)).2 (by simp), by simp [miss], (miss_self (by decide)).2 (by simp)⟩

/-! ### The hypotheses can be met -/

-- a cycle of two names with a dependency outside
example : IsSccs (ver 1) (verSccs 1 2) ∧ Closed (ver 1) ∧ OnCycle (ver 1) 0 :=
  ⟨ver_sccs (by simp), by
    intro n _ d hd
    rw [ver_self]
    simp only [ver] at hd
    split at hd
    · simp at hd; tauto
    · split at hd
      · simp at hd; tauto
      · simp at hd,
    ((ver_sccs (a := 1) (b := 2) (by simp)).group [0, 1] (by simp [verSccs]) 0 (by simp) 0).1
      (by simp) |>.1⟩

-- a function without collisions
example : ∃ H : List Nat → Hash, Function.Injective H :=
  ⟨fun l => List.replicate (Encodable.encode l) 0, fun a b h => Encodable.encode_injective (by
    simpa using congrArg List.length h)⟩

-- own hashes that tell names
example : Named (ver 1) (ver 1) := by
  intro a b s ha hb
  have h1 := ver_self.1 (show (ver 1).self a ≠ none by rw [ha]; simp)
  have h2 := ver_self.1 (show (ver 1).self b ≠ none by rw [hb]; simp)
  rcases h1 with rfl | rfl | rfl <;> rcases h2 with rfl | rfl | rfl <;>
    first
      | rfl
      | exact absurd (ha.trans hb.symm) (by decide)

-- a module without a cycle that the search succeeds on
example (H : List Nat → Hash) : ∃ m, fast (miss 1) H = some m :=
  C109_fast _ H (fun _ => miss_acyclic (by decide)) (by decide)

end Verif.Hash
