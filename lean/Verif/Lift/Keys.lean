import Verif.Lift.Chain
import Mathlib.Data.List.Nodup

/-!
# The names of lifted functions
-/

namespace Verif.Lift

open Syn

/-- The names come from a part of the supply, and none comes twice. -/
def Keys (l : List TDef) (a b : Nat) : Prop :=
  (l.map (·.1)).Nodup ∧ ∀ q ∈ l, ∃ k, q.1 = .lift k ∧ a ≤ k ∧ k < b

theorem Keys.nil (a b : Nat) : Keys [] a b := ⟨by simp, by simp⟩

theorem Keys.app {l l' : List TDef} {a b c : Nat} (h : Keys l a b) (h' : Keys l' b c) (hab : a ≤ b)
    (hbc : b ≤ c) : Keys (l ++ l') a c := by
  refine ⟨?_, ?_⟩
  · rw [List.map_append, List.nodup_append]
    refine ⟨h.1, h'.1, ?_⟩
    intro x hx y hy
    rw [List.mem_map] at hx hy
    obtain ⟨p, hp, rfl⟩ := hx
    obtain ⟨q, hq, rfl⟩ := hy
    obtain ⟨k, hk, h1, h2⟩ := h.2 p hp
    obtain ⟨k', hk', h3, h4⟩ := h'.2 q hq
    rw [hk, hk']
    intro e
    cases e
    omega
  · intro q hq
    rcases List.mem_append.1 hq with hq | hq
    · obtain ⟨k, hk, h1, h2⟩ := h.2 q hq
      exact ⟨k, hk, h1, by omega⟩
    · obtain ⟨k, hk, h1, h2⟩ := h'.2 q hq
      exact ⟨k, hk, by omega, h2⟩

theorem Keys.perm {l l' : List TDef} {a b : Nat} (h : Keys l a b) (hp : l.Perm l') : Keys l' a b :=
  ⟨(hp.map _).nodup_iff.1 h.1, fun q hq => h.2 q (hp.mem_iff.2 hq)⟩

theorem map_tname {xs : List Nm} (h : xs.Nodup) (ys : List Nat) (hl : xs.length = ys.length)
    (L : List Nm) (F : FMap) (N : List (Nm × Nat)) :
    xs.map (LEnv.mk L F (xs.zip ys ++ N)).tname = ys.map .lift := by
  induction xs generalizing ys with
  | nil =>
    cases ys with
    | nil => rfl
    | cons y ys => simp at hl
  | cons x xs ih =>
    cases ys with
    | nil => simp at hl
    | cons y ys =>
      rw [List.nodup_cons] at h
      rw [List.map_cons, List.map_cons, ← ih h.2 ys (by simpa using hl)]
      refine congr (congrArg List.cons ?_) (List.map_congr_left fun z hz => ?_)
      · simp [LEnv.tname]
      · have hzx : z ≠ x := fun e => h.1 (e ▸ hz)
        simp only [LEnv.tname, List.zip_cons_cons, List.cons_append, List.lookup_cons,
          show (z == x) = false by simpa using hzx]

theorem map_tname_group {ds : Syn Nm .ds} (h : ds.names.Nodup) (env : LEnv) (c : Nat) :
    ds.names.map (env.group c ds).tname = (List.range' c ds.names.length).map .lift :=
  map_tname h _ (by simp) _ _ _

theorem keys_of_map {l : List TDef} {c n : Nat} (h : l.map (·.1) = (List.range' c n).map .lift) :
    Keys l c (c + n) := by
  refine ⟨?_, ?_⟩
  · rw [h]
    refine List.Nodup.map (fun a b e => by cases e; rfl) List.nodup_range'
  · intro q hq
    have := List.mem_map_of_mem (f := (·.1)) hq
    rw [h, List.mem_map] at this
    obtain ⟨k, hk, he⟩ := this
    rw [List.mem_range'_1] at hk
    exact ⟨k, he.symm, hk.1, hk.2⟩

mutual
theorem llS_keys {V W : Nm → Prop} {D : List Nm} {env : LEnv} {c : Nat} : (s : Syn Nm .s) →
    s.Scoped V W D → c ≤ (llS env c s).c ∧ Keys (llS env c s).top c (llS env c s).c
  | .done, _ => by
    simp only [llS]
    exact ⟨Nat.le_refl _, Keys.nil _ _⟩
  | .assign x a r, h => by
    simp only [Scoped] at h
    simp only [llS]
    exact llS_keys r h
  | .ifs e b1 b2 r, h => by
    simp only [Scoped] at h
    simp only [llS]
    obtain ⟨h1, k1⟩ := llS_keys (env := env) (c := c) b1 h.1
    obtain ⟨h2, k2⟩ := llS_keys (env := env) (c := (llS env c b1).c) b2 h.2.1
    obtain ⟨h3, k3⟩ := llS_keys (env := env.extLocals
      (Syn.common b1.falls b2.falls b1.envVars b2.envVars b2.assigned))
      (c := (llS env (llS env c b1).c b2).c) r h.2.2
    exact ⟨by omega, (k1.app k2 h1 h2).app k3 (by omega) h3⟩
  | .whl e b r, h => by
    simp only [Scoped] at h
    simp only [llS]
    obtain ⟨h1, k1⟩ := llS_keys (env := env) (c := c) b h.1
    obtain ⟨h2, k2⟩ := llS_keys (env := env) (c := (llS env c b).c) r h.2
    exact ⟨by omega, k1.app k2 h1 h2⟩
  | .ret a r, h => by
    simp only [Scoped] at h
    simp only [llS]
    exact llS_keys r h
  | .decl ds r, h => by
    simp only [Scoped] at h
    simp only [llS]
    obtain ⟨h1, k1, e1⟩ := llD_keys (env := env.group c ds) (c := c + ds.names.length) ds h.2.1
    obtain ⟨h2, k2⟩ := llS_keys (env := env.group c ds)
      (c := (llD (env.group c ds) (c + ds.names.length) ds).2.2) r h.2.2
    rw [map_tname_group h.1] at e1
    refine ⟨by omega, Keys.app (Keys.perm (((keys_of_map e1).app k1 (by omega) h1))
      List.perm_append_comm) k2 (by omega) h2⟩
theorem llD_keys {V W : Nm → Prop} {D : List Nm} {env : LEnv} {c : Nat} : (ds : Syn Nm .ds) →
    ds.Scoped V W D → c ≤ (llD env c ds).2.2 ∧ Keys (llD env c ds).2.1 c (llD env c ds).2.2 ∧
      (llD env c ds).1.map (·.1) = ds.names.map env.tname
  | .dnil, _ => by
    simp only [llD, names]
    exact ⟨Nat.le_refl _, Keys.nil _ _, rfl⟩
  | .dcons f ps b ds, h => by
    simp only [Scoped] at h
    simp only [llD, names]
    obtain ⟨h1, k1⟩ := llS_keys (env := env.extLocals ps) (c := c) b h.2.2.1
    obtain ⟨h2, k2, e2⟩ := llD_keys (env := env) (c := (llS (env.extLocals ps) c b).c) ds h.2.2.2
    exact ⟨by omega, k1.app k2 h1 h2, by simp only [List.map_cons, e2]⟩
end

/-- All definitions of the lifted module have different names. -/
theorem inT_liftModule {G : Nm → Prop} {ds : Syn Nm .ds} (h : ScopedModule G ds) :
    InT (liftModule ds) (liftModule ds) := by
  have hn : ((liftModule ds).map (·.1)).Nodup := by
    obtain ⟨_, k, e⟩ := llD_keys (env := ⟨[], [], []⟩) (c := 1) ds h.2
    simp only [liftModule, List.map_append]
    rw [e, List.nodup_append]
    refine ⟨k.1, h.1.map (fun a b e => by
      have e : TName.top a = .top b := e
      cases e; rfl), ?_⟩
    intro x hx y hy
    rw [List.mem_map] at hx hy
    obtain ⟨q, hq, rfl⟩ := hx
    obtain ⟨f, _, rfl⟩ := hy
    obtain ⟨j, hj, _⟩ := k.2 q hq
    rw [hj]
    intro e
    have e : TName.lift j = .top f := e
    cases e
  intro q hq
  exact lookup_of_nodup hn (by simpa using hq)

/-- The definitions of a group in the lifted program. -/
theorem llD_entry {T : List TDef} {env : LEnv} {c : Nat} : (ds : Syn Nm .ds) →
    InT T (llD env c ds).1 → InT T (llD env c ds).2.1 →
    ∀ d ∈ ds.defs, ∃ c', T.lookup (env.tname d.1) =
        some (env.extraArgs d.1 ++ d.2.1, (llS (env.extLocals d.2.1) c' d.2.2).s) ∧
      InT T (llS (env.extLocals d.2.1) c' d.2.2).top
  | .dnil, _, _ => by simp [defs]
  | .dcons f ps b ds, h1, h2 => by
    simp only [llD] at h1 h2
    intro d hd
    simp only [defs, List.mem_cons] at hd
    rcases hd with rfl | hd
    · exact ⟨c, h1 _ (List.mem_cons_self ..), h2.app.1⟩
    · exact llD_entry ds (fun q hq => h1 q (List.mem_cons_of_mem _ hq)) h2.app.2 d hd

end Verif.Lift
