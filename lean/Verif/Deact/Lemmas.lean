import Verif.Deact.Spec
/-!
# Expressions keep their values
-/
namespace Verif.Deact

variable {V : Type}

theorem bindAll_agree (I : Interp V) : ∀ (ps : List Name) (vs : List V) (ρ ρ' : Frame V) (n : Name),
    (n ∉ ps → ρ n = ρ' n) → bindAll I ps vs ρ n = bindAll I ps vs ρ' n
  | [], _, ρ, ρ', n, h => h (by simp)
  | p :: ps, [], ρ, ρ', n, h => by
    refine bindAll_agree I ps [] _ _ n fun hn => ?_
    unfold set
    split
    · rfl
    · next hp => exact h (by simp [hn, hp])
  | p :: ps, v :: vs, ρ, ρ', n, h => by
    refine bindAll_agree I ps vs _ _ n fun hn => ?_
    unfold set
    split
    · rfl
    · next hp => exact h (by simp [hn, hp])

theorem bindAll_other (I : Interp V) : ∀ (ps : List Name) (vs : List V) (ρ : Frame V) (n : Name),
    n ∉ ps → bindAll I ps vs ρ n = ρ n
  | [], _, ρ, n, h => rfl
  | p :: ps, [], ρ, n, h => by
    simp only [List.mem_cons, not_or] at h
    rw [bindAll, bindAll_other I ps [] _ n h.2, set, if_neg h.1]
  | p :: ps, v :: vs, ρ, n, h => by
    simp only [List.mem_cons, not_or] at h
    rw [bindAll, bindAll_other I ps vs _ n h.2, set, if_neg h.1]

/-- The names of the actor are in order: state variables are names of the actor, and no methods. -/
structure Scope.Ok (sc : Scope) : Prop where
  st : ∀ n ∈ sc.stvars, n ∈ sc.names
  wr : ∀ n ∈ sc.stvars, n ∉ sc.wrapped

theorem Scope.Ok.attr {sc : Scope} (h : sc.Ok) {n : Name} (hn : n ∈ sc.stvars) : sc.attr n = (n, false) := by
  simp [Scope.attr, h.wr n hn]

/-- The environment of the deactorizer fits the scopes `B`. -/
structure Fits (sc : Scope) (env : Env) (B : List Name) : Prop where
  loc : ∀ n, n ∈ env.locals ↔ n ∈ sc.names ∧ n ∉ B
  wr : ∀ n, n ∈ env.locals → (n ∈ env.wrapped ↔ n ∈ sc.wrapped)
  st : env.stvars = sc.stvars
  sam : ∀ n ∈ env.sampled, n ∈ sc.stvars

theorem Fits.shadow {sc : Scope} {env : Env} {B : List Name} (h : Fits sc env B) (ps : List Name) :
    Fits sc (shadow ps env) (ps ++ B) where
  loc n := by
    simp only [Deact.shadow, List.mem_filter, decide_eq_true_eq, h.loc n, List.mem_append, not_or]
    tauto
  wr n hn := by
    simp only [Deact.shadow, List.mem_filter, decide_eq_true_eq] at hn ⊢
    rw [← h.wr n hn.1]
    tauto
  st := h.st
  sam := h.sam

mutual
/-- The state variables that are free in a lambda of the expression are in `S`. -/
def LamIn (sc : Scope) (S : List Name) : List Name → Ex → Prop
  | B, .app e as => LamIn sc S B e ∧ LamIns sc S B as
  | B, .tup _ es => LamIns sc S B es
  | B, .dict es => LamIns sc S B es
  | B, .lam ps e => (∀ n ∈ free e, n ∈ sc.stvars → n ∉ ps ++ B → n ∈ S) ∧ LamIn sc S (ps ++ B) e
  | _, _ => True
def LamIns (sc : Scope) (S : List Name) : List Name → List Ex → Prop
  | _, [] => True
  | B, e :: es => LamIn sc S B e ∧ LamIns sc S B es
end

mutual
theorem lamIn_of_free (sc : Scope) (S : List Name) : ∀ (e : Ex) (B : List Name),
    (∀ n ∈ free e, n ∈ sc.stvars → n ∉ B → n ∈ S) → LamIn sc S B e
  | .var n, B, h => trivial
  | .self a, B, h => trivial
  | .lit i, B, h => trivial
  | .app e as, B, h =>
    ⟨lamIn_of_free sc S e B fun n hn => h n (by simp [free, hn]),
     lamIns_of_free sc S as B fun n hn => h n (by simp [free, hn])⟩
  | .tup k es, B, h => lamIns_of_free sc S es B fun n hn => h n (by simp [free, hn])
  | .dict es, B, h => lamIns_of_free sc S es B fun n hn => h n (by simp [free, hn])
  | .lam ps e, B, h => by
    have : ∀ n ∈ free e, n ∈ sc.stvars → n ∉ ps ++ B → n ∈ S := by
      intro n hn hs hB
      simp only [List.mem_append, not_or] at hB
      exact h n (by simp [free, hn, hB.1]) hs hB.2
    exact ⟨this, lamIn_of_free sc S e (ps ++ B) this⟩
theorem lamIns_of_free (sc : Scope) (S : List Name) : ∀ (es : List Ex) (B : List Name),
    (∀ n ∈ frees es, n ∈ sc.stvars → n ∉ B → n ∈ S) → LamIns sc S B es
  | [], B, h => trivial
  | e :: es, B, h =>
    ⟨lamIn_of_free sc S e B fun n hn => h n (by simp [frees, hn]),
     lamIns_of_free sc S es B fun n hn => h n (by simp [frees, hn])⟩
end

/-- What holds of the frames, the kept values and the sampled names while an expression is evaluated. -/
structure Sim (sc : Scope) (env : Env) (B : List Name) (κ : Name → Option V) (ρ ρ' : Frame V) (fr : List Name) :
    Prop where
  agree : ∀ n, (n ∈ sc.stvars → n ∈ B) → ρ n = ρ' n
  kept : ∀ n ∈ fr, n ∈ sc.stvars → n ∉ B →
    (n ∈ env.sampled ∧ κ n = some (ρ' n)) ∨ (n ∉ env.sampled ∧ κ n = none)
  only : ∀ n, n ∉ sc.stvars → κ n = none

theorem Sim.mono {sc : Scope} {env : Env} {B : List Name} {κ : Name → Option V} {ρ ρ' : Frame V} {fr fr' : List Name}
    (h : Sim sc env B κ ρ ρ' fr) (hf : ∀ n ∈ fr', n ∈ fr) : Sim sc env B κ ρ ρ' fr' :=
  ⟨h.agree, fun n hn => h.kept n (hf n hn), h.only⟩

theorem look_eq (sc : Scope) (hsc : sc.Ok) {env : Env} {B : List Name} (hf : Fits sc env B)
    {κ : Name → Option V} {ρ ρ' : Frame V} {n : Name} (h : Sim sc env B κ ρ ρ' [n]) (I : Interp V) (σ : St V) :
    tev I (deE env (.var n)) ρ' σ = (look sc B κ ρ σ n, σ) := by
  rw [deE]
  by_cases hB : n ∈ B
  · have hr : ρ n = ρ' n := h.agree n fun _ => hB
    have hl : n ∉ env.locals := fun hl => ((hf.loc n).1 hl).2 hB
    rw [if_neg hl, ite_self, tev, look, if_pos hB, hr]
  · by_cases hs : n ∈ sc.stvars
    · have hn := hsc.st n hs
      rcases h.kept n (by simp) hs hB with ⟨h1, h2⟩ | ⟨h1, h2⟩
      · rw [if_pos h1, tev, look, if_neg hB, if_pos hn, h2]
        rfl
      · have hl : n ∈ env.locals := (hf.loc n).2 ⟨hn, hB⟩
        rw [if_neg h1, if_pos hl, tev, look, if_neg hB, if_pos hn, h2, Scope.attr]
        have := hf.wr n hl
        simp only [Option.getD_none, this]
    · have hS : n ∉ env.sampled := fun hS => hs (hf.sam n hS)
      rw [if_neg hS]
      by_cases hn : n ∈ sc.names
      · have hl : n ∈ env.locals := (hf.loc n).2 ⟨hn, hB⟩
        have := hf.wr n hl
        rw [if_pos hl, tev, look, if_neg hB, if_pos hn, h.only n hs, Scope.attr]
        simp only [Option.getD_none, this]
      · have hl : n ∉ env.locals := fun hl => hn ((hf.loc n).1 hl).1
        rw [if_neg hl, tev, look, if_neg hB, if_neg hn, h.agree n fun h => absurd h hs]

mutual
theorem ev_eq (I : Interp V) (sc : Scope) (hsc : sc.Ok) : ∀ (e : Ex) (env : Env) (B : List Name) (κ : Name → Option V)
    (ρ ρ' : Frame V) (σ : St V), Fits sc env B → Sim sc env B κ ρ ρ' (free e) → LamIn sc env.sampled B e →
    tev I (deE env e) ρ' σ = ev I sc e B κ ρ σ
  | .var n, env, B, κ, ρ, ρ', σ, hf, h, _ => by
    rw [look_eq sc hsc hf (h.mono (by simp [free])) I σ, ev]
  | .self a, env, B, κ, ρ, ρ', σ, hf, h, _ => by rw [deE, tev, ev]
  | .lit i, env, B, κ, ρ, ρ', σ, hf, h, _ => by rw [deE, tev, ev]
  | .app e as, env, B, κ, ρ, ρ', σ, hf, h, hl => by
    rw [deE, tev, ev, ev_eq I sc hsc e env B κ ρ ρ' σ hf (h.mono (by simp [free]; tauto)) hl.1]
    rw [evs_eq I sc hsc as env B κ ρ ρ' _ hf (h.mono (by simp [free]; tauto)) hl.2]
  | .tup k es, env, B, κ, ρ, ρ', σ, hf, h, hl => by
    rw [deE, tev, ev, evs_eq I sc hsc es env B κ ρ ρ' σ hf (h.mono (by simp [free])) hl]
  | .dict es, env, B, κ, ρ, ρ', σ, hf, h, hl => by
    rw [deE, tev, ev, evs_eq I sc hsc es env B κ ρ ρ' σ hf (h.mono (by simp [free])) hl]
  | .lam ps e, env, B, κ, ρ, ρ', σ, hf, h, hl => by
    rw [deE, tev, ev]
    congr 2
    funext vs σ'
    refine ev_eq I sc hsc e (shadow ps env) (ps ++ B) _ _ _ σ' (hf.shadow ps) ⟨?_, ?_, ?_⟩ hl.2
    · intro n hn
      refine bindAll_agree I ps vs ρ ρ' n fun hp => h.agree n fun hs => ?_
      rcases List.mem_append.1 (hn hs) with h' | h'
      · exact absurd h' hp
      · exact h'
    · intro n hn hs hB
      have hS : n ∈ env.sampled := hl.1 n hn hs hB
      simp only [List.mem_append, not_or] at hB
      left
      refine ⟨hS, ?_⟩
      rcases h.kept n (by simp [free, hn, hB.1]) hs hB.2 with ⟨_, h2⟩ | ⟨h1, _⟩
      · rw [capture, if_pos hs, h2, bindAll_other I ps vs ρ' n hB.1]; rfl
      · exact absurd hS h1
    · intro n hn
      rw [capture, if_neg hn]
theorem evs_eq (I : Interp V) (sc : Scope) (hsc : sc.Ok) : ∀ (es : List Ex) (env : Env) (B : List Name)
    (κ : Name → Option V) (ρ ρ' : Frame V) (σ : St V), Fits sc env B → Sim sc env B κ ρ ρ' (frees es) →
    LamIns sc env.sampled B es → tevs I (deL env es) ρ' σ = evs I sc es B κ ρ σ
  | [], env, B, κ, ρ, ρ', σ, hf, h, _ => by rw [deL, tevs, evs]
  | e :: es, env, B, κ, ρ, ρ', σ, hf, h, hl => by
    rw [deL, tevs, evs, ev_eq I sc hsc e env B κ ρ ρ' σ hf (h.mono (by simp [frees]; tauto)) hl.1]
    rw [evs_eq I sc hsc es env B κ ρ ρ' _ hf (h.mono (by simp [frees]; tauto)) hl.2]
end

/-! ## Expressions without calls -/

mutual
/-- There are no calls in the expression but in lambdas. -/
def Calm : Ex → Prop
  | .app _ _ => False
  | .tup _ es => Calms es
  | .dict es => Calms es
  | _ => True
def Calms : List Ex → Prop
  | [] => True
  | e :: es => Calm e ∧ Calms es
end

/-- In the state `σ` names have the same values whether `κ` or `κ'` is kept. -/
def SameNow (sc : Scope) (σ : St V) (κ κ' : Name → Option V) : Prop :=
  ∀ n, (κ n).getD (σ (sc.attr n)) = (κ' n).getD (σ (sc.attr n))

mutual
theorem ev_calm (I : Interp V) (sc : Scope) (B : List Name) (ρ : Frame V) (σ : St V) {κ κ' : Name → Option V}
    (h : SameNow sc σ κ κ') : ∀ (e : Ex), Calm e →
    ev I sc e B κ ρ σ = ev I sc e B κ' ρ σ ∧ (ev I sc e B κ ρ σ).2 = σ
  | .var n, _ => by
    rw [ev, ev]
    refine ⟨?_, rfl⟩
    unfold look
    rw [h n]
  | .self a, _ => by rw [ev, ev]; exact ⟨rfl, rfl⟩
  | .lit i, _ => by rw [ev, ev]; exact ⟨rfl, rfl⟩
  | .app e as, hc => hc.elim
  | .tup k es, hc => by
    obtain ⟨h1, h2⟩ := evs_calm I sc B ρ σ h es hc
    rw [ev, ev, h1]; rw [h1] at h2; exact ⟨rfl, h2⟩
  | .dict es, hc => by
    obtain ⟨h1, h2⟩ := evs_calm I sc B ρ σ h es hc
    rw [ev, ev, h1]; rw [h1] at h2; exact ⟨rfl, h2⟩
  | .lam ps e, _ => by
    rw [ev, ev]
    have : capture sc κ σ = capture sc κ' σ := by
      funext n
      unfold capture
      rw [h n]
    rw [this]
    exact ⟨rfl, rfl⟩
theorem evs_calm (I : Interp V) (sc : Scope) (B : List Name) (ρ : Frame V) (σ : St V) {κ κ' : Name → Option V}
    (h : SameNow sc σ κ κ') : ∀ (es : List Ex), Calms es →
    evs I sc es B κ ρ σ = evs I sc es B κ' ρ σ ∧ (evs I sc es B κ ρ σ).2 = σ
  | [], _ => by rw [evs, evs]; exact ⟨rfl, rfl⟩
  | e :: es, hc => by
    obtain ⟨h1, h2⟩ := ev_calm I sc B ρ σ h e hc.1
    obtain ⟨h3, h4⟩ := evs_calm I sc B ρ σ h es hc.2
    rw [evs, evs, h2, ← h1, h2, ← h3]
    exact ⟨rfl, h4⟩
end

/-- Calls only at the root. -/
def Simple : Ex → Prop
  | .app e as => Calm e ∧ Calms as
  | e => Calm e

theorem ev_simple (I : Interp V) (sc : Scope) (B : List Name) (ρ : Frame V) (σ : St V) {κ κ' : Name → Option V}
    (h : SameNow sc σ κ κ') : ∀ (e : Ex), Simple e → ev I sc e B κ ρ σ = ev I sc e B κ' ρ σ
  | .app e as, hc => by
    obtain ⟨h1, h2⟩ := ev_calm I sc B ρ σ h e hc.1
    obtain ⟨h3, h4⟩ := evs_calm I sc B ρ σ h as hc.2
    rw [ev, ev, h2, ← h1, h2, ← h3]
  | .var n, hc => (ev_calm I sc B ρ σ h _ hc).1
  | .self n, hc => (ev_calm I sc B ρ σ h _ hc).1
  | .lit n, hc => (ev_calm I sc B ρ σ h _ hc).1
  | .tup k n, hc => (ev_calm I sc B ρ σ h _ hc).1
  | .dict n, hc => (ev_calm I sc B ρ σ h _ hc).1
  | .lam n e, hc => (ev_calm I sc B ρ σ h _ hc).1

end Verif.Deact
