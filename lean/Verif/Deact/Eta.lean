import Verif.Deact.Methods
/-!
# C138: the normalizer replaces `lambda ..: e(..)` by `e`
-/
namespace Verif.Deact

variable {V : Type}

/-- The arguments are the parameters (Normalizer.hs:605-608 `eq1`), without starred ones. -/
def isParams : List Name → List Ex → Bool
  | [], [] => true
  | p :: ps, .var n :: as => p == n && isParams ps as
  | _, _ => false

/-- `eta` (Normalizer.hs:602-609) -/
def eta : Ex → Ex
  | .lam ps (.app e as) => if isParams ps as then e else .lam ps (.app e as)
  | e => e

/-- Making and calling the lambda does what making and calling the value of `e` does: making it has no
effect, and each call with as many arguments as parameters calls the value that `e` has when the lambda is made. -/
def Same (I : Interp V) (sc : Scope) (B : List Name) (κ : Name → Option V) (ρ : Frame V) (σ : St V)
    (ps : List Name) (body e : Ex) : Prop :=
  (ev I sc e B κ ρ σ).2 = σ ∧ ∀ vs σ', vs.length = ps.length →
    ev I sc body (ps ++ B) (capture sc κ σ) (bindAll I ps vs ρ) σ' = I.app (ev I sc e B κ ρ σ).1 vs σ'

mutual
/-- No calls, lambdas and attributes, no parameters, and no names of the actor but state variables. -/
def Settled (sc : Scope) (ps B : List Name) : Ex → Prop
  | .var n => n ∉ ps ∧ (n ∈ B ∨ n ∈ sc.stvars ∨ n ∉ sc.names)
  | .lit _ => True
  | .tup _ es => Settleds sc ps B es
  | .dict es => Settleds sc ps B es
  | _ => False
def Settleds (sc : Scope) (ps B : List Name) : List Ex → Prop
  | [] => True
  | e :: es => Settled sc ps B e ∧ Settleds sc ps B es
end

mutual
theorem settled_ev (I : Interp V) (sc : Scope) (hsc : sc.Ok) (ps B : List Name) (κ : Name → Option V) (ρ : Frame V) (σ σ' : St V) (vs : List V) :
    ∀ (e : Ex), Settled sc ps B e →
    (ev I sc e B κ ρ σ).2 = σ ∧
    ev I sc e (ps ++ B) (capture sc κ σ) (bindAll I ps vs ρ) σ' = ((ev I sc e B κ ρ σ).1, σ')
  | .var n, h => by
    rw [ev, ev]
    refine ⟨rfl, ?_⟩
    have hr : bindAll I ps vs ρ n = ρ n := bindAll_other I ps vs ρ n h.1
    unfold look
    congr 1
    by_cases hB : n ∈ B
    · rw [if_pos (List.mem_append_right _ hB), if_pos hB, hr]
    · rw [if_neg (by simp [h.1, hB]), if_neg hB]
      by_cases hs : n ∈ sc.stvars
      · rw [if_pos (hsc.st n hs), if_pos (hsc.st n hs), capture, if_pos hs]; rfl
      · have hn : n ∉ sc.names := (h.2.resolve_left hB).resolve_left hs
        rw [if_neg hn, if_neg hn, hr]
  | .lit i, _ => by rw [ev, ev]; exact ⟨rfl, rfl⟩
  | .tup k es, h => by
    obtain ⟨h1, h2⟩ := settleds_ev I sc hsc ps B κ ρ σ σ' vs es h
    rw [ev, ev, h2]
    exact ⟨h1, rfl⟩
  | .dict es, h => by
    obtain ⟨h1, h2⟩ := settleds_ev I sc hsc ps B κ ρ σ σ' vs es h
    rw [ev, ev, h2]
    exact ⟨h1, rfl⟩
  | .self _, h => h.elim
  | .app _ _, h => h.elim
  | .lam _ _, h => h.elim
theorem settleds_ev (I : Interp V) (sc : Scope) (hsc : sc.Ok) (ps B : List Name) (κ : Name → Option V) (ρ : Frame V) (σ σ' : St V) (vs : List V) :
    ∀ (es : List Ex), Settleds sc ps B es →
    (evs I sc es B κ ρ σ).2 = σ ∧
    evs I sc es (ps ++ B) (capture sc κ σ) (bindAll I ps vs ρ) σ' = ((evs I sc es B κ ρ σ).1, σ')
  | [], _ => by rw [evs, evs]; exact ⟨rfl, rfl⟩
  | e :: es, h => by
    obtain ⟨h1, h2⟩ := settled_ev I sc hsc ps B κ ρ σ σ' vs e h.1
    obtain ⟨h3, h4⟩ := settleds_ev I sc hsc ps B κ ρ σ σ' vs es h.2
    rw [evs, evs, h2, h1, h4]
    exact ⟨h3, rfl⟩
end

theorem params_ev (I : Interp V) (sc : Scope) (C : List Name) (κ : Name → Option V) : ∀ (ps : List Name) (as : List Ex)
    (vs : List V) (ρ : Frame V) (σ : St V), isParams ps as = true → ps.Nodup → (∀ p ∈ ps, p ∈ C) → vs.length = ps.length →
    evs I sc as C κ (bindAll I ps vs ρ) σ = (vs, σ)
  | [], [], [], ρ, σ, _, _, _, _ => by rw [evs]
  | [], [], _ :: _, _, _, _, _, _, h => by simp at h
  | [], _ :: _, _, _, _, h, _, _, _ => by simp [isParams] at h
  | _ :: _, [], _, _, _, h, _, _, _ => by simp [isParams] at h
  | p :: ps, a :: as, [], _, _, _, _, _, h => by simp at h
  | p :: ps, a :: as, v :: vs, ρ, σ, h, hn, hC, hl => by
    cases a with
    | var n =>
      simp only [isParams, Bool.and_eq_true, beq_iff_eq] at h
      obtain ⟨rfl, h⟩ := h
      rw [List.nodup_cons] at hn
      have hv : bindAll I (p :: ps) (v :: vs) ρ p = v := by
        rw [bindAll, bindAll_other I ps vs _ p hn.1, set, if_pos rfl]
      rw [evs, ev, look, if_pos (hC p (by simp)), hv]
      have := params_ev I sc C κ ps as vs (set ρ p v) σ h hn.2 (fun q hq => hC q (by simp [hq])) (by simpa using hl)
      rw [show bindAll I (p :: ps) (v :: vs) ρ = bindAll I ps vs (set ρ p v) from rfl, this]
    | self a => simp [isParams] at h
    | lit i => simp [isParams] at h
    | app e as => simp [isParams] at h
    | tup k es => simp [isParams] at h
    | dict es => simp [isParams] at h
    | lam qs e => simp [isParams] at h

/-- **C138.** The reduction keeps the meaning of a lambda if the function that it calls is settled: a name
that is no parameter, or made of such names without a call. -/
theorem C138_partial (I : Interp V) (sc : Scope) (hsc : sc.Ok) (B ps : List Name) (hn : ps.Nodup) (e : Ex) (as : List Ex)
    (h : isParams ps as = true) (hs : Settled sc ps B e)
    (κ : Name → Option V) (ρ : Frame V) (σ : St V) :
    eta (.lam ps (.app e as)) = e ∧ Same I sc B κ ρ σ ps (.app e as) e := by
  refine ⟨by rw [eta, if_pos h], (settled_ev I sc hsc ps B κ ρ σ σ [] e hs).1, fun vs σ' hl => ?_⟩
  rw [ev, (settled_ev I sc hsc ps B κ ρ σ σ' vs e hs).2,
    params_ev I sc (ps ++ B) _ ps as vs ρ σ' h hn (fun p hp => List.mem_append_left _ hp) hl]

/-- Other lambdas stay as they are. -/
theorem C138_other (ps : List Name) (e : Ex) (h : ∀ e' as, e = .app e' as → isParams ps as = false) :
    eta (.lam ps e) = .lam ps e := by
  unfold eta
  split
  · next hx =>
    cases hx
    rw [if_neg]
    simp [h _ _ rfl]
  · rfl

/-- `lambda d: g(d)` -/
example : [d].Nodup ∧ isParams [d] [.var d] = true ∧ Settled scA [d] [g] (.var g) := by
  refine ⟨by decide, rfl, ?_⟩
  simp [Settled, g, d]

/-- `lambda d: d.m(d)`: the result is `d.m`, with a `d` that nothing binds, or that is another variable. -/
theorem C138_refuted_parameter : eta (.lam [d] (.app (.tup 9 [.var d]) [.var d])) = .tup 9 [.var d] ∧
    d ∉ free (.lam [d] (.app (.tup 9 [.var d]) [.var d])) ∧
    d ∈ free (eta (.lam [d] (.app (.tup 9 [.var d]) [.var d]))) := ⟨rfl, by decide, by decide⟩

/-- With a variable `d` outside: the lambda calls the method of its argument, its reduct that of the variable. -/
theorem C138_refuted_capture : ∃ (ρ : Frame Val), ¬ Same I0 scA [d] (fun _ => none) ρ σ0 [d]
    (.app (.tup 9 [.var d]) [.var d]) (eta (.lam [d] (.app (.tup 9 [.var d]) [.var d]))) := by
  refine ⟨fun _ => .fn fun _ _ => 5, fun h => ?_⟩
  have := h.2 [.fn fun _ _ => 6] σ0 rfl
  have h1 : (Val.int 6) = Val.int 5 := congrArg Prod.fst this
  cases h1

/-- `lambda: inc()()`: the reduct calls `inc` when the lambda is made. -/
theorem C138_refuted_call : ¬ Same I0 scA [] (fun _ => none) G0 σ0 [] (.app (.app (.var inc) []) [])
    (eta (.lam [] (.app (.app (.var inc) []) []))) := by
  intro h
  have h1 : (Val.int 2) = Val.int 1 := congrFun h.1 (x, false)
  cases h1

end Verif.Deact
