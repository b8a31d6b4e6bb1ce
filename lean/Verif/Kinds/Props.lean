import Verif.Kinds.Infer
import Verif.Unify.Spec

/-! C88: unification of kinds. C89: kind inference of types. -/
namespace Verif.Kinds
open Verif.Ty

/-- All values of the same kind under a solution that takes every variable to what
substitution makes of it. -/
theorem nf_solution {s : KSubst} (hs : Acyc s) :
    ∃ θ, Sat θ s ∧ ∀ k, Atom k → ∃ N, ∀ n, N ≤ n → ksubst n s k = some (inst θ k) := by
  have hv : ∀ v, ∃ r, ∀ n, 2 * s.length + 2 ≤ n → ksubst n s (.kuni v) = some r := by
    intro v
    obtain ⟨r, _, h, _⟩ := atom_nf hs (k := .kuni v) trivial
    exact ⟨r, h⟩
  choose θ hθ using hv
  have hk : ∀ k, Atom k → ∀ n, 2 * s.length + 2 ≤ n → ksubst n s k = some (inst θ k) := by
    intro k hk n hn
    by_cases hu : ∃ v, k = .kuni v
    · obtain ⟨v, rfl⟩ := hu
      exact hθ v n hn
    · have hu' : ∀ v, k ≠ .kuni v := fun v e => hu ⟨v, e⟩
      obtain ⟨n, rfl⟩ : ∃ k, n = k + 1 := ⟨n - 1, by omega⟩
      rw [ksubst_const hk hu', inst_const hk hu']
  refine ⟨θ, ?_, fun k h => ⟨_, hk k h⟩⟩
  intro p hp
  obtain ⟨a, b, rfl⟩ := List.append_of_mem hp
  have hd : p.1 ∉ dom a := by
    clear hk hθ
    intro h
    induction a with
    | nil => simp [dom] at h
    | cons q a ih =>
      cases hs with
      | cons h1 h2 _ _ _ =>
        simp only [dom, List.map_cons, List.mem_cons] at h
        rcases h with h | h
        · apply h2; rw [← h]; simp [dom]
        · exact ih h1 (by simp) h
  obtain ⟨v, k⟩ := p
  have e1 := hθ v (2 * (a ++ (v, k) :: b).length + 4) (by omega)
  have e2 : ksubst (2 * (a ++ (v, k) :: b).length + 4) (a ++ (v, k) :: b) (.kuni v) =
      ksubst (2 * (a ++ (v, k) :: b).length + 2) (a ++ (v, k) :: b) k := by
    rw [ksubst, look_mid hd, substVar]
  have hka : Atom k := acyc_atom hs (v, k) (by simp)
  rw [e2, hk k hka _ (Nat.le_refl _)] at e1
  exact (Option.some.inj e1).symm

theorem nf_sig {s : KSubst} (hs : Acyc s) :
    ∃ θ, Sat θ s ∧ ∀ k, Atom k ∨ Sig k → ∃ N, ∀ n, N ≤ n → ksubst n s k = some (inst θ k) := by
  obtain ⟨θ, h1, h2⟩ := nf_solution hs
  refine ⟨θ, h1, ?_⟩
  have hl : ∀ ks : List Kind, (∀ k ∈ ks, Atom k) → ∃ N, ∀ n, N ≤ n →
      ksubsts n s ks = some (insts θ ks) := by
    intro ks
    induction ks with
    | nil =>
      intro _
      refine ⟨1, fun n hn => ?_⟩
      obtain ⟨n, rfl⟩ : ∃ k, n = k + 1 := ⟨n - 1, by omega⟩
      simp only [ksubsts, insts]
    | cons k ks ih =>
      intro h
      obtain ⟨N, hN⟩ := h2 k (h k (by simp))
      obtain ⟨M, hM⟩ := ih (fun x hx => h x (by simp [hx]))
      refine ⟨max N M + 1, fun n hn => ?_⟩
      obtain ⟨n, rfl⟩ : ∃ k, n = k + 1 := ⟨n - 1, by omega⟩
      simp only [ksubsts, insts]
      rw [hN n (by omega), hM n (by omega)]
      simp only [substCons]
  intro k hk
  rcases hk with hk | hk
  · exact h2 k hk
  · by_cases hf : ∃ ks r, k = .kfun ks r
    · obtain ⟨ks, r, rfl⟩ := hf
      obtain ⟨N, hN⟩ := h2 r hk.2
      obtain ⟨M, hM⟩ := hl ks hk.1
      refine ⟨max N M + 1, fun n hn => ?_⟩
      obtain ⟨n, rfl⟩ : ∃ k, n = k + 1 := ⟨n - 1, by omega⟩
      simp only [ksubst, inst]
      rw [hN n (by omega), hM n (by omega)]
      simp only [substFun]
    · refine h2 k ?_
      cases k <;> first | trivial | exact absurd ⟨_, _, rfl⟩ hf

/-- **C88.** Unification of kinds, as the compiler uses it: of two kinds that are no
functions, or of two kinds of constructors. It ends. If it succeeds, substitution by the new
bindings gives the same kind for both; the bindings are again without cycles; old bindings
are kept; and the values that satisfy the new bindings are exactly those that satisfy the old
ones and make both kinds equal (so the result is most general). If it fails, no values make
them equal. -/
theorem C88_unify {s : KSubst} (hs : Acyc s) {k1 k2 : Kind}
    (hk : (Atom k1 ∧ Atom k2) ∨ (Sig k1 ∧ Sig k2)) :
    (∃ N s' r, (∀ n, N ≤ n → kunify n s k1 k2 = some (.ok s') ∧ ksubst n s' k1 = some r ∧
        ksubst n s' k2 = some r) ∧ Acyc s' ∧ (∃ d, s' = d ++ s) ∧
      ∀ θ, Sat θ s' ↔ Sat θ s ∧ inst θ k1 = inst θ k2) ∨
    (∃ N, ∀ n, N ≤ n → kunify n s k1 k2 = some .err) ∧
      ∀ θ, Sat θ s → inst θ k1 ≠ inst θ k2 := by
  have hu : ∃ N o, (∀ n, N ≤ n → kunify n s k1 k2 = some o) ∧ Good s [(k1, k2)] o := by
    rcases hk with ⟨h1, h2⟩ | ⟨h1, h2⟩
    · obtain ⟨o, h⟩ := kunify_atom hs h1 h2
      exact ⟨_, o, h⟩
    · exact kunify_sig hs h1 h2
  obtain ⟨N, o, hN, hg⟩ := hu
  cases o with
  | err =>
    refine .inr ⟨⟨N, hN⟩, ?_⟩
    intro θ hθ e
    exact hg θ hθ (by simpa using e)
  | ok s' =>
    obtain ⟨g1, g2, g3, _⟩ := hg
    obtain ⟨θ, t1, t2⟩ := nf_sig g1
    obtain ⟨N1, h1⟩ := t2 k1 (by rcases hk with h | h; exacts [.inl h.1, .inr h.1])
    obtain ⟨N2, h2⟩ := t2 k2 (by rcases hk with h | h; exacts [.inl h.2, .inr h.2])
    have e : inst θ k1 = inst θ k2 := ((g3 θ).mp t1).2 (k1, k2) (by simp)
    refine .inl ⟨max N (max N1 N2), s', inst θ k1, ?_, g1, g2, ?_⟩
    · intro n hn
      exact ⟨hN n (by omega), h1 n (by omega), by rw [e]; exact h2 n (by omega)⟩
    · intro θ
      rw [g3]
      simp

/-- C88 does not hold for other kinds, as the check for cycles does nothing (`kfree` gives no
variables): a variable is bound to a function of itself, and substitution does not end. -/
theorem C88_refuted_cycle :
    (∀ n, kunify (n + 3) [] (.kuni 0) (.kfun [.kuni 0] .ktype) =
      some (.ok [(0, .kfun [.kuni 0] .ktype)]) ∨ n < 3) ∧
    ∀ n, ksubst n [(0, .kfun [.kuni 0] .ktype)] (.kuni 0) = none := by
  constructor
  · intro n
    by_cases h : n < 3
    · exact .inr h
    · left
      obtain ⟨m, rfl⟩ : ∃ m, n = m + 3 := ⟨n - 3, by omega⟩
      rfl
  · have h : ∀ m n, n ≤ m → ksubst n [(0, .kfun [.kuni 0] .ktype)] (.kuni 0) = none := by
      intro m
      induction m with
      | zero => intro n hn; rw [Nat.le_zero.mp hn]; rfl
      | succ m ih =>
        intro n hn
        match n, hn with
        | 0, _ => rfl
        | 1, _ => rfl
        | 2, _ => rfl
        | 3, _ => rfl
        | n + 4, hn =>
          have e : ksubst (n + 4) [(0, .kfun [.kuni 0] .ktype)] (.kuni 0) =
              substFun (substCons (ksubst n [(0, .kfun [.kuni 0] .ktype)] (.kuni 0))
                (ksubsts n [(0, .kfun [.kuni 0] .ktype)] []))
                (ksubst (n + 1) [(0, .kfun [.kuni 0] .ktype)] .ktype) := rfl
          rw [e, ih n (by omega)]
          rfl
    intro n
    exact h n n (Nat.le_refl _)

/-- **C89.** Kind inference of types ends. If it succeeds with a kind `k`, then under all
values that satisfy the bindings the type has the kind `k`; and if the type has some kind
under values for the variables used so far that satisfy the bindings so far, then these
values extend to such that satisfy the new bindings and give `k` that kind. If it fails, the
type has no kind under any such values. -/
theorem C89_infer {E : KEnv} {st : KSt} (ho : Ok E st) (t : Ty) :
    (∃ N k t' st', (∀ n, N ≤ n → kinfer n E st t = some (.ok (k, t', st'))) ∧ Ok E st' ∧ Atom k ∧
      (∀ θ, Sat θ st'.s → Sat θ st.s ∧ Has E θ t (inst θ k)) ∧
      ∀ θ κ, Sat θ st.s → Has E θ t κ →
        ∃ θ', (∀ v, v < st.next → θ v = θ' v) ∧ Sat θ' st'.s ∧ inst θ' k = κ) ∨
    (∃ N, ∀ n, N ≤ n → kinfer n E st t = some .err) ∧
      ∀ θ κ, Sat θ st.s → ¬ Has E θ t κ := by
  obtain ⟨o, hN, hI⟩ := infer_ok t ho
  cases o with
  | err => exact .inr ⟨hN, hI⟩
  | ok r =>
    obtain ⟨k, t', st'⟩ := r
    have ha := infer_atom t ho hN
    obtain ⟨i1, _, _, _, i5, i6⟩ := hI
    obtain ⟨N, hN⟩ := hN
    exact .inl ⟨N, k, t', st', hN, i1, ha, i5, i6⟩

/-! ### The type that is returned -/

theorem expect_type {n : Nat} {k0 : Kind} {r : Option (KOut (Kind × Ty × KSt))} {a : Ty × KSt}
    (h : expect n k0 r = some (.ok a)) {u : Ty}
    (hu : ∀ {k t' st'}, r = some (.ok (k, t', st')) → t' = u) : a.1 = u := by
  simp only [expect] at h
  obtain ⟨⟨k, t, st⟩, h1, h2⟩ := kbind_ok h
  obtain ⟨b, _, h3⟩ := kbind_ok h2
  cases h3
  exact hu h1

theorem hasL_length {E : KEnv} {θ : Nat → Kind} : ∀ {ts κs}, HasL E θ ts κs →
    ts.length = κs.length
  | _, _, .nil => rfl
  | _, _, .cons _ h => by simp [hasL_length h]

mutual
theorem kinfer_type {E : KEnv} {n : Nat} : ∀ (t : Ty) {st : KSt} {k t' st'},
    kinfer n E st t = some (.ok (k, t', st')) → t' = Ty.vsubst [] t
  | .wild, st, k, t', st', h => by simp [kinfer] at h
  | .var v, st, k, t', st', h => by
      simp only [kinfer, kinferVar] at h
      cases e : E.tv v with
      | none => rw [e] at h; simp at h
      | some k0 =>
        rw [e] at h
        obtain ⟨a, _, h2⟩ := kbind_ok h
        cases h2
        rfl
  | .uni u, st, k, t', st', h => by
      simp only [kinfer, kinferUni] at h
      cases h
      rfl
  | .con c [], st, k, t', st', h => by
      simp only [kinfer, give, expect] at h
      obtain ⟨a, h1, h2⟩ := kbind_ok h
      cases h2
      obtain ⟨⟨k1, t1, st1⟩, h3, h4⟩ := kbind_ok h1
      obtain ⟨b, _, h5⟩ := kbind_ok h4
      cases h5
      simp only [conKind] at h3
      cases e : E.con c with
      | none => rw [e] at h3; simp at h3
      | some k0 => rw [e] at h3; cases h3; rfl
  | .con c (t :: ts), st, k, t', st', h => by
      simp only [kinfer, give, expect] at h
      obtain ⟨a, h1, h2⟩ := kbind_ok h
      cases h2
      obtain ⟨⟨k1, t1, st1⟩, h3, h4⟩ := kbind_ok h1
      obtain ⟨b, _, h5⟩ := kbind_ok h4
      cases h5
      simp only [conApp] at h3
      cases e : E.con c with
      | none => rw [e] at h3; simp at h3
      | some k0 =>
        rw [e] at h3
        simp only [kinferApp] at h3
        obtain ⟨⟨ks, us, st2⟩, h6, h7⟩ := kbind_ok h3
        obtain ⟨st3, _, h8⟩ := kbind_ok h7
        simp only [subst2] at h8
        cases e' : ksubst n st3.s (.kuni st2.next) with
        | none => rw [e'] at h8; simp at h8
        | some k2 =>
          rw [e'] at h8
          cases h8
          have := kinfers_type (t :: ts) h6
          rw [this]
          simp only [Ty.vsubst, id]
  | .fn x p q t, st, k, t', st', h => by
      simp only [kinfer] at h
      obtain ⟨a, h1, h⟩ := kbind_ok h
      obtain ⟨b, h2, h⟩ := kbind_ok h
      obtain ⟨c, h3, h⟩ := kbind_ok h
      obtain ⟨d, h4, h⟩ := kbind_ok h
      cases h
      simp only [kfx] at h1
      by_cases e : isVar x = true
      · rw [if_pos e] at h1; simp at h1
      · rw [if_neg e] at h1
        simp only [Ty.vsubst]
        rw [expect_type h1 (fun h => kinfer_type x h), expect_type h2 (fun h => kinfer_type p h),
          expect_type h3 (fun h => kinfer_type q h), expect_type h4 (fun h => kinfer_type t h)]
  | .tup p q, st, k, t', st', h => by
      simp only [kinfer] at h
      obtain ⟨a, h1, h⟩ := kbind_ok h
      obtain ⟨b, h2, h⟩ := kbind_ok h
      cases h
      simp only [Ty.vsubst]
      rw [expect_type h1 (fun h => kinfer_type p h), expect_type h2 (fun h => kinfer_type q h)]
  | .opt t, st, k, t', st', h => by
      simp only [kinfer, kinferOpt] at h
      by_cases e : isOpt t = true
      · rw [if_pos e] at h
        have := kinfer_type t h
        rw [this]
        obtain ⟨u, rfl⟩ := isOpt_iff.mp e
        simp only [Ty.vsubst]
        rw [Ty.optOf_idem]
      · rw [if_neg e] at h
        simp only [give] at h
        obtain ⟨a, h1, h2⟩ := kbind_ok h
        cases h2
        simp only [Ty.vsubst]
        rw [expect_type h1 (fun h => kinfer_type t h), Ty.optOf_of_not]
        intro ho
        apply e
        cases t with
        | opt u => rfl
        | var v => simp [Ty.vsubst, Ty.substVar, Ty.look, Ty.IsOpt] at ho
        | _ => simp [Ty.vsubst, Ty.IsOpt] at ho
  | .none_, st, k, t', st', h => by simp only [kinfer] at h; cases h; rfl
  | .nil q, st, k, t', st', h => by simp only [kinfer] at h; cases h; rfl
  | .row q m t r, st, k, t', st', h => by
      simp only [kinfer] at h
      obtain ⟨a, h1, h⟩ := kbind_ok h
      obtain ⟨b, h2, h⟩ := kbind_ok h
      cases h
      simp only [Ty.vsubst]
      rw [expect_type h1 (fun h => kinfer_type t h), expect_type h2 (fun h => kinfer_type r h)]
  | .star q r, st, k, t', st', h => by
      simp only [kinfer, give] at h
      obtain ⟨a, h1, h⟩ := kbind_ok h
      cases h
      simp only [Ty.vsubst]
      rw [expect_type h1 (fun h => kinfer_type r h)]
  | .fx x, st, k, t', st', h => by simp only [kinfer] at h; cases h; rfl
theorem kinfers_type {E : KEnv} {n : Nat} : ∀ (ts : List Ty) {st : KSt} {ks ts' st'},
    kinfers n E st ts = some (.ok (ks, ts', st')) → ts' = Ty.vsubsts [] ts
  | [], st, ks, ts', st', h => by simp only [kinfers] at h; cases h; rfl
  | t :: ts, st, ks, ts', st', h => by
      simp only [kinfers] at h
      obtain ⟨a, h1, h⟩ := kbind_ok h
      obtain ⟨b, h2, h⟩ := kbind_ok h
      cases h
      simp only [Ty.vsubsts]
      rw [kinfer_type t h1, kinfers_type ts h2]
end

mutual
theorem norm_flat : ∀ t : Ty, Ty.Norm (Ty.vsubst [] t)
  | .uni _ => by simp [Ty.vsubst, Ty.Norm]
  | .var _ => by simp [Ty.vsubst, Ty.substVar, Ty.look, Ty.Norm]
  | .con _ ts => by simpa [Ty.vsubst, Ty.Norm] using norms_flat ts
  | .fn a b c d => by
      simpa [Ty.vsubst, Ty.Norm] using ⟨norm_flat a, norm_flat b, norm_flat c, norm_flat d⟩
  | .tup a b => by simpa [Ty.vsubst, Ty.Norm] using ⟨norm_flat a, norm_flat b⟩
  | .opt t => by simpa [Ty.vsubst] using Ty.norm_optOf (norm_flat t)
  | .none_ => by simp [Ty.vsubst, Ty.Norm]
  | .wild => by simp [Ty.vsubst, Ty.Norm]
  | .nil _ => by simp [Ty.vsubst, Ty.Norm]
  | .row _ _ a b => by simpa [Ty.vsubst, Ty.Norm] using ⟨norm_flat a, norm_flat b⟩
  | .star _ a => by simpa [Ty.vsubst, Ty.Norm] using norm_flat a
  | .fx _ => by simp [Ty.vsubst, Ty.Norm]
theorem norms_flat : ∀ ts : List Ty, Ty.Norms (Ty.vsubsts [] ts)
  | [] => by simp [Ty.vsubsts, Ty.Norms]
  | t :: ts => by simpa [Ty.vsubsts, Ty.Norms] using ⟨norm_flat t, norms_flat ts⟩
end

mutual
theorem has_clean {E : KEnv} {θ : Nat → Kind} {ar : Nat → Nat}
    (har : ∀ c k, E.con c = some k → (∀ ks r, k = .kfun ks r → ar c = ks.length) ∧
      ((∀ ks r, k ≠ .kfun ks r) → ar c = 0)) (hE : ∀ c k, E.con c = some k → Sig k) :
    ∀ {t κ}, Has E θ t κ → Unify.Clean ar (Ty.vsubst [] t)
  | _, _, .var _ _ => by simp [Ty.vsubst, Ty.substVar, Ty.look, Unify.Clean]
  | _, _, .uni _ => by simp [Ty.vsubst, Unify.Clean]
  | _, _, .con0 (c := c) (k := k) e h => by
      simp only [Ty.vsubst, Ty.vsubsts, Unify.Clean, Unify.Cleans, List.length_nil, and_true]
      refine ((har c k e).2 ?_).symm
      rintro ks r rfl
      simp [inst] at h
  | _, _, .con (c := c) (k := k) e hl h => by
      simp only [Ty.vsubst, Unify.Clean]
      refine ⟨?_, hasL_clean har hE hl⟩
      have hs := hE c k e
      cases k with
      | kfun ks r =>
        simp only [inst, Kind.kfun.injEq] at h
        rw [(har c _ e).1 ks r rfl, Ty.vsubsts_eq_map, List.length_map, hasL_length hl, ← h.1,
          insts_eq_map, List.length_map]
      | kuni v => exact absurd hs id
      | _ => simp [inst] at h
  | _, _, .fn _ h1 h2 h3 h4 => by
      simp only [Ty.vsubst, Unify.Clean]
      exact ⟨has_clean har hE h1, has_clean har hE h2, has_clean har hE h3, has_clean har hE h4⟩
  | _, _, .tup h1 h2 => by
      simp only [Ty.vsubst, Unify.Clean]
      exact ⟨has_clean har hE h1, has_clean har hE h2⟩
  | _, _, .opt h1 => by
      have := has_clean har hE h1
      simp only [Ty.vsubst]
      revert this
      generalize Ty.vsubst [] _ = u
      intro h
      cases u <;> simpa [Ty.optOf, Unify.Clean] using h
  | _, _, .none_ => by simp [Ty.vsubst, Unify.Clean]
  | _, _, .nil => by simp [Ty.vsubst, Unify.Clean]
  | _, _, .row h1 h2 => by
      simp only [Ty.vsubst, Unify.Clean]
      exact ⟨has_clean har hE h1, has_clean har hE h2⟩
  | _, _, .star h1 => by
      simp only [Ty.vsubst, Unify.Clean]
      exact has_clean har hE h1
  | _, _, .fx => by simp [Ty.vsubst, Unify.Clean]
theorem hasL_clean {E : KEnv} {θ : Nat → Kind} {ar : Nat → Nat}
    (har : ∀ c k, E.con c = some k → (∀ ks r, k = .kfun ks r → ar c = ks.length) ∧
      ((∀ ks r, k ≠ .kfun ks r) → ar c = 0)) (hE : ∀ c k, E.con c = some k → Sig k) :
    ∀ {ts κs}, HasL E θ ts κs → Unify.Cleans ar (Ty.vsubsts [] ts)
  | _, _, .nil => by simp [Ty.vsubsts, Unify.Cleans]
  | _, _, .cons h1 h2 => by
      simp only [Ty.vsubsts, Unify.Cleans]
      exact ⟨has_clean har hE h1, hasL_clean har hE h2⟩
end

/-- **C89**, the type returned: it has no wildcards, every constructor has as many arguments
as it demands, and no option of an option is left. These are the conditions under which
unification is sound (C83). -/
theorem C89_clean {E : KEnv} {st : KSt} (ho : Ok E st) {n : Nat} {t t' : Ty} {k : Kind}
    {st' : KSt}
    (hn : ∀ m, n ≤ m → kinfer m E st t = some (.ok (k, t', st'))) {ar : Nat → Nat}
    (har : ∀ c k, E.con c = some k → (∀ ks r, k = .kfun ks r → ar c = ks.length) ∧
      ((∀ ks r, k ≠ .kfun ks r) → ar c = 0)) :
    Unify.Clean ar t' ∧ Ty.Norm t' := by
  have e := kinfer_type t (hn n (Nat.le_refl _))
  subst e
  refine ⟨?_, norm_flat t⟩
  rcases C89_infer ho t with ⟨N, k1, t1, st1, hN, o1, _, h5, _⟩ | ⟨⟨N, hN⟩, _⟩
  · have e := (hn (max n N) (by omega)).symm.trans (hN (max n N) (by omega))
    obtain ⟨θ, hθ, _⟩ := nf_solution o1.acyc
    exact has_clean har (fun c k e => (ho.con c k e).1) (h5 θ hθ).2
  · have e := (hn (max n N) (by omega)).symm.trans (hN (max n N) (by omega))
    simp at e

/-! ### The hypotheses can be met -/

/-- `int`, `dict` with two arguments, a class whose parameter's kind is not known yet (the
variable 0), and the type variable `A` of that kind. -/
def exEnv : KEnv where
  con c := if c = 0 then some .ktype else if c = 1 then some (.kfun [.ktype, .ktype] .ktype)
    else if c = 2 then some (.kfun [.kuni 0] .ktype) else none
  tv v := if v = 0 then some (.kuni 0) else none
  vk _ := none
  uk _ := none

example : Ok exEnv ⟨[], 1⟩ := by
  have hb : ∀ k : Kind, (∀ v, k = .kuni v → v < 1) →
      (∀ ks r, k = .kfun ks r → ∀ a ∈ r :: ks, ∀ v, a = .kuni v → v < 1) → Below 1 k :=
    fun k h1 h2 => ⟨h1, h2⟩
  refine ⟨?_, ?_, ?_, ?_, .nil, by simp⟩
  · intro c k e
    simp only [exEnv] at e
    by_cases h0 : c = 0
    · rw [if_pos h0] at e; cases e
      exact ⟨trivial, hb _ (by simp) (by simp)⟩
    · rw [if_neg h0] at e
      by_cases h1 : c = 1
      · rw [if_pos h1] at e; cases e
        refine ⟨by simp [Sig, Atom], hb _ (by simp) ?_⟩
        rintro ks r ⟨⟩ a ha v rfl
        simp at ha
      · rw [if_neg h1] at e
        by_cases h2 : c = 2
        · rw [if_pos h2] at e; cases e
          refine ⟨by simp [Sig, Atom], hb _ (by simp) ?_⟩
          rintro ks r ⟨⟩ a ha v rfl
          simp at ha; omega
        · rw [if_neg h2] at e; cases e
  · intro v k e
    simp only [exEnv] at e
    by_cases h0 : v = 0
    · rw [if_pos h0] at e; cases e
      exact ⟨trivial, below_uni (m := 1) (v := 0) (by omega)⟩
    · rw [if_neg h0] at e; cases e
  · intro v k e; simp [exEnv] at e
  · intro v k e; simp [exEnv] at e

/-- `dict[A, ?int]` has kind `KType` and fixes the kind of `A`; `dict[int]` has none. -/
example : kinfer 30 exEnv ⟨[], 1⟩ (.con 1 [.var 0, .opt (.opt (.con 0 []))]) =
      some (.ok (.ktype, .con 1 [.var 0, .opt (.con 0 [])],
        ⟨[(2, .ktype), (0, .ktype), (1, .kuni 0)], 3⟩)) ∧
    kinfer 30 exEnv ⟨[], 1⟩ (.con 1 [.con 0 []]) = some .err := by
  constructor <;> rfl

example : Acyc [(2, .kuni 0), (1, .ktype)] ∧ Atom (.kuni 2) ∧ Sig (.kfun [.kuni 0, .ktype] .kproto) := by
  refine ⟨.cons (.cons .nil (by simp [dom]) trivial (by simp) (by simp [dom])) (by simp [dom])
    trivial (by simp) (by simp [dom]), trivial, by simp [Sig, Atom]⟩

end Verif.Kinds
