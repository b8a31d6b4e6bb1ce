import Verif.Kinds.Spec
import Mathlib.Tactic.ByContra

/-! Substitution and unification of kinds. -/
namespace Verif.Kinds
open Verif.Ty

mutual
theorem kfree_nil : ∀ k : Kind, kfree k = []
  | .kuni _ => by simp [kfree]
  | .kfun ks k => by simp [kfree, kfree_nil k, kfrees_nil ks]
  | .ktype | .kproto | .kfx | .prow | .krow | .kwild => by simp [kfree]
theorem kfrees_nil : ∀ ks : List Kind, kfrees ks = []
  | [] => by simp [kfrees]
  | k :: ks => by simp [kfrees, kfree_nil k, kfrees_nil ks]
end

theorem bindVar_ok (s : KSubst) (v : Nat) (k : Kind) : bindVar s v k = .ok ((v, k) :: s) := by
  simp only [bindVar, kfree_nil]; simp

theorem look_none {v : Nat} {s : KSubst} (h : v ∉ dom s) : look v s = none := by
  induction s with
  | nil => rfl
  | cons p s ih =>
    simp only [dom, List.map_cons, List.mem_cons, not_or] at h
    simp only [look]
    rw [if_neg h.1]
    exact ih h.2

theorem look_mid {v : Nat} {k : Kind} {s1 s2 : KSubst} (h : v ∉ dom s1) :
    look v (s1 ++ (v, k) :: s2) = some k := by
  induction s1 with
  | nil => simp [look]
  | cons p s ih =>
    simp only [dom, List.map_cons, List.mem_cons, not_or] at h
    simp only [List.cons_append, look]
    rw [if_neg h.1]
    exact ih h.2

theorem dom_append (a b : KSubst) : dom (a ++ b) = dom a ++ dom b := by simp [dom]

theorem acyc_drop {s1 s2 : KSubst} (h : Acyc (s1 ++ s2)) : Acyc s2 := by
  induction s1 with
  | nil => exact h
  | cons p s ih => cases h with | cons h _ _ _ _ => exact ih h

/-- A bound variable, and where it is bound. -/
theorem dom_split {v : Nat} {s : KSubst} (h : v ∈ dom s) :
    ∃ s1 k s2, s = s1 ++ (v, k) :: s2 ∧ v ∉ dom s1 := by
  induction s with
  | nil => simp [dom] at h
  | cons p s ih =>
    by_cases e : v = p.1
    · exact ⟨[], p.2, s, by subst e; rfl, by simp [dom]⟩
    · simp only [dom, List.map_cons, List.mem_cons, e, false_or] at h
      obtain ⟨s1, k, s2, rfl, h1⟩ := ih h
      refine ⟨p :: s1, k, s2, rfl, ?_⟩
      simp only [dom, List.map_cons, List.mem_cons, not_or]
      exact ⟨e, h1⟩

/-- A kind on which substitution has no effect any more. -/
def Free (s : KSubst) (k : Kind) : Prop := Atom k ∧ ∀ v, k = .kuni v → v ∉ dom s

/-- The result of substitution, for all large numbers of steps. -/
def Nf (s : KSubst) (k r : Kind) : Prop := ∃ N, ∀ n, N ≤ n → ksubst n s k = some r

theorem sat_look {θ : Nat → Kind} {s : KSubst} (h : Sat θ s) {v : Nat} {k : Kind}
    (hk : look v s = some k) : θ v = inst θ k := by
  induction s with
  | nil => simp [look] at hk
  | cons p s ih =>
    simp only [look] at hk
    by_cases e : v = p.1
    · rw [if_pos e] at hk
      cases hk
      rw [e]; exact h p (by simp)
    · rw [if_neg e] at hk
      exact ih (fun q hq => h q (by simp [hq])) hk

theorem ksubst_const {n : Nat} {s : KSubst} {k : Kind} (hk : Atom k) (hu : ∀ v, k ≠ .kuni v) :
    ksubst (n + 1) s k = some k := by
  cases k <;> first | rfl | exact absurd rfl (hu _) | exact absurd hk id

theorem atom_nf_aux (m : Nat) : ∀ (s1 s2 : KSubst), s1.length ≤ m → Acyc (s1 ++ s2) →
    ∀ k, Atom k → (∀ v, k = .kuni v → v ∉ dom s2) →
    ∃ r, Free (s1 ++ s2) r ∧ (∀ n, 2 * m + 2 ≤ n → ksubst n (s1 ++ s2) k = some r) ∧
      (∀ θ, Sat θ (s1 ++ s2) → inst θ k = inst θ r) ∧
      ∀ b, Below b k → (∀ p ∈ s1 ++ s2, Below b p.2) → Below b r := by
  induction m with
  | zero =>
    intro s1 s2 hl hs k hk hv
    have e : s1 = [] := List.length_eq_zero_iff.mp (Nat.le_zero.mp hl)
    subst e
    refine ⟨k, ⟨hk, hv⟩, ?_, fun _ _ => rfl, fun b hb _ => hb⟩
    intro n hn
    obtain ⟨n, rfl⟩ : ∃ k, n = k + 1 := ⟨n - 1, by omega⟩
    by_cases hu : ∃ v, k = .kuni v
    · obtain ⟨v, rfl⟩ := hu
      have : v ∉ dom ([] ++ s2) := hv v rfl
      simp only [ksubst, look_none this, substVar]
    · exact ksubst_const hk (fun v e => hu ⟨v, e⟩)
  | succ m ih =>
    intro s1 s2 hl hs k hk hv
    by_cases hu : ∃ v, k = .kuni v
    · obtain ⟨v, rfl⟩ := hu
      by_cases hd : v ∈ dom s1
      · obtain ⟨a, b, c, rfl, ha⟩ := dom_split hd
        have hs' : Acyc (a ++ ((v, b) :: c ++ s2)) := by
          simpa [List.append_assoc] using hs
        have hcons := acyc_drop hs'
        rw [List.cons_append] at hcons
        cases hcons with
        | cons h1 h2 h3 h4 h5 =>
          obtain ⟨r, hr1, hr2, hr3, hr4⟩ := ih a ((v, b) :: c ++ s2)
            (by simp only [List.length_append, List.length_cons] at hl; omega) hs' b h3
            (by
              rintro w rfl hw
              simp only [List.cons_append, dom, List.map_cons, List.mem_cons] at hw
              rcases hw with rfl | hw
              · exact h4 rfl
              · exact h5 _ hw rfl)
          have e : a ++ (v, b) :: c ++ s2 = a ++ ((v, b) :: c ++ s2) := by simp
          have hlk : look v (a ++ ((v, b) :: c ++ s2)) = some b := by
            rw [List.cons_append]; exact look_mid ha
          rw [e]
          refine ⟨r, hr1, ?_, ?_, ?_⟩
          · intro n hn
            obtain ⟨n, rfl⟩ : ∃ k, n = k + 2 := ⟨n - 2, by omega⟩
            have e1 : ksubst (n + 2) (a ++ ((v, b) :: c ++ s2)) (.kuni v) = substVar (n + 1)
                (a ++ ((v, b) :: c ++ s2)) v (look v (a ++ ((v, b) :: c ++ s2))) := by
              rw [ksubst]
            rw [e1, hlk, substVar]
            exact hr2 n (by omega)
          · intro θ hθ
            rw [← hr3 θ hθ]
            simp only [inst]
            exact sat_look hθ hlk
          · intro x _ hx
            exact hr4 x (hx (v, b) (by simp)) hx
      · have hn : v ∉ dom (s1 ++ s2) := by
          rw [dom_append]; simp only [List.mem_append, not_or]; exact ⟨hd, hv v rfl⟩
        refine ⟨.kuni v, ⟨hk, by rintro w ⟨⟩; exact hn⟩, ?_, fun _ _ => rfl, fun _ h _ => h⟩
        intro n hn'
        obtain ⟨n, rfl⟩ : ∃ k, n = k + 1 := ⟨n - 1, by omega⟩
        simp only [ksubst, look_none hn, substVar]
    · refine ⟨k, ⟨hk, fun v e => absurd ⟨v, e⟩ hu⟩, ?_, fun _ _ => rfl, fun _ h _ => h⟩
      intro n hn
      obtain ⟨n, rfl⟩ : ∃ k, n = k + 1 := ⟨n - 1, by omega⟩
      exact ksubst_const hk (fun v e => hu ⟨v, e⟩)

/-- Substitution of a kind that is no function ends, with a kind without bound variables
that has the same values. -/
theorem atom_nf {s : KSubst} (hs : Acyc s) {k : Kind} (hk : Atom k) :
    ∃ r, Free s r ∧ (∀ n, 2 * s.length + 2 ≤ n → ksubst n s k = some r) ∧
      (∀ θ, Sat θ s → inst θ k = inst θ r) ∧
      ∀ b, Below b k → (∀ p ∈ s, Below b p.2) → Below b r := by
  have := atom_nf_aux s.length s [] (Nat.le_refl _) (by simpa using hs) k hk (by simp [dom])
  simpa using this

theorem atoms_nf {s : KSubst} (hs : Acyc s) : ∀ {ks : List Kind}, (∀ k ∈ ks, Atom k) →
    ∃ rs, (∀ r ∈ rs, Free s r) ∧ rs.length = ks.length ∧
      (∀ n, 2 * s.length + 3 + ks.length ≤ n → ksubsts n s ks = some rs) ∧
      (∀ θ, Sat θ s → insts θ ks = insts θ rs) ∧
      ∀ b, (∀ k ∈ ks, Below b k) → (∀ p ∈ s, Below b p.2) → ∀ r ∈ rs, Below b r
  | [], _ => by
      refine ⟨[], by simp, rfl, ?_, fun _ _ => rfl, by simp⟩
      intro n hn
      obtain ⟨n, rfl⟩ : ∃ k, n = k + 1 := ⟨n - 1, by omega⟩
      simp only [ksubsts]
  | k :: ks, h => by
      obtain ⟨r, a1, a2, a3, a4⟩ := atom_nf hs (h k (by simp))
      obtain ⟨rs, b1, b2, b3, b4, b5⟩ := atoms_nf hs (ks := ks) (fun x hx => h x (by simp [hx]))
      refine ⟨r :: rs, by simpa using ⟨a1, b1⟩, by simp [b2], ?_, ?_, ?_⟩
      · intro n hn
        simp only [List.length_cons] at hn
        obtain ⟨n, rfl⟩ : ∃ k, n = k + 1 := ⟨n - 1, by omega⟩
        simp only [ksubsts]
        rw [a2 n (by omega), b3 n (by omega)]
        simp only [substCons]
      · intro θ hθ
        simp only [insts, a3 θ hθ, b4 θ hθ]
      · intro b hb hp x hx
        rcases List.mem_cons.mp hx with rfl | hx
        · exact a4 b (hb _ (by simp)) hp
        · exact b5 b (fun y hy => hb y (by simp [hy])) hp x hx

/-- What unification of pairs must give. -/
def Good (s : KSubst) (ps : List (Kind × Kind)) : KOut KSubst → Prop
  | .ok s' => Acyc s' ∧ (∃ d, s' = d ++ s) ∧
      (∀ θ, Sat θ s' ↔ Sat θ s ∧ ∀ p ∈ ps, inst θ p.1 = inst θ p.2) ∧
      ∀ b, (∀ p ∈ s, p.1 < b ∧ Below b p.2) → (∀ p ∈ ps, Below b p.1 ∧ Below b p.2) →
        ∀ p ∈ s', p.1 < b ∧ Below b p.2
  | .err => ∀ θ, Sat θ s → ¬ ∀ p ∈ ps, inst θ p.1 = inst θ p.2

theorem sat_cons {θ : Nat → Kind} {v : Nat} {k : Kind} {s : KSubst} :
    Sat θ ((v, k) :: s) ↔ θ v = inst θ k ∧ Sat θ s := by
  constructor
  · intro h; exact ⟨h (v, k) (by simp), fun p hp => h p (by simp [hp])⟩
  · rintro ⟨h1, h2⟩ p hp
    rcases List.mem_cons.mp hp with rfl | hp
    · exact h1
    · exact h2 p hp

/-- The new binding of a free variable. -/
theorem good_bind {s : KSubst} (hs : Acyc s) {v : Nat} {r k1 k2 : Kind} (hv : v ∉ dom s)
    (hr : Free s r) (hne : r ≠ .kuni v)
    (heq : ∀ θ, Sat θ s → (inst θ k1 = inst θ k2 ↔ θ v = inst θ r))
    (hb : ∀ b, (∀ p ∈ s, Below b p.2) → Below b k1 → Below b k2 → v < b ∧ Below b r) :
    Good s [(k1, k2)] (.ok ((v, r) :: s)) := by
  refine ⟨.cons hs hv hr.1 hne (fun u hu e => hr.2 u e hu), ⟨[(v, r)], rfl⟩, ?_, ?_⟩
  · intro θ
    rw [sat_cons]
    simp only [List.mem_singleton, forall_eq]
    constructor
    · rintro ⟨h1, h2⟩; exact ⟨h2, (heq θ h2).mpr h1⟩
    · rintro ⟨h1, h2⟩; exact ⟨(heq θ h1).mp h2, h1⟩
  · intro b h1 h2 p hp
    rcases List.mem_cons.mp hp with rfl | hp
    · have := h2 (k1, k2) (by simp)
      exact hb b (fun p hp => (h1 p hp).2) this.1 this.2
    · exact h1 p hp

theorem inst_const {θ : Nat → Kind} {k : Kind} (hk : Atom k) (hu : ∀ v, k ≠ .kuni v) :
    inst θ k = k := by
  cases k <;> first | rfl | exact absurd rfl (hu _) | exact absurd hk id

/-- Unification of kinds that are no functions. -/
theorem kunify_atom {s : KSubst} (hs : Acyc s) {k1 k2 : Kind} (h1 : Atom k1) (h2 : Atom k2) :
    ∃ o, (∀ n, 2 * s.length + 4 ≤ n → kunify n s k1 k2 = some o) ∧ Good s [(k1, k2)] o := by
  obtain ⟨r1, a1, a2, a3, a4⟩ := atom_nf hs h1
  obtain ⟨r2, b1, b2, b3, b4⟩ := atom_nf hs h2
  have key : ∀ n, 2 * s.length + 4 ≤ n → ∃ m, n = m + 2 ∧
      kunify n s k1 k2 = kunifyS (m + 1) s (some r1) (some r2) := by
    intro n hn
    obtain ⟨m, rfl⟩ : ∃ k, n = k + 2 := ⟨n - 2, by omega⟩
    refine ⟨m, rfl, ?_⟩
    simp only [kunify]
    rw [a2 _ (by omega), b2 _ (by omega)]
  have bl : ∀ {b v}, Below b (.kuni v) → v < b := fun h => h.1 _ rfl
  by_cases hu1 : ∃ v, r1 = .kuni v
  · obtain ⟨v, rfl⟩ := hu1
    by_cases hu2 : r2 = .kuni v
    · subst hu2
      refine ⟨.ok s, ?_, hs, ⟨[], rfl⟩, ?_, fun b h _ => h⟩
      · intro n hn
        obtain ⟨m, rfl, e⟩ := key n hn
        rw [e]; simp [kunifyS]
      · intro θ
        simp only [List.mem_singleton, forall_eq]
        exact ⟨fun h => ⟨h, by rw [a3 θ h, b3 θ h]⟩, fun h => h.1⟩
    · refine ⟨.ok ((v, r2) :: s), ?_, good_bind hs (a1.2 v rfl) b1 hu2 ?_ ?_⟩
      · intro n hn
        obtain ⟨m, rfl, e⟩ := key n hn
        rw [e, ← bindVar_ok]
        cases r2 <;> first | rfl | skip
        rename_i w
        simp only [kunifyS]
        rw [if_neg (by rintro rfl; exact hu2 rfl)]
      · intro θ hθ
        rw [a3 θ hθ, b3 θ hθ]
        simp only [inst]
      · intro b hp hb1 hb2
        exact ⟨bl (a4 b hb1 hp), b4 b hb2 hp⟩
  · by_cases hu2 : ∃ v, r2 = .kuni v
    · obtain ⟨v, rfl⟩ := hu2
      refine ⟨.ok ((v, r1) :: s), ?_, good_bind hs (b1.2 v rfl) a1
        (fun e => hu1 ⟨_, e⟩) ?_ ?_⟩
      · intro n hn
        obtain ⟨m, rfl, e⟩ := key n hn
        rw [e, ← bindVar_ok]
        cases r1 <;> first | rfl | exact absurd ⟨_, rfl⟩ hu1
      · intro θ hθ
        rw [a3 θ hθ, b3 θ hθ]
        simp only [inst]
        exact eq_comm
      · intro b hp hb1 hb2
        exact ⟨bl (b4 b hb2 hp), a4 b hb1 hp⟩
    · have hval : ∀ θ, Sat θ s → inst θ k1 = r1 ∧ inst θ k2 = r2 := by
        intro θ hθ
        rw [a3 θ hθ, b3 θ hθ]
        exact ⟨inst_const a1.1 (fun v e => hu1 ⟨v, e⟩), inst_const b1.1 (fun v e => hu2 ⟨v, e⟩)⟩
      have hS : ∀ m, kunifyS (m + 1) s (some r1) (some r2) =
          if r1 = r2 then some (.ok s) else some .err := by
        intro m
        have h1 := a1.1
        have h2 := b1.1
        cases r1 <;> first | exact absurd ⟨_, rfl⟩ hu1 | exact absurd h1 id | skip <;>
        cases r2 <;> first | exact absurd ⟨_, rfl⟩ hu2 | exact absurd h2 id | rfl
      by_cases e : r1 = r2
      · refine ⟨.ok s, ?_, hs, ⟨[], rfl⟩, ?_, fun b h _ => h⟩
        · intro n hn
          obtain ⟨m, rfl, e'⟩ := key n hn
          rw [e', hS, if_pos e]
        · intro θ
          simp only [List.mem_singleton, forall_eq]
          exact ⟨fun h => ⟨h, by rw [(hval θ h).1, (hval θ h).2, e]⟩, fun h => h.1⟩
      · refine ⟨.err, ?_, ?_⟩
        · intro n hn
          obtain ⟨m, rfl, e'⟩ := key n hn
          rw [e', hS, if_neg e]
        · intro θ hθ h
          have := h (k1, k2) (by simp)
          rw [(hval θ hθ).1, (hval θ hθ).2] at this
          exact e this

/-- Unification of pairs of kinds that are no functions, one after the other. -/
theorem kunifys_atoms : ∀ (ps : List (Kind × Kind)) {s : KSubst}, Acyc s →
    (∀ p ∈ ps, Atom p.1 ∧ Atom p.2) →
    ∃ N o, (∀ n, N ≤ n → kunifys n s ps = some o) ∧ Good s ps o
  | [], s, hs, _ => by
      refine ⟨1, .ok s, ?_, hs, ⟨[], rfl⟩, by simp, fun b h _ => h⟩
      intro n hn
      obtain ⟨n, rfl⟩ : ∃ k, n = k + 1 := ⟨n - 1, by omega⟩
      simp only [kunifys]
  | p :: ps, s, hs, h => by
      obtain ⟨o, ho, hg⟩ := kunify_atom hs (h p (by simp)).1 (h p (by simp)).2
      cases o with
      | err =>
        refine ⟨2 * s.length + 5, .err, ?_, ?_⟩
        · intro n hn
          obtain ⟨n, rfl⟩ : ∃ k, n = k + 1 := ⟨n - 1, by omega⟩
          simp only [kunifys]
          rw [ho n (by omega)]
          rfl
        · intro θ hθ hall
          exact hg θ hθ (by simpa using hall p (by simp))
      | ok s1 =>
        obtain ⟨g1, ⟨d, g2⟩, g3, g4⟩ := hg
        obtain ⟨N, o, ho', hg'⟩ := kunifys_atoms ps g1 (fun q hq => h q (by simp [hq]))
        refine ⟨max N (2 * s.length + 4) + 1, o, ?_, ?_⟩
        · intro n hn
          obtain ⟨n, rfl⟩ : ∃ k, n = k + 1 := ⟨n - 1, by omega⟩
          simp only [kunifys]
          rw [ho n (by omega)]
          exact ho' n (by omega)
        · cases o with
          | err =>
            intro θ hθ hall
            refine hg' θ ((g3 θ).mpr ⟨hθ, by simpa using hall p (by simp)⟩) ?_
            intro q hq; exact hall q (by simp [hq])
          | ok s2 =>
            obtain ⟨f1, ⟨d', f2⟩, f3, f4⟩ := hg'
            refine ⟨f1, ⟨d' ++ d, by rw [f2, g2, List.append_assoc]⟩, ?_, ?_⟩
            · intro θ
              rw [f3, g3]
              simp only [List.mem_singleton, forall_eq, List.mem_cons, forall_eq_or_imp]
              tauto
            · intro b hb hps
              refine f4 b (g4 b hb ?_) (fun q hq => hps q (by simp [hq]))
              simpa using hps p (by simp)

theorem insts_eq_map (θ : Nat → Kind) (ks : List Kind) : insts θ ks = ks.map (inst θ) := by
  induction ks with
  | nil => rfl
  | cons k ks ih => simp [insts, ih]

theorem zip_eq_iff {f : Kind → Kind} : ∀ {as bs : List Kind}, as.length = bs.length →
    ((∀ p ∈ as.zip bs, f p.1 = f p.2) ↔ as.map f = bs.map f)
  | [], [], _ => by simp
  | a :: as, b :: bs, h => by
      simp only [List.length_cons, Nat.add_right_cancel_iff] at h
      simp only [List.zip_cons_cons, List.mem_cons, forall_eq_or_imp, List.map_cons,
        List.cons.injEq, zip_eq_iff h]

theorem sig_nf {s : KSubst} (hs : Acyc s) {k : Kind} (hk : Sig k) :
    ∃ N r, Sig r ∧ (∀ n, N ≤ n → ksubst n s k = some r) ∧
      (∀ θ, Sat θ s → inst θ k = inst θ r) ∧
      ∀ b, Below b k → (∀ p ∈ s, Below b p.2) → Below b r := by
  by_cases hf : ∃ ks r, k = .kfun ks r
  · obtain ⟨ks, r, rfl⟩ := hf
    obtain ⟨rs, b1, b2, b3, b4, b5⟩ := atoms_nf hs hk.1
    obtain ⟨r', a1, a2, a3, a4⟩ := atom_nf hs hk.2
    refine ⟨2 * s.length + 4 + ks.length, .kfun rs r', ⟨fun a ha => (b1 a ha).1, a1.1⟩, ?_, ?_, ?_⟩
    · intro n hn
      obtain ⟨n, rfl⟩ : ∃ k, n = k + 1 := ⟨n - 1, by omega⟩
      simp only [ksubst]
      rw [b3 n (by omega), a2 n (by omega)]
      simp only [substFun]
    · intro θ hθ
      simp only [inst, b4 θ hθ, a3 θ hθ]
    · intro b hb hp
      have hat : ∀ a ∈ r :: ks, Below b a := by
        intro a ha
        refine ⟨fun v e => hb.2 ks r rfl a ha v e, ?_⟩
        rintro ks' r' rfl
        exfalso
        rcases List.mem_cons.mp ha with e | ha
        · have := hk.2; rw [← e] at this; exact this
        · exact hk.1 _ ha
      refine ⟨by rintro v ⟨⟩, ?_⟩
      rintro ks' r'' ⟨⟩ a ha v rfl
      rcases List.mem_cons.mp ha with e | ha
      · exact (a4 b (hat r (by simp)) hp).1 v e.symm
      · exact (b5 b (fun k hk => hat k (by simp [hk])) hp _ ha).1 v rfl
  · have hu : ∀ v, k ≠ .kuni v := by rintro v rfl; exact hk
    have ha : Atom k := by
      cases k <;> first | trivial | exact absurd ⟨_, _, rfl⟩ hf
    refine ⟨1, k, hk, ?_, fun _ _ => rfl, fun _ h _ => h⟩
    intro n hn
    obtain ⟨n, rfl⟩ : ∃ k, n = k + 1 := ⟨n - 1, by omega⟩
    exact ksubst_const ha hu

/-- Unification of kinds of constructors. -/
theorem kunify_sig {s : KSubst} (hs : Acyc s) {k1 k2 : Kind} (h1 : Sig k1) (h2 : Sig k2) :
    ∃ N o, (∀ n, N ≤ n → kunify n s k1 k2 = some o) ∧ Good s [(k1, k2)] o := by
  obtain ⟨N1, r1, a1, a2, a3, a4⟩ := sig_nf hs h1
  obtain ⟨N2, r2, b1, b2, b3, b4⟩ := sig_nf hs h2
  have key : ∀ n, max N1 N2 + 2 ≤ n → ∃ m, n = m + 2 ∧
      kunify n s k1 k2 = kunifyS (m + 1) s (some r1) (some r2) := by
    intro n hn
    obtain ⟨m, rfl⟩ : ∃ k, n = k + 2 := ⟨n - 2, by omega⟩
    refine ⟨m, rfl, ?_⟩
    simp only [kunify]
    rw [a2 _ (by omega), b2 _ (by omega)]
  -- results that are found at once
  have noway : (∀ θ, Sat θ s → inst θ r1 ≠ inst θ r2) → Good s [(k1, k2)] .err := by
    intro h θ hθ hall
    have := hall (k1, k2) (by simp)
    rw [a3 θ hθ, b3 θ hθ] at this
    exact h θ hθ this
  by_cases hf : (∃ ks r, r1 = .kfun ks r) ∧ ∃ ks r, r2 = .kfun ks r
  · obtain ⟨⟨ks1, q1, rfl⟩, ks2, q2, rfl⟩ := hf
    by_cases hl : ks1.length = ks2.length
    · obtain ⟨N, o, ho, hg⟩ := kunifys_atoms (ks1.zip ks2 ++ [(q1, q2)]) hs (by
        intro p hp
        rcases List.mem_append.mp hp with hp | hp
        · have := List.of_mem_zip hp
          exact ⟨a1.1 _ this.1, b1.1 _ this.2⟩
        · simp only [List.mem_singleton] at hp
          subst hp; exact ⟨a1.2, b1.2⟩)
      have heq : ∀ θ, Sat θ s → ((∀ p ∈ ks1.zip ks2 ++ [(q1, q2)], inst θ p.1 = inst θ p.2) ↔
          inst θ k1 = inst θ k2) := by
        intro θ hθ
        rw [a3 θ hθ, b3 θ hθ]
        simp only [inst, insts_eq_map, Kind.kfun.injEq, List.mem_append, List.mem_singleton,
          or_imp, forall_and, forall_eq]
        rw [← zip_eq_iff hl]
      refine ⟨max (max N1 N2) N + 2, o, ?_, ?_⟩
      · intro n hn
        obtain ⟨m, rfl, e⟩ := key n (by omega)
        rw [e]
        simp only [kunifyS]
        rw [if_pos hl, ho m (by omega)]
      · cases o with
        | err =>
          intro θ hθ hall
          exact hg θ hθ ((heq θ hθ).mpr (hall (k1, k2) (by simp)))
        | ok s' =>
          obtain ⟨g1, g2, g3, g4⟩ := hg
          refine ⟨g1, g2, ?_, ?_⟩
          · intro θ
            rw [g3]
            simp only [List.mem_singleton, forall_eq]
            constructor
            · rintro ⟨h, h'⟩; exact ⟨h, (heq θ h).mp h'⟩
            · rintro ⟨h, h'⟩; exact ⟨h, (heq θ h).mpr h'⟩
          · intro b hb hp
            have hp' := hp (k1, k2) (by simp)
            have c1 := a4 b hp'.1 (fun p hp => (hb p hp).2)
            have c2 := b4 b hp'.2 (fun p hp => (hb p hp).2)
            have toB : ∀ {a : Kind} {ks q}, Atom a → a ∈ q :: ks → Below b (.kfun ks q) →
                Below b a := by
              intro a ks q ha hm hB
              refine ⟨fun v e => hB.2 ks q rfl a hm v e, ?_⟩
              rintro ks' r' rfl; exact absurd ha id
            refine g4 b hb ?_
            intro p hp
            rcases List.mem_append.mp hp with hp | hp
            · have := List.of_mem_zip hp
              exact ⟨toB (a1.1 _ this.1) (by simp [this.1]) c1,
                toB (b1.1 _ this.2) (by simp [this.2]) c2⟩
            · simp only [List.mem_singleton] at hp
              subst hp
              exact ⟨toB a1.2 (by simp) c1, toB b1.2 (by simp) c2⟩
    · refine ⟨max N1 N2 + 2, .err, ?_, noway ?_⟩
      · intro n hn
        obtain ⟨m, rfl, e⟩ := key n hn
        rw [e]
        simp only [kunifyS]
        rw [if_neg hl]
      · intro θ _ e
        simp only [inst, insts_eq_map, Kind.kfun.injEq] at e
        apply hl
        have := congrArg List.length e.1
        simpa using this
  · have hS : ∀ m, kunifyS (m + 1) s (some r1) (some r2) =
        if r1 = r2 then some (.ok s) else some .err := by
      intro m
      cases r1 <;> first | exact absurd a1 id | skip <;>
      cases r2 <;> first | exact absurd b1 id | rfl |
        exact absurd ⟨⟨_, _, rfl⟩, _, _, rfl⟩ hf
    by_cases e : r1 = r2
    · refine ⟨max N1 N2 + 2, .ok s, ?_, hs, ⟨[], rfl⟩, ?_, fun b h _ => h⟩
      · intro n hn
        obtain ⟨m, rfl, e'⟩ := key n hn
        rw [e', hS, if_pos e]
      · intro θ
        simp only [List.mem_singleton, forall_eq]
        exact ⟨fun h => ⟨h, by rw [a3 θ h, b3 θ h, e]⟩, fun h => h.1⟩
    · refine ⟨max N1 N2 + 2, .err, ?_, noway ?_⟩
      · intro n hn
        obtain ⟨m, rfl, e'⟩ := key n hn
        rw [e', hS, if_neg e]
      · intro θ _ hh
        apply e
        cases r1 <;> first | exact absurd a1 id | skip <;>
        cases r2 <;> first | exact absurd b1 id | rfl | (simp [inst] at hh; done) |
          exact absurd ⟨⟨_, _, rfl⟩, _, _, rfl⟩ hf

end Verif.Kinds
