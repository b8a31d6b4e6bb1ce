import Verif.Kinds.Lemmas
import Verif.Ty.Lemmas

/-! Kind inference: it ends, and gives the most general kind. -/
namespace Verif.Kinds
open Verif.Ty

/-- The same values for the variables below `m`. -/
def Agree (m : Nat) (θ θ' : Nat → Kind) : Prop := ∀ v, v < m → θ v = θ' v

theorem Agree.symm {m : Nat} {θ θ' : Nat → Kind} (h : Agree m θ θ') : Agree m θ' θ :=
  fun v hv => (h v hv).symm

theorem Agree.mono {m m' : Nat} {θ θ' : Nat → Kind} (h : Agree m θ θ') (hm : m' ≤ m) :
    Agree m' θ θ' := fun v hv => h v (by omega)

theorem Agree.trans {m : Nat} {θ θ' θ'' : Nat → Kind} (h : Agree m θ θ') (h' : Agree m θ' θ'') :
    Agree m θ θ'' := fun v hv => (h v hv).trans (h' v hv)

theorem inst_agree_atom {m : Nat} {θ θ' : Nat → Kind} (h : Agree m θ θ') {k : Kind}
    (hk : Atom k) (hb : ∀ v, k = .kuni v → v < m) : inst θ k = inst θ' k := by
  cases k <;> first | rfl | exact absurd hk id | skip
  exact h _ (hb _ rfl)

theorem insts_agree {m : Nat} {θ θ' : Nat → Kind} (h : Agree m θ θ') : ∀ {ks : List Kind},
    (∀ k ∈ ks, Atom k) → (∀ k ∈ ks, ∀ v, k = .kuni v → v < m) → insts θ ks = insts θ' ks
  | [], _, _ => rfl
  | k :: ks, hk, hb => by
      simp only [insts]
      rw [inst_agree_atom h (hk k (by simp)) (hb k (by simp)),
        insts_agree h (fun x hx => hk x (by simp [hx])) (fun x hx => hb x (by simp [hx]))]

theorem inst_agree {m : Nat} {θ θ' : Nat → Kind} (h : Agree m θ θ') {k : Kind}
    (hk : Atom k ∨ Sig k) (hb : Below m k) : inst θ k = inst θ' k := by
  rcases hk with hk | hk
  · exact inst_agree_atom h hk hb.1
  · by_cases hf : ∃ ks r, k = .kfun ks r
    · obtain ⟨ks, r, rfl⟩ := hf
      simp only [inst]
      rw [insts_agree h hk.1 (fun k hk' => hb.2 ks r rfl k (by simp [hk'])),
        inst_agree_atom h hk.2 (hb.2 ks r rfl r (by simp))]
    · refine inst_agree_atom h ?_ hb.1
      cases k <;> first | trivial | exact absurd ⟨_, _, rfl⟩ hf

theorem acyc_atom {s : KSubst} (hs : Acyc s) : ∀ p ∈ s, Atom p.2 := by
  induction hs with
  | nil => simp
  | cons _ _ h _ _ ih =>
    intro p hp
    rcases List.mem_cons.mp hp with rfl | hp
    · exact h
    · exact ih p hp

theorem sat_agree {E : KEnv} {st : KSt} (ho : Ok E st) {θ θ' : Nat → Kind}
    (h : Agree st.next θ θ') (hs : Sat θ st.s) : Sat θ' st.s := by
  intro p hp
  have hb := ho.bnd p hp
  rw [← h _ hb.1, ← inst_agree h (.inl (acyc_atom ho.acyc p hp)) hb.2]
  exact hs p hp

mutual
theorem has_agree {E : KEnv} {st : KSt} (ho : Ok E st) {θ θ' : Nat → Kind}
    (h : Agree st.next θ θ') : ∀ {t κ}, Has E θ t κ → Has E θ' t κ
  | _, _, .var (k := k) e hk => by
      have e0 := inst_agree h (.inl (ho.tv _ _ e).1) (ho.tv _ _ e).2
      rw [e0]
      refine .var e ?_
      intro k' e'
      rw [← inst_agree h (.inl (ho.vk _ _ e').1) (ho.vk _ _ e').2, ← e0]
      exact hk k' e'
  | _, _, .uni hk => .uni (fun k' e' => by
      rw [← inst_agree h (.inl (ho.uk _ _ e').1) (ho.uk _ _ e').2]; exact hk k' e')
  | _, _, .con0 e hk => .con0 e (by
      rw [← inst_agree h (.inr (ho.con _ _ e).1) (ho.con _ _ e).2]; exact hk)
  | _, _, .con e hl hk => .con e (hasL_agree ho h hl) (by
      rw [← inst_agree h (.inr (ho.con _ _ e).1) (ho.con _ _ e).2]; exact hk)
  | _, _, .fn hv h1 h2 h3 h4 => .fn hv (has_agree ho h h1) (has_agree ho h h2)
      (has_agree ho h h3) (has_agree ho h h4)
  | _, _, .tup h1 h2 => .tup (has_agree ho h h1) (has_agree ho h h2)
  | _, _, .opt h1 => .opt (has_agree ho h h1)
  | _, _, .none_ => .none_
  | _, _, .nil => .nil
  | _, _, .row h1 h2 => .row (has_agree ho h h1) (has_agree ho h h2)
  | _, _, .star h1 => .star (has_agree ho h h1)
  | _, _, .fx => .fx
theorem hasL_agree {E : KEnv} {st : KSt} (ho : Ok E st) {θ θ' : Nat → Kind}
    (h : Agree st.next θ θ') : ∀ {ts κs}, HasL E θ ts κs → HasL E θ' ts κs
  | _, _, .nil => .nil
  | _, _, .cons h1 h2 => .cons (has_agree ho h h1) (hasL_agree ho h h2)
end

/-- The outcome for all large numbers of steps. -/
def Ev {α : Type} (f : Nat → Option α) (o : α) : Prop := ∃ N, ∀ n, N ≤ n → f n = some o

theorem ev_const {α : Type} (o : α) : Ev (fun _ => some o) o := ⟨0, fun _ _ => rfl⟩

theorem ev_bind {α β : Type} {f : Nat → Option (KOut α)} {g : Nat → α → Option (KOut β)}
    {a : α} {o : KOut β} (hf : Ev f (.ok a)) (hg : Ev (fun n => g n a) o) :
    Ev (fun n => kbind (f n) (g n)) o := by
  obtain ⟨N, hN⟩ := hf
  obtain ⟨M, hM⟩ := hg
  refine ⟨max N M, fun n hn => ?_⟩
  simp only [hN n (by omega), kbind]
  exact hM n (by omega)

theorem ev_bind_err {α β : Type} {f : Nat → Option (KOut α)} {g : Nat → α → Option (KOut β)}
    (hf : Ev f .err) : Ev (fun n => kbind (f n) (g n)) .err := by
  obtain ⟨N, hN⟩ := hf
  refine ⟨N, fun n hn => ?_⟩
  simp only [hN n hn, kbind]

/-- A computation that demands `P` of the values of kind variables. -/
def C {α : Type} (E : KEnv) (st : KSt) (P : (Nat → Kind) → Prop) : KOut (α × KSt) → Prop
  | .ok (_, st') => Ok E st' ∧ st.next ≤ st'.next ∧
      (∀ θ, Sat θ st'.s → Sat θ st.s ∧ P θ) ∧
      ∀ θ, Sat θ st.s → P θ → ∃ θ', Agree st.next θ θ' ∧ Sat θ' st'.s
  | .err => ∀ θ, Sat θ st.s → ¬ P θ

/-- A computation that gives a kind `κ` with `Q`. -/
def I {α : Type} (E : KEnv) (st : KSt) (Q : (Nat → Kind) → Kind → Prop) :
    KOut (Kind × α × KSt) → Prop
  | .ok (k, _, st') => Ok E st' ∧ st.next ≤ st'.next ∧ (Atom k ∨ Sig k) ∧ Below st'.next k ∧
      (∀ θ, Sat θ st'.s → Sat θ st.s ∧ Q θ (inst θ k)) ∧
      ∀ θ κ, Sat θ st.s → Q θ κ → ∃ θ', Agree st.next θ θ' ∧ Sat θ' st'.s ∧ inst θ' k = κ
  | .err => ∀ θ κ, Sat θ st.s → ¬ Q θ κ

/-- The same for lists; the kinds are no functions. -/
def IL {α : Type} (E : KEnv) (st : KSt) (Q : (Nat → Kind) → List Kind → Prop) :
    KOut (List Kind × α × KSt) → Prop
  | .ok (ks, _, st') => Ok E st' ∧ st.next ≤ st'.next ∧ (∀ k ∈ ks, Atom k ∧ Below st'.next k) ∧
      (∀ θ, Sat θ st'.s → Sat θ st.s ∧ Q θ (insts θ ks)) ∧
      ∀ θ κs, Sat θ st.s → Q θ κs → ∃ θ', Agree st.next θ θ' ∧ Sat θ' st'.s ∧ insts θ' ks = κs
  | .err => ∀ θ κs, Sat θ st.s → ¬ Q θ κs

/-- A constant kind. -/
def Const (k : Kind) : Prop := Atom k ∧ Sig k

theorem Const.inst {k : Kind} (h : Const k) (θ : Nat → Kind) : inst θ k = k := by
  refine inst_const h.1 ?_
  rintro v rfl; exact h.2

theorem Const.below {k : Kind} (h : Const k) (b : Nat) : Below b k := by
  refine ⟨?_, ?_⟩
  · rintro v rfl; exact absurd h.2 id
  · rintro ks r rfl; exact absurd h.1 id

theorem ok_subst {E : KEnv} {st : KSt} (ho : Ok E st) {s' : KSubst} (ha : Acyc s')
    (hb : ∀ p ∈ s', p.1 < st.next ∧ Below st.next p.2) : Ok E { st with s := s' } :=
  ⟨ho.con, ho.tv, ho.vk, ho.uk, ha, hb⟩

theorem Below.mono {m m' : Nat} {k : Kind} (h : Below m k) (hm : m ≤ m') : Below m' k :=
  ⟨fun v e => by have := h.1 v e; omega, fun ks r e a ha v e' => by
    have := h.2 ks r e a ha v e'; omega⟩

theorem ok_next {E : KEnv} {st : KSt} (ho : Ok E st) {m : Nat} (hm : st.next ≤ m) :
    Ok E { st with next := m } :=
  ⟨fun c k e => ⟨(ho.con c k e).1, (ho.con c k e).2.mono hm⟩,
   fun c k e => ⟨(ho.tv c k e).1, (ho.tv c k e).2.mono hm⟩,
   fun c k e => ⟨(ho.vk c k e).1, (ho.vk c k e).2.mono hm⟩,
   fun c k e => ⟨(ho.uk c k e).1, (ho.uk c k e).2.mono hm⟩, ho.acyc,
   fun p hp => ⟨by have := (ho.bnd p hp).1; show p.1 < m; omega, (ho.bnd p hp).2.mono hm⟩⟩

/-- Unification in the state of the inference. -/
theorem kuni2_ok {E : KEnv} {st : KSt} (ho : Ok E st) {k1 k2 : Kind}
    (hk : (Atom k1 ∧ Atom k2) ∨ (Sig k1 ∧ Sig k2)) (hb1 : Below st.next k1)
    (hb2 : Below st.next k2) :
    (Ev (fun n => kuni2 n st k1 k2) .err ∧ ∀ θ, Sat θ st.s → inst θ k1 ≠ inst θ k2) ∨
    ∃ s', Ev (fun n => kuni2 n st k1 k2) (.ok { st with s := s' }) ∧
      Ok E { st with s := s' } ∧ ∀ θ, Sat θ s' ↔ Sat θ st.s ∧ inst θ k1 = inst θ k2 := by
  have hu : ∃ N o, (∀ n, N ≤ n → kunify n st.s k1 k2 = some o) ∧ Good st.s [(k1, k2)] o := by
    rcases hk with ⟨h1, h2⟩ | ⟨h1, h2⟩
    · obtain ⟨o, h⟩ := kunify_atom ho.acyc h1 h2
      exact ⟨_, o, h⟩
    · exact kunify_sig ho.acyc h1 h2
  obtain ⟨N, o, hN, hg⟩ := hu
  cases o with
  | err =>
    refine .inl ⟨ev_bind_err ⟨N, hN⟩, ?_⟩
    intro θ hθ e
    exact hg θ hθ (by simpa using e)
  | ok s' =>
    obtain ⟨g1, _, g3, g4⟩ := hg
    refine .inr ⟨s', ev_bind ⟨N, hN⟩ (ev_const _), ?_, ?_⟩
    · exact ok_subst ho g1 (g4 _ ho.bnd (by simpa using ⟨hb1, hb2⟩))
    · intro θ
      rw [g3]
      simp

/-- The second half of `kexp`. -/
theorem expect_ok {α : Type} {E : KEnv} {st : KSt} {Q : (Nat → Kind) → Kind → Prop} {k0 : Kind}
    (hk0 : Const k0) {f : Nat → Option (KOut (Kind × α × KSt))}
    (h : ∃ o, Ev f o ∧ I E st Q o) :
    ∃ o, Ev (fun n => expect n k0 (f n)) o ∧ C E st (fun θ => Q θ k0) o := by
  obtain ⟨o, hf, hI⟩ := h
  cases o with
  | err => exact ⟨.err, ev_bind_err hf, fun θ hθ => hI θ k0 hθ⟩
  | ok r =>
    obtain ⟨k, a, st'⟩ := r
    obtain ⟨i1, i2, i3, i4, i5, i6⟩ := hI
    have hp : (Atom k ∧ Atom k0) ∨ (Sig k ∧ Sig k0) := by
      rcases i3 with h | h
      · exact .inl ⟨h, hk0.1⟩
      · exact .inr ⟨h, hk0.2⟩
    rcases kuni2_ok i1 hp i4 (hk0.below _) with ⟨hu, hne⟩ | ⟨s', hu, ho', hiff⟩
    · refine ⟨.err, ev_bind hf (ev_bind_err hu), ?_⟩
      intro θ hθ hQ
      obtain ⟨θ', _, h2, h3⟩ := i6 θ k0 hθ hQ
      exact hne θ' h2 (by rw [h3, hk0.inst])
    · refine ⟨.ok (a, { st' with s := s' }), ev_bind hf (ev_bind hu (ev_const _)), ho', i2, ?_, ?_⟩
      · intro θ hθ
        obtain ⟨h1, h2⟩ := (hiff θ).mp hθ
        rw [hk0.inst] at h2
        have := i5 θ h1
        rw [h2] at this
        exact this
      · intro θ hθ hQ
        obtain ⟨θ', h1, h2, h3⟩ := i6 θ k0 hθ hQ
        exact ⟨θ', h1, (hiff θ').mpr ⟨h2, by rw [h3, hk0.inst]⟩⟩

/-- One computation after the other. -/
theorem bind_I {α β : Type} {E : KEnv} {st : KSt} {P : (Nat → Kind) → Prop}
    {Q : (Nat → Kind) → Kind → Prop}
    {f : Nat → Option (KOut (α × KSt))} {g : Nat → α × KSt → Option (KOut (Kind × β × KSt))}
    (hf : ∃ o, Ev f o ∧ C E st P o)
    (hg : ∀ a st', Ok E st' → ∃ o, Ev (fun n => g n (a, st')) o ∧ I E st' Q o)
    (hQ : ∀ θ θ' κ, Agree st.next θ θ' → Q θ κ → Q θ' κ) :
    ∃ o, Ev (fun n => kbind (f n) (g n)) o ∧ I E st (fun θ κ => P θ ∧ Q θ κ) o := by
  obtain ⟨o, hf, hC⟩ := hf
  cases o with
  | err => exact ⟨.err, ev_bind_err hf, fun θ κ hθ h => hC θ hθ h.1⟩
  | ok r =>
    obtain ⟨a, st'⟩ := r
    obtain ⟨c1, c2, c3, c4⟩ := hC
    obtain ⟨o, hg, hC'⟩ := hg a st' c1
    refine ⟨o, ev_bind hf hg, ?_⟩
    cases o with
    | err =>
      rintro θ κ hθ ⟨h1, h2⟩
      obtain ⟨θ', ha, hs⟩ := c4 θ hθ h1
      exact hC' θ' κ hs (hQ θ θ' κ ha h2)
    | ok r' =>
      obtain ⟨k, b, st''⟩ := r'
      obtain ⟨d1, d2, d3, d4, d5, d6⟩ := hC'
      refine ⟨d1, Nat.le_trans c2 d2, d3, d4, ?_, ?_⟩
      · intro θ hθ
        obtain ⟨h1, h2⟩ := d5 θ hθ
        obtain ⟨h3, h4⟩ := c3 θ h1
        exact ⟨h3, h4, h2⟩
      · rintro θ κ hθ ⟨h1, h2⟩
        obtain ⟨θ', ha, hs⟩ := c4 θ hθ h1
        obtain ⟨θ'', ha', hs', hk⟩ := d6 θ' κ hs (hQ θ θ' κ ha h2)
        exact ⟨θ'', ha.trans (ha'.mono c2), hs', hk⟩

/-- The end of a computation with a given kind. -/
theorem give_ok {α β : Type} {E : KEnv} {st : KSt} {P : (Nat → Kind) → Prop} {k0 : Kind}
    (hk0 : Const k0) {f : Nat → Option (KOut (α × KSt))}
    {g : α × KSt → Option (KOut (Kind × β × KSt))} {w : α × KSt → β}
    (hg : ∀ r, g r = some (.ok (k0, w r, r.2)))
    (hf : ∃ o, Ev f o ∧ C E st P o) :
    ∃ o, Ev (fun n => kbind (f n) g) o ∧ I E st (fun θ κ => κ = k0 ∧ P θ) o := by
  obtain ⟨o, hf, hC⟩ := hf
  cases o with
  | err => exact ⟨.err, ev_bind_err hf, fun θ κ hθ h => hC θ hθ h.2⟩
  | ok r =>
    obtain ⟨a, st'⟩ := r
    obtain ⟨c1, c2, c3, c4⟩ := hC
    refine ⟨.ok (k0, w (a, st'), st'), ev_bind hf ⟨0, fun n _ => hg _⟩, c1, c2, .inl hk0.1,
      hk0.below _, ?_, ?_⟩
    · intro θ hθ
      rw [hk0.inst]
      exact ⟨(c3 θ hθ).1, rfl, (c3 θ hθ).2⟩
    · rintro θ κ hθ ⟨rfl, hP⟩
      obtain ⟨θ', h1, h2⟩ := c4 θ hθ hP
      exact ⟨θ', h1, h2, hk0.inst _⟩

theorem I_congr {α : Type} {E : KEnv} {st : KSt} {Q Q' : (Nat → Kind) → Kind → Prop}
    {o : KOut (Kind × α × KSt)} (h : ∀ θ κ, Q θ κ ↔ Q' θ κ) (hI : I E st Q o) : I E st Q' o := by
  have : Q = Q' := by funext θ κ; exact propext (h θ κ)
  rw [← this]; exact hI

/-- A computation without demands. -/
theorem const_ok {E : KEnv} {st : KSt} (ho : Ok E st) {k0 : Kind} (hk0 : Const k0) (t : Ty) :
    I E st (fun _ κ => κ = k0) (.ok (k0, t, st)) :=
  ⟨ho, Nat.le_refl _, .inl hk0.1, hk0.below _, fun θ hθ => ⟨hθ, hk0.inst θ⟩,
    fun θ κ hθ h => ⟨θ, fun _ _ => rfl, hθ, by rw [h]; exact hk0.inst θ⟩⟩

/-- The values with another one for the variable `m`. -/
def upd (θ : Nat → Kind) (m : Nat) (k : Kind) (v : Nat) : Kind := if v = m then k else θ v

theorem agree_upd (θ : Nat → Kind) (m : Nat) (k : Kind) : Agree m θ (upd θ m k) := by
  intro v hv
  simp only [upd]
  rw [if_neg (by omega)]

theorem below_uni {m v : Nat} (h : v < m) : Below m (.kuni v) :=
  ⟨by rintro w ⟨⟩; exact h, by rintro ks r ⟨⟩⟩

/-- A kind written, or a new variable. -/
theorem instK_ok {E : KEnv} {st : KSt} (ho : Ok E st) {a : Option Kind}
    (ha : ∀ k, a = some k → Atom k ∧ Below st.next k) :
    Ok E (instK st a).2 ∧ st.next ≤ (instK st a).2.next ∧ (instK st a).2.s = st.s ∧
    Atom (instK st a).1 ∧ Below (instK st a).2.next (instK st a).1 ∧
    ∀ θ κ, (∀ k, a = some k → inst θ k = κ) →
      ∃ θ', Agree st.next θ θ' ∧ inst θ' (instK st a).1 = κ := by
  cases a with
  | some k =>
    exact ⟨ho, Nat.le_refl _, rfl, (ha k rfl).1, (ha k rfl).2,
      fun θ κ h => ⟨θ, fun _ _ => rfl, h k rfl⟩⟩
  | none =>
    refine ⟨ok_next ho (Nat.le_succ _), Nat.le_succ _, rfl, trivial,
      below_uni (Nat.lt_succ_self _), ?_⟩
    intro θ κ _
    exact ⟨upd θ st.next κ, agree_upd _ _ _, by simp [instK, inst, upd]⟩

theorem instK_inst {st : KSt} {a : Option Kind} {θ : Nat → Kind} {k : Kind} (h : a = some k) :
    inst θ (instK st a).1 = inst θ k := by subst h; rfl

theorem uni_ok {E : KEnv} {st : KSt} (ho : Ok E st) (u : Nat) :
    ∃ o, Ev (fun _ => kinferUni E st u) o ∧ I E st (fun θ κ => Has E θ (.uni u) κ) o := by
  obtain ⟨h1, h2, h3, h4, h5, h6⟩ := instK_ok ho (a := E.uk u) (fun k e => ho.uk u k e)
  refine ⟨_, ev_const _, h1, h2, .inl h4, h5, ?_, ?_⟩
  · intro θ hθ
    rw [h3] at hθ
    exact ⟨hθ, .uni (fun k' e => (instK_inst e).symm)⟩
  · intro θ κ hθ hQ
    cases hQ with
    | uni hk =>
      obtain ⟨θ', a, b⟩ := h6 θ κ hk
      exact ⟨θ', a, by rw [h3]; exact sat_agree ho a hθ, b⟩

theorem var_ok {E : KEnv} {st : KSt} (ho : Ok E st) (v : Nat) :
    ∃ o, Ev (fun n => kinferVar n E st v) o ∧ I E st (fun θ κ => Has E θ (.var v) κ) o := by
  cases e : E.tv v with
  | none =>
    refine ⟨.err, ⟨0, fun n _ => by simp only [kinferVar, e]⟩, ?_⟩
    intro θ κ _ h
    cases h with
    | var e' _ => rw [e] at e'; cases e'
  | some k0 =>
    obtain ⟨h1, h2, h3, h4, h5, h6⟩ := instK_ok ho (a := E.vk v) (fun k e => ho.vk v k e)
    have hk0 := ho.tv v k0 e
    have hmain : ∀ θ κ, Sat θ st.s → Has E θ (.var v) κ → ∃ θ', Agree st.next θ θ' ∧
        Sat θ' (instK st (E.vk v)).2.s ∧ inst θ' (instK st (E.vk v)).1 = inst θ' k0 ∧
        inst θ' k0 = κ := by
      intro θ κ hθ hQ
      cases hQ with
      | var e' hk =>
        rw [e] at e'; cases e'
        obtain ⟨θ', a, b⟩ := h6 θ _ hk
        have c := inst_agree a (.inl hk0.1) hk0.2
        exact ⟨θ', a, by rw [h3]; exact sat_agree ho a hθ, by rw [b, c], c.symm⟩
    rcases kuni2_ok h1 (.inl ⟨h4, hk0.1⟩) h5 (hk0.2.mono h2) with ⟨hu, hne⟩ | ⟨s', hu, ho', hiff⟩
    · refine ⟨.err, ?_, ?_⟩
      · obtain ⟨N, hN⟩ := hu
        refine ⟨N, fun n hn => ?_⟩
        have hN' := hN n hn
        simp only at hN'
        simp only [kinferVar, e, hN']; rfl
      · intro θ κ hθ hQ
        obtain ⟨θ', _, a, b, _⟩ := hmain θ κ hθ hQ
        exact hne θ' a b
    · refine ⟨.ok ((instK st (E.vk v)).1, .var v, { (instK st (E.vk v)).2 with s := s' }), ?_,
        ho', h2, .inl h4, h5, ?_, ?_⟩
      · obtain ⟨N, hN⟩ := hu
        refine ⟨N, fun n hn => ?_⟩
        have hN' := hN n hn
        simp only at hN'
        simp only [kinferVar, e, hN']; rfl
      · intro θ hθ
        obtain ⟨a, b⟩ := (hiff θ).mp hθ
        rw [h3] at a
        refine ⟨a, ?_⟩
        rw [b]
        exact .var e (fun k' e' => by rw [← b, instK_inst e'])
      · intro θ κ hθ hQ
        obtain ⟨θ', a, b, c, d⟩ := hmain θ κ hθ hQ
        exact ⟨θ', a, (hiff θ').mpr ⟨b, c⟩, c.trans d⟩

theorem con0_ok {E : KEnv} {st : KSt} (ho : Ok E st) (c : Nat) :
    ∃ o, Ev (fun _ => conKind E st c) o ∧
      I E st (fun θ κ => ∃ k, E.con c = some k ∧ inst θ k = κ) o := by
  cases e : E.con c with
  | none =>
    refine ⟨.err, ⟨0, fun n _ => by simp only [conKind, e]⟩, ?_⟩
    rintro θ κ _ ⟨k, h, _⟩
    cases h
  | some k =>
    refine ⟨.ok (k, .con c [], st), ⟨0, fun n _ => by simp only [conKind, e]⟩, ho,
      Nat.le_refl _, .inr (ho.con c k e).1, (ho.con c k e).2, ?_, ?_⟩
    · intro θ hθ; exact ⟨hθ, k, rfl, rfl⟩
    · rintro θ κ hθ ⟨k', h, h'⟩
      cases h
      exact ⟨θ, fun _ _ => rfl, hθ, h'⟩

theorem app_ok {E : KEnv} {st : KSt} {c : Nat}
    {Q : (Nat → Kind) → List Kind → Prop} {f : Nat → Option (KOut (List Kind × List Ty × KSt))}
    (ho : Ok E st) (h : ∃ o, Ev f o ∧ IL E st Q o) :
    ∃ o, Ev (fun n => conApp n E c (f n)) o ∧
      I E st (fun θ κ => ∃ k κs, E.con c = some k ∧ Q θ κs ∧ inst θ k = .kfun κs κ) o := by
  cases e : E.con c with
  | none =>
    refine ⟨.err, ⟨0, fun n _ => by simp only [conApp, e]⟩, ?_⟩
    rintro θ κ _ ⟨k, _, h, _⟩
    cases h
  | some kn =>
    have e1 : ∀ n, conApp n E c (f n) = kinferApp n kn c (f n) := by
      intro n; simp only [conApp, e]
    simp only [e1]
    have hkn := ho.con c kn e
    obtain ⟨o, hf, hI⟩ := h
    cases o with
    | err =>
      refine ⟨.err, ev_bind_err hf, ?_⟩
      rintro θ κ hθ ⟨k, κs, _, h2, _⟩
      exact hI θ κs hθ h2
    | ok r =>
      obtain ⟨ks, ts, st1⟩ := r
      obtain ⟨i1, i2, i3, i4, i5⟩ := hI
      have ho1 : Ok E { st1 with next := st1.next + 1 } := ok_next i1 (Nat.le_succ _)
      have hsig : Sig (.kfun ks (.kuni st1.next)) := ⟨fun a ha => (i3 a ha).1, trivial⟩
      have hbel : Below (st1.next + 1) (.kfun ks (.kuni st1.next)) := by
        refine ⟨by rintro w ⟨⟩, ?_⟩
        rintro ks' r ⟨⟩ a ha w rfl
        rcases List.mem_cons.mp ha with h | h
        · cases h; omega
        · have := (i3 _ h).2.1 w rfl; omega
      have hmain : ∀ θ κ, Sat θ st.s → (∃ k κs, some kn = some k ∧ Q θ κs ∧
          inst θ k = .kfun κs κ) → ∃ θ', Agree st.next θ θ' ∧ Sat θ' st1.s ∧
          inst θ' kn = inst θ' (.kfun ks (.kuni st1.next)) ∧ θ' st1.next = κ := by
        rintro θ κ hθ ⟨k, κs, h1, h2, h3⟩
        cases h1
        obtain ⟨θ1, a1, a2, a3⟩ := i5 θ κs hθ h2
        have g := agree_upd θ1 st1.next κ
        have gl : Agree st.next θ (upd θ1 st1.next κ) := a1.trans (g.mono i2)
        refine ⟨upd θ1 st1.next κ, gl, sat_agree i1 g a2, ?_, by simp [upd]⟩
        rw [← inst_agree gl (.inr hkn.1) hkn.2, h3]
        simp only [inst]
        rw [← insts_agree g (fun a ha => (i3 a ha).1) (fun a ha => (i3 a ha).2.1), a3]
        simp [upd]
      rcases kuni2_ok ho1 (.inr ⟨hkn.1, hsig⟩) (hkn.2.mono (show st.next ≤ st1.next + 1 by omega))
        hbel with ⟨hu, hne⟩ | ⟨s', hu, ho', hiff⟩
      · refine ⟨.err, ev_bind hf (ev_bind_err hu), ?_⟩
        intro θ κ hθ hQ
        obtain ⟨θ', _, b, c, _⟩ := hmain θ κ hθ hQ
        exact hne θ' b c
      · obtain ⟨r, n1, n2, n3, n4⟩ := atom_nf ho'.acyc (k := .kuni st1.next) trivial
        refine ⟨.ok (r, .con c ts, { st1 with next := st1.next + 1, s := s' }),
          ev_bind hf (ev_bind hu ⟨2 * s'.length + 2, fun n hn => ?_⟩), ho', ?_, .inl n1.1, ?_, ?_, ?_⟩
        · simp only [subst2]
          rw [n2 n hn]
        · show st.next ≤ st1.next + 1
          omega
        · exact n4 _ (below_uni (Nat.lt_succ_self _)) (fun p hp => (ho'.bnd p hp).2)
        · intro θ hθ
          obtain ⟨a, b⟩ := (hiff θ).mp hθ
          obtain ⟨a1, a2⟩ := i4 θ a
          refine ⟨a1, kn, insts θ ks, rfl, a2, ?_⟩
          rw [b, ← n3 θ hθ]
          simp only [inst]
        · intro θ κ hθ hQ
          obtain ⟨θ', a, b, c, d⟩ := hmain θ κ hθ hQ
          have hs' := (hiff θ').mpr ⟨b, c⟩
          refine ⟨θ', a, hs', ?_⟩
          rw [← n3 θ' hs']
          exact d

theorem const_rk (k : RKind) : Const (rk k) := by cases k <;> exact ⟨trivial, trivial⟩

theorem isVar_iff {t : Ty} : isVar t = true ↔ ∃ v, t = .var v := by
  cases t <;> simp [isVar]

theorem kfx_ok {E : KEnv} {st : KSt} {x : Ty}
    {f : Nat → Option (KOut (Kind × Ty × KSt))}
    (h : ∃ o, Ev f o ∧ I E st (fun θ κ => Has E θ x κ) o) :
    ∃ o, Ev (fun n => kfx n x (f n)) o ∧
      C E st (fun θ => (∀ v, x ≠ .var v) ∧ Has E θ x .kfx) o := by
  by_cases hv : isVar x = true
  · refine ⟨.err, ⟨0, fun n _ => by simp only [kfx]; rw [if_pos hv]⟩, ?_⟩
    rintro θ _ ⟨h1, _⟩
    obtain ⟨v, e⟩ := isVar_iff.mp hv
    exact h1 v e
  · obtain ⟨o, h1, h2⟩ := expect_ok (k0 := .kfx) ⟨trivial, trivial⟩ h
    refine ⟨o, ?_, ?_⟩
    · obtain ⟨N, hN⟩ := h1
      exact ⟨N, fun n hn => by simp only [kfx]; rw [if_neg hv]; exact hN n hn⟩
    · have hP : (fun θ => Has E θ x .kfx) =
          fun θ => (∀ v, x ≠ .var v) ∧ Has E θ x .kfx := by
        funext θ
        refine propext ⟨fun h => ⟨fun v e => hv (isVar_iff.mpr ⟨v, e⟩), h⟩, fun h => h.2⟩
      rw [← hP]; exact h2

theorem isOpt_iff {t : Ty} : isOpt t = true ↔ ∃ u, t = .opt u := by
  cases t <;> simp [isOpt]

theorem opt_ok {E : KEnv} {st : KSt} {t : Ty} {f : Nat → Option (KOut (Kind × Ty × KSt))}
    (h : ∃ o, Ev f o ∧ I E st (fun θ κ => Has E θ t κ) o) :
    ∃ o, Ev (fun n => kinferOpt n t (f n)) o ∧ I E st (fun θ κ => Has E θ (.opt t) κ) o := by
  by_cases hv : isOpt t = true
  · obtain ⟨o, h1, h2⟩ := h
    refine ⟨o, ?_, I_congr ?_ h2⟩
    · obtain ⟨N, hN⟩ := h1
      exact ⟨N, fun n hn => by simp only [kinferOpt]; rw [if_pos hv]; exact hN n hn⟩
    · intro θ κ
      obtain ⟨u, rfl⟩ := isOpt_iff.mp hv
      constructor
      · intro h
        have h' := h
        cases h with
        | opt _ => exact .opt h'
      · intro h
        cases h with
        | opt h => exact h
  · obtain ⟨o, h1, h2⟩ := give_ok (k0 := .ktype) ⟨trivial, trivial⟩ (w := fun r => Ty.opt r.1)
      (g := fun r => some (.ok (.ktype, .opt r.1, r.2))) (fun r => rfl)
      (expect_ok (k0 := .ktype) ⟨trivial, trivial⟩ h)
    refine ⟨o, ?_, I_congr ?_ h2⟩
    · obtain ⟨N, hN⟩ := h1
      exact ⟨N, fun n hn => by simp only [kinferOpt]; rw [if_neg hv]; exact hN n hn⟩
    · intro θ κ
      constructor
      · rintro ⟨rfl, h⟩; exact .opt h
      · intro h; cases h with
        | opt h => exact ⟨rfl, h⟩

theorem kbind_ok {α β : Type} {m : Option (KOut α)} {f : α → Option (KOut β)} {b : β}
    (h : kbind m f = some (.ok b)) : ∃ a, m = some (.ok a) ∧ f a = some (.ok b) := by
  cases m with
  | none => cases h
  | some o =>
    cases o with
    | err => cases h
    | ok a => exact ⟨a, rfl, h⟩

theorem atom_rk (k : RKind) : Atom (rk k) := (const_rk k).1

/-- The kinds of types are no functions. -/
theorem infer_atom_n {E : KEnv} {n : Nat} : ∀ (t : Ty) {st : KSt}, Ok E st → ∀ {k t' st'},
    kinfer n E st t = some (.ok (k, t', st')) → Atom k
  | .wild, st, ho, k, t', st', h => by simp [kinfer] at h
  | .var v, st, ho, k, t', st', h => by
      simp only [kinfer, kinferVar] at h
      cases e : E.tv v with
      | none => rw [e] at h; simp at h
      | some k0 =>
        rw [e] at h
        obtain ⟨a, _, h2⟩ := kbind_ok h
        cases h2
        exact (instK_ok ho (a := E.vk v) (fun k e => ho.vk v k e)).2.2.2.1
  | .uni u, st, ho, k, t', st', h => by
      simp only [kinfer, kinferUni] at h
      cases h
      exact (instK_ok ho (a := E.uk u) (fun k e => ho.uk u k e)).2.2.2.1
  | .con c [], st, ho, k, t', st', h => by
      simp only [kinfer, give] at h
      obtain ⟨a, _, h2⟩ := kbind_ok h
      cases h2; trivial
  | .con c (t :: ts), st, ho, k, t', st', h => by
      simp only [kinfer, give] at h
      obtain ⟨a, _, h2⟩ := kbind_ok h
      cases h2; trivial
  | .fn x p q t, st, ho, k, t', st', h => by
      simp only [kinfer] at h
      obtain ⟨a, _, h⟩ := kbind_ok h
      obtain ⟨b, _, h⟩ := kbind_ok h
      obtain ⟨c, _, h⟩ := kbind_ok h
      obtain ⟨d, _, h⟩ := kbind_ok h
      cases h; trivial
  | .tup p q, st, ho, k, t', st', h => by
      simp only [kinfer] at h
      obtain ⟨a, _, h⟩ := kbind_ok h
      obtain ⟨b, _, h⟩ := kbind_ok h
      cases h; trivial
  | .opt t, st, ho, k, t', st', h => by
      simp only [kinfer, kinferOpt] at h
      by_cases e : isOpt t = true
      · rw [if_pos e] at h
        exact infer_atom_n t ho h
      · rw [if_neg e] at h
        simp only [give] at h
        obtain ⟨a, _, h2⟩ := kbind_ok h
        cases h2; trivial
  | .none_, st, ho, k, t', st', h => by simp only [kinfer] at h; cases h; trivial
  | .nil q, st, ho, k, t', st', h => by simp only [kinfer] at h; cases h; exact atom_rk q
  | .row q m t r, st, ho, k, t', st', h => by
      simp only [kinfer] at h
      obtain ⟨a, _, h⟩ := kbind_ok h
      obtain ⟨b, _, h⟩ := kbind_ok h
      cases h; exact atom_rk q
  | .star q r, st, ho, k, t', st', h => by
      simp only [kinfer, give] at h
      obtain ⟨a, _, h⟩ := kbind_ok h
      cases h; exact atom_rk q
  | .fx x, st, ho, k, t', st', h => by simp only [kinfer] at h; cases h; trivial

theorem infer_atom {E : KEnv} (t : Ty) {st : KSt} (ho : Ok E st) {k t' st'}
    (h : Ev (fun n => kinfer n E st t) (.ok (k, t', st'))) : Atom k := by
  obtain ⟨N, hN⟩ := h
  exact infer_atom_n t ho (hN N (Nat.le_refl _))

mutual
/-- Kind inference ends, and gives the most general kind or an error if there is none. -/
theorem infer_ok {E : KEnv} : ∀ (t : Ty) {st : KSt}, Ok E st →
    ∃ o, Ev (fun n => kinfer n E st t) o ∧ I E st (fun θ κ => Has E θ t κ) o
  | .wild, st, ho => ⟨.err, ⟨0, fun n _ => by simp only [kinfer]⟩, fun θ κ _ h => by cases h⟩
  | .var v, st, ho => by simp only [kinfer]; exact var_ok ho v
  | .uni u, st, ho => by simp only [kinfer]; exact uni_ok ho u
  | .con c [], st, ho => by
      simp only [kinfer]
      obtain ⟨o, h1, h2⟩ := give_ok (k0 := .ktype) ⟨trivial, trivial⟩ (w := fun r => id r.1)
        (g := fun r => some (.ok (.ktype, id r.1, r.2))) (fun r => rfl)
        (expect_ok (k0 := .ktype) ⟨trivial, trivial⟩ (con0_ok ho c))
      refine ⟨o, h1, I_congr ?_ h2⟩
      intro θ κ
      constructor
      · rintro ⟨rfl, k, a, b⟩; exact .con0 a b
      · intro h; cases h with
        | con0 a b => exact ⟨rfl, _, a, b⟩
  | .con c (t :: ts), st, ho => by
      simp only [kinfer]
      obtain ⟨o, h1, h2⟩ := give_ok (k0 := .ktype) ⟨trivial, trivial⟩ (w := fun r => id r.1)
        (g := fun r => some (.ok (.ktype, id r.1, r.2))) (fun r => rfl)
        (expect_ok (k0 := .ktype) ⟨trivial, trivial⟩ (app_ok (c := c) ho (infers_ok (t :: ts) ho)))
      refine ⟨o, h1, I_congr ?_ h2⟩
      intro θ κ
      constructor
      · rintro ⟨rfl, k, κs, a, b, d⟩; exact .con a b d
      · intro h; cases h with
        | con a b d => exact ⟨rfl, _, _, a, b, d⟩
  | .fn x p k t, st, ho => by
      simp only [kinfer]
      obtain ⟨o, h1, h2⟩ := bind_I (kfx_ok (infer_ok x ho))
        (g := fun n r => kbind (expect n .prow (kinfer n E r.2 p)) fun r2 =>
          kbind (expect n .krow (kinfer n E r2.2 k)) fun r3 =>
          kbind (expect n .ktype (kinfer n E r3.2 t)) fun r4 =>
          some (.ok (.ktype, .fn r.1 r2.1 r3.1 r4.1, r4.2)))
        (Q := fun θ κ => Has E θ p .prow ∧ Has E θ k .krow ∧ Has E θ t .ktype ∧ κ = .ktype)
        (fun x' st1 ho1 => bind_I (expect_ok (k0 := .prow) ⟨trivial, trivial⟩ (infer_ok p ho1))
          (fun p' st2 ho2 => bind_I (expect_ok (k0 := .krow) ⟨trivial, trivial⟩ (infer_ok k ho2))
            (fun k' st3 ho3 => bind_I
              (expect_ok (k0 := .ktype) ⟨trivial, trivial⟩ (infer_ok t ho3))
              (fun t' st4 ho4 => ⟨_, ev_const _, const_ok (k0 := .ktype) ho4 ⟨trivial, trivial⟩ _⟩)
              (fun θ θ' κ _ h => h))
            (fun θ θ' κ ha h => ⟨has_agree ho2 ha h.1, h.2⟩))
          (fun θ θ' κ ha h => ⟨has_agree ho1 ha h.1, has_agree ho1 ha h.2.1, h.2.2⟩))
        (fun θ θ' κ ha h => ⟨has_agree ho ha h.1, has_agree ho ha h.2.1, has_agree ho ha h.2.2.1,
          h.2.2.2⟩)
      refine ⟨o, h1, I_congr ?_ h2⟩
      intro θ κ
      constructor
      · rintro ⟨⟨a, b⟩, d, e, f, rfl⟩; exact .fn a b d e f
      · intro h; cases h with
        | fn a b d e f => exact ⟨⟨a, b⟩, d, e, f, rfl⟩
  | .tup p k, st, ho => by
      simp only [kinfer]
      obtain ⟨o, h1, h2⟩ := bind_I (expect_ok (k0 := .prow) ⟨trivial, trivial⟩ (infer_ok p ho))
        (g := fun n r2 => kbind (expect n .krow (kinfer n E r2.2 k)) fun r3 =>
          some (.ok (.ktype, .tup r2.1 r3.1, r3.2)))
        (Q := fun θ κ => Has E θ k .krow ∧ κ = .ktype)
        (fun p' st2 ho2 => bind_I (expect_ok (k0 := .krow) ⟨trivial, trivial⟩ (infer_ok k ho2))
          (fun t' st4 ho4 => ⟨_, ev_const _, const_ok (k0 := .ktype) ho4 ⟨trivial, trivial⟩ _⟩)
          (fun θ θ' κ _ h => h))
        (fun θ θ' κ ha h => ⟨has_agree ho ha h.1, h.2⟩)
      refine ⟨o, h1, I_congr ?_ h2⟩
      intro θ κ
      constructor
      · rintro ⟨d, e, rfl⟩; exact .tup d e
      · intro h; cases h with
        | tup d e => exact ⟨d, e, rfl⟩
  | .opt t, st, ho => by simp only [kinfer]; exact opt_ok (infer_ok t ho)
  | .none_, st, ho => by
      simp only [kinfer]
      refine ⟨_, ev_const _, I_congr ?_ (const_ok (k0 := .ktype) ho ⟨trivial, trivial⟩ _)⟩
      intro θ κ
      constructor
      · rintro rfl; exact .none_
      · intro h; cases h; rfl
  | .nil k, st, ho => by
      simp only [kinfer]
      refine ⟨_, ev_const _, I_congr ?_ (const_ok ho (const_rk k) _)⟩
      intro θ κ
      constructor
      · rintro rfl; exact .nil
      · intro h; cases h; rfl
  | .row k m t r, st, ho => by
      simp only [kinfer]
      obtain ⟨o, h1, h2⟩ := bind_I (expect_ok (k0 := .ktype) ⟨trivial, trivial⟩ (infer_ok t ho))
        (g := fun n r2 => kbind (expect n (rk k) (kinfer n E r2.2 r)) fun r3 =>
          some (.ok (rk k, .row k m r2.1 r3.1, r3.2)))
        (Q := fun θ κ => Has E θ r (rk k) ∧ κ = rk k)
        (fun p' st2 ho2 => bind_I (expect_ok (const_rk k) (infer_ok r ho2))
          (fun t' st4 ho4 => ⟨_, ev_const _, const_ok ho4 (const_rk k) _⟩)
          (fun θ θ' κ _ h => h))
        (fun θ θ' κ ha h => ⟨has_agree ho ha h.1, h.2⟩)
      refine ⟨o, h1, I_congr ?_ h2⟩
      intro θ κ
      constructor
      · rintro ⟨d, e, rfl⟩; exact .row d e
      · intro h; cases h with
        | row d e => exact ⟨d, e, rfl⟩
  | .star k r, st, ho => by
      simp only [kinfer]
      obtain ⟨o, h1, h2⟩ := give_ok (const_rk k) (w := fun x => Ty.star k x.1)
        (g := fun x => some (.ok (rk k, .star k x.1, x.2))) (fun r => rfl)
        (expect_ok (const_rk k) (infer_ok r ho))
      refine ⟨o, h1, I_congr ?_ h2⟩
      intro θ κ
      constructor
      · rintro ⟨rfl, h⟩; exact .star h
      · intro h; cases h with
        | star h => exact ⟨rfl, h⟩
  | .fx x, st, ho => by
      simp only [kinfer]
      refine ⟨_, ev_const _, I_congr ?_ (const_ok (k0 := .kfx) ho ⟨trivial, trivial⟩ _)⟩
      intro θ κ
      constructor
      · rintro rfl; exact .fx
      · intro h; cases h; rfl
/-- The same for lists of types; the kinds are no functions. -/
theorem infers_ok {E : KEnv} : ∀ (ts : List Ty) {st : KSt}, Ok E st →
    ∃ o, Ev (fun n => kinfers n E st ts) o ∧ IL E st (fun θ κs => HasL E θ ts κs) o
  | [], st, ho => by
      refine ⟨.ok ([], [], st), ⟨0, fun n _ => by simp only [kinfers]⟩, ho, Nat.le_refl _,
        by simp, fun θ hθ => ⟨hθ, .nil⟩, ?_⟩
      intro θ κs hθ h
      cases h
      exact ⟨θ, fun _ _ => rfl, hθ, rfl⟩
  | t :: ts, st, ho => by
      simp only [kinfers]
      obtain ⟨o, h1, h2⟩ := infer_ok t ho
      cases o with
      | err =>
        refine ⟨.err, ev_bind_err h1, ?_⟩
        intro θ κs hθ h
        cases h with
        | cons a b => exact h2 θ _ hθ a
      | ok r =>
        obtain ⟨k, t', st1⟩ := r
        have hat : Atom k := infer_atom t ho h1
        obtain ⟨i1, i2, _, i4, i5, i6⟩ := h2
        obtain ⟨o, g1, g2⟩ := infers_ok ts i1
        cases o with
        | err =>
          refine ⟨.err, ev_bind h1 (ev_bind_err g1), ?_⟩
          intro θ κs hθ h
          cases h with
          | cons a b =>
            obtain ⟨θ', x, y, _⟩ := i6 θ _ hθ a
            exact g2 θ' _ y (hasL_agree ho x b)
        | ok r' =>
          obtain ⟨ks, ts', st2⟩ := r'
          obtain ⟨j1, j2, j3, j4, j5⟩ := g2
          refine ⟨.ok (k :: ks, t' :: ts', st2), ev_bind h1 (ev_bind g1 (ev_const _)), j1,
            Nat.le_trans i2 j2, ?_, ?_, ?_⟩
          · intro a ha
            rcases List.mem_cons.mp ha with rfl | ha
            · exact ⟨hat, i4.mono j2⟩
            · exact j3 a ha
          · intro θ hθ
            obtain ⟨a, b⟩ := j4 θ hθ
            obtain ⟨d, e⟩ := i5 θ a
            exact ⟨d, .cons e b⟩
          · intro θ κs hθ h
            cases h with
            | cons a b =>
              obtain ⟨θ1, x1, y1, z1⟩ := i6 θ _ hθ a
              obtain ⟨θ2, x2, y2, z2⟩ := j5 θ1 _ y1 (hasL_agree ho x1 b)
              refine ⟨θ2, x1.trans (x2.mono i2), y2, ?_⟩
              simp only [insts]
              rw [z2, ← inst_agree x2 (.inl hat) i4, z1]
end

end Verif.Kinds
