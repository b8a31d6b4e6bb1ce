import Verif.Lift.Keys

/-!
# The lifted program does what the program does
-/

namespace Verif.Lift

open Syn

/-- From some point on. -/
def Evt (p : Nat → Prop) : Prop := ∃ n, ∀ m, n ≤ m → p m

theorem Evt.and {p q : Nat → Prop} (h1 : Evt p) (h2 : Evt q) : Evt fun m => p m ∧ q m := by
  obtain ⟨a, ha⟩ := h1
  obtain ⟨b, hb⟩ := h2
  exact ⟨max a b, fun m hm => ⟨ha m (by omega), hb m (by omega)⟩⟩

theorem Evt.succ {p q : Nat → Prop} (h : Evt p) (hpq : ∀ m, p m → q (m + 1)) : Evt q := by
  obtain ⟨a, ha⟩ := h
  refine ⟨a + 1, fun m hm => ?_⟩
  obtain ⟨k, rfl⟩ : ∃ k, m = k + 1 := ⟨m - 1, by omega⟩
  exact hpq k (ha k (by omega))

theorem Evt.true {p : Nat → Prop} (h : ∀ m, p (m + 1)) : Evt p :=
  Evt.succ (p := fun _ => True) ⟨0, fun _ _ => trivial⟩ fun m _ => h m

/-! ## Frames -/

/-- Each frame has only its own variables. -/
def Dom (fs : List Frame) (Bs : List (List Nm)) : Prop :=
  List.Forall₂ (fun fr B => ∀ x, fr.lookup x ≠ none → x ∈ B) fs Bs

theorem Dom.len {fs : List Frame} {Bs : List (List Nm)} (h : Dom fs Bs) : fs.length = Bs.length :=
  List.Forall₂.length_eq h

theorem Dom.drop {fs : List Frame} {Bs : List (List Nm)} (h : Dom fs Bs) (j : Nat) :
    Dom (fs.drop j) (Bs.drop j) := by
  induction j generalizing fs Bs with
  | zero => exact h
  | succ j ih =>
    cases h with
    | nil => exact List.Forall₂.nil
    | cons _ h => exact ih h

theorem Dom.look_drop {fs : List Frame} {Bs : List (List Nm)} (h : Dom fs Bs) {j : Nat} {x : Nm}
    (hx : ∀ B ∈ Bs.take j, x ∉ B) : look fs x = look (fs.drop j) x := by
  induction j generalizing fs Bs with
  | zero => rfl
  | succ j ih =>
    cases h with
    | nil => rfl
    | @cons fr B fs Bs h1 h =>
      have : fr.lookup x = none := by
        by_contra hc
        exact hx B (by simp) (h1 x hc)
      simp only [look, this, List.drop_succ_cons]
      exact ih h fun B hB => hx B (by simp [hB])

theorem Dom.look_none {fs : List Frame} {Bs : List (List Nm)} (h : Dom fs Bs) {x : Nm}
    (hx : ∀ B ∈ Bs, x ∉ B) : look fs x = none := by
  induction h with
  | nil => rfl
  | @cons fr B fs Bs h1 h ih =>
    have : fr.lookup x = none := by
      by_contra hc
      exact hx B (by simp) (h1 x hc)
    simp only [look, this]
    exact ih fun B hB => hx B (by simp [hB])

theorem look_set {fr : Frame} {fs : List Frame} {x : Nm} {v : Nat} {y : Nm} :
    look (set (fr :: fs) x v) y = if y = x then some v else look (fr :: fs) y := by
  simp only [set, look, List.lookup_cons]
  by_cases h : y = x
  · simp [h]
  · simp only [show (y == x) = false by simpa using h, if_neg h]

theorem lookup_cons_eq (x y : Nm) (v : Nat) (tf : Frame) :
    ((x, v) :: tf : Frame).lookup y = if y = x then some v else tf.lookup y := by
  rw [List.lookup_cons]
  by_cases h : y = x
  · simp [h]
  · simp only [show (y == x) = false by simpa using h, if_neg h]

theorem lookup_zip_none {xs : List Nm} {vs : List Nat} {x : Nm} (h : x ∉ xs) :
    (xs.zip vs).lookup x = none := by
  rw [lookup_none_iff]
  intro hm
  rw [List.mem_map] at hm
  obtain ⟨p, hp, rfl⟩ := hm
  exact h (List.of_mem_zip (a := p.1) (b := p.2) hp).1

theorem lookup_zip_ne_none {xs : List Nm} {vs : List Nat} (hl : xs.length = vs.length) {x : Nm}
    (h : x ∈ xs) : (xs.zip vs).lookup x ≠ none := by
  rw [Ne, lookup_none_iff, not_not, List.map_fst_zip (by omega)]
  exact h

theorem lookup_zip_map {xs : List Nm} {g : Nm → Nat} {x : Nm} (h : x ∈ xs) :
    (xs.zip (xs.map g)).lookup x = some (g x) := by
  induction xs with
  | nil => simp at h
  | cons y ys ih =>
    simp only [List.map_cons, List.zip_cons_cons, List.lookup_cons]
    by_cases hy : x = y
    · simp [hy]
    · simp only [show (x == y) = false by simpa using hy]
      exact ih (by simpa [hy] using h)

/-! ## Agreement -/

/-- The frames fit the place. -/
structure Rt (ctx : Ctx) (fs : List Frame) : Prop where
  dom : Dom fs ctx.Bs
  defd : ∀ x ∈ ctx.D, look fs x ≠ none

/-- The one frame of the lifted program has the same variables. -/
def Agr (P : Nm → Prop) (tf : Frame) (fs : List Frame) : Prop :=
  ∀ x, P x → tf.lookup x = look fs x

/-- The names are covered, and what is passed for them is. -/
def Use (P : Nm → Prop) (F : FMap) (xs : List Nm) : Prop :=
  ∀ x ∈ xs, P x ∧ ∀ M, F.lookup x = some M → ∀ y ∈ M, P y

theorem Use.mono {P : Nm → Prop} {F : FMap} {xs ys : List Nm} (h : Use P F xs)
    (hs : ∀ y ∈ ys, y ∈ xs) : Use P F ys := fun y hy => h y (hs y hy)

theorem look1 (tf : Frame) (x : Nm) : look [tf] x = tf.lookup x := by
  simp only [look]
  cases tf.lookup x <;> rfl

/-! ## Suites -/

theorem through_eq : {t : Srt} → (s : Syn Nm t) → s.through = s.falls
  | _, .done => rfl
  | _, .assign _ _ r => by simp only [through, falls, through_eq r]
  | _, .ifs _ b1 b2 r => by simp only [through, falls, through_eq b1, through_eq b2, through_eq r]
  | _, .whl _ _ r => by simp only [through, falls, through_eq r]
  | _, .ret _ _ => rfl
  | _, .decl _ r => by simp only [through, falls, through_eq r]
  | _, .var _ => rfl
  | _, .op _ _ => rfl
  | _, .call _ _ => rfl
  | _, .enil => rfl
  | _, .econs _ _ => rfl
  | _, .dnil => rfl
  | _, .dcons _ _ _ _ => rfl

theorem sure_sub : (s : Syn Nm .s) → ∀ x ∈ s.sure, x ∈ s.envVars ∧ x ∈ s.assigned
  | .done => by simp [sure]
  | .assign y a r => by
    intro x hx
    simp only [sure, envVars, assigned, List.mem_cons] at hx ⊢
    rcases hx with hx | hx
    · exact ⟨Or.inl hx, Or.inl hx⟩
    · exact ⟨Or.inr (sure_sub r x hx).1, Or.inr (sure_sub r x hx).2⟩
  | .ifs c b1 b2 r => by
    intro x hx
    have i1 := sure_sub b1 x
    have i2 := sure_sub b2 x
    have i3 := sure_sub r x
    simp only [sure, through_eq, envVars, assigned, List.mem_append, common] at hx ⊢
    rcases hx with hx | hx
    · cases h1 : b1.falls <;> cases h2 : b2.falls <;>
        simp only [h1, h2, Bool.false_eq_true, if_true, if_false, List.mem_filter,
          decide_eq_true_eq, List.not_mem_nil] at hx ⊢ <;> tauto
    · tauto
  | .whl c b r => by
    intro x hx
    simp only [sure, envVars, assigned, List.mem_append] at hx ⊢
    exact ⟨(sure_sub r x hx).1, Or.inr (sure_sub r x hx).2⟩
  | .ret a r => by
    intro x hx
    simp only [sure, envVars, assigned] at hx ⊢
    exact sure_sub r x hx
  | .decl ds r => by
    intro x hx
    simp only [sure, envVars, assigned, List.mem_append] at hx ⊢
    exact ⟨(sure_sub r x hx).1, Or.inr (sure_sub r x hx).2⟩

theorem envVars_sub : (s : Syn Nm .s) → ∀ x ∈ s.envVars, x ∈ s.vars
  | .done => by simp [envVars]
  | .assign y a r => by
    intro x hx
    simp only [envVars, vars, List.mem_cons] at hx ⊢
    exact hx.imp id (envVars_sub r x)
  | .ifs c b1 b2 r => by
    intro x hx
    have i1 := envVars_sub b1 x
    have i2 := envVars_sub b2 x
    have i3 := envVars_sub r x
    simp only [envVars, vars, List.mem_append, common] at hx ⊢
    rcases hx with hx | hx
    · cases h1 : b1.falls <;> cases h2 : b2.falls <;>
        simp only [h1, h2, Bool.false_eq_true, if_true, if_false, List.mem_filter,
          decide_eq_true_eq, List.not_mem_nil] at hx <;> tauto
    · tauto
  | .whl c b r => by
    intro x hx
    simp only [envVars, vars, List.mem_append] at hx ⊢
    exact Or.inr (envVars_sub r x hx)
  | .ret a r => by
    intro x hx
    simp only [envVars, vars] at hx ⊢
    exact envVars_sub r x hx
  | .decl ds r => by
    intro x hx
    simp only [envVars, vars] at hx ⊢
    exact envVars_sub r x hx

theorem mem_common {f1 f2 : Bool} {v1 v2 b2 : List Nm} {x : Nm} (h : x ∈ common f1 f2 v1 v2 b2) :
    x ∈ v1 ∨ x ∈ v2 := by
  cases f1 <;> cases f2 <;> simp [common] at h <;> tauto

/-! ## Entering a function -/

/-- The place inside a function. -/
def inside (ch : Ctx) (ps : List Nm) (b : Syn Nm .s) : Ctx :=
  ⟨ch.Φ, ch.env.extLocals ps, ps ++ ch.D, fun x => ch.V x ∨ x ∈ ps ++ b.assigned,
    fun x => ch.W x ∨ x ∈ ps ++ b.vars, (ps ++ b.vars) :: ch.Bs⟩

/-- The names that matter inside a function. -/
def Names (U ps : List Nm) (b : Syn Nm .s) (x : Nm) : Prop := x ∈ U ∨ x ∈ ps ∨ x ∈ b.assigned

variable {T : List TDef} {ctx ch : Ctx} {h : Nm} {ps : List Nm} {b : Syn Nm .s} {Φh : FEnv} {k : Nat}
  {M U : List Nm}

theorem Found.look (F : Found T ctx h ps b Φh k ch M U) {fs : List Frame} (hr : Rt ctx fs) {x : Nm}
    (hx : ch.V x) : Lift.look fs x = Lift.look (fs.drop (fs.length - k)) x := by
  refine hr.dom.look_drop ?_
  rw [hr.dom.len]
  exact F.apart x hx

theorem Found.rt (F : Found T ctx h ps b Φh k ch M U) {fs : List Frame} (hr : Rt ctx fs)
    {vs : List Nat} (hl : ps.length = vs.length) :
    Rt (inside ch ps b) (ps.zip vs :: fs.drop (fs.length - k)) := by
  refine ⟨List.Forall₂.cons ?_ ?_, ?_⟩
  · intro x hx
    by_contra hc
    exact hx (lookup_zip_none fun hp => hc (List.mem_append_left _ hp))
  · rw [F.hBs, hr.dom.len]
    exact hr.dom.drop _
  · intro x hx
    simp only [Lift.look]
    rcases List.mem_append.1 hx with hx | hx
    · have := lookup_zip_ne_none hl hx
      cases hz : (ps.zip vs).lookup x with
      | none => exact absurd hz this
      | some v => simp
    · cases hz : (ps.zip vs).lookup x with
      | some v => simp
      | none =>
        rw [← F.look hr (F.chain.W_sub_V x (F.chain.L_sub_W x (F.chain.D_sub_L x hx)))]
        exact hr.defd x (F.hD x hx)

/-- The values of the additional arguments. -/
def vals (fs : List Frame) (xs : List Nm) : List Nat := xs.map fun x => (look fs x).getD 0

theorem Found.agr (F : Found T ctx h ps b Φh k ch M U) {fs : List Frame} (hr : Rt ctx fs)
    {vs : List Nat} :
    Agr (Names U ps b)
      ((M.filter (· ∈ ch.env.L) ++ ps).zip (vals fs (M.filter (· ∈ ch.env.L)) ++ vs))
      (ps.zip vs :: fs.drop (fs.length - k)) := by
  have hzip : (M.filter (· ∈ ch.env.L) ++ ps).zip (vals fs (M.filter (· ∈ ch.env.L)) ++ vs) =
      (M.filter (· ∈ ch.env.L)).zip (vals fs (M.filter (· ∈ ch.env.L))) ++ ps.zip vs :=
    List.zip_append (by simp [vals])
  have hdom : Dom (fs.drop (fs.length - k)) ch.Bs := by
    rw [F.hBs, hr.dom.len]; exact hr.dom.drop _
  have hnone : ∀ x, ¬ ch.W x → Lift.look (fs.drop (fs.length - k)) x = none := by
    intro x hw
    refine hdom.look_none fun B hB hx => hw ?_
    rw [F.chain.mem_W]
    exact ⟨B, hB, hx⟩
  intro x hx
  rw [hzip, lookup_append_l]
  by_cases hm : x ∈ M.filter (· ∈ ch.env.L)
  · obtain ⟨hm1, hm2⟩ := List.mem_filter.1 hm
    obtain ⟨hps, hV, _⟩ := F.hM x hm1
    have hdef : Lift.look fs x ≠ none := by
      refine hr.defd x (F.hD x ?_)
      exact (F.hM x hm1).2.2 (F.chain.L_sub_W x (by simpa using hm2))
    rw [vals, lookup_zip_map hm]
    simp only [Lift.look, lookup_zip_none hps]
    rw [← F.look hr hV]
    cases hlk : Lift.look fs x with
    | none => exact absurd hlk hdef
    | some v => rfl
  · rw [lookup_zip_none hm]
    simp only [Lift.look]
    cases hz : (ps.zip vs).lookup x with
    | some v => rfl
    | none =>
      simp only
      by_cases hw : ch.W x
      · rcases hx with hx | hx | hx
        · rcases F.hU x hx with hp | ⟨h1, h2⟩ | h1
          · exact absurd (F.chain.W_sub_V x hw) (F.hs.1 x (List.mem_append_left _ hp))
          · exact absurd (List.mem_filter.2 ⟨h1, by simpa using h2⟩) hm
          · exact absurd hw h1
        · exact absurd (F.chain.W_sub_V x hw) (F.hs.1 x (List.mem_append_left _ hx))
        · exact absurd (F.chain.W_sub_V x hw) (F.hs.1 x (List.mem_append_right _ hx))
      · exact (hnone x hw).symm

theorem Found.use (F : Found T ctx h ps b Φh k ch M U) :
    Use (Names U ps b) (inside ch ps b).env.F (b.free ++ b.assigned) := by
  intro x hx
  have hF : (inside ch ps b).env.F = ch.env.F := rfl
  by_cases hb : x ∈ ps ++ b.assigned
  · refine ⟨Or.inr (List.mem_append.1 hb), fun M' hM' => ?_⟩
    exact absurd (F.chain.F_dom x M' hM') (F.hs.1 x hb)
  · have hx : x ∈ freeDef ps b := by
      rcases List.mem_append.1 hx with hx | hx
      · exact List.mem_filter.2 ⟨hx, by simpa using hb⟩
      · exact absurd (List.mem_append_right _ hx) hb
    exact ⟨Or.inl (F.free x hx), fun M' hM' y hy => Or.inl (F.closed x hx M' hM' y hy)⟩

/-- The chain inside a function. -/
theorem Found.inside (F : Found T ctx h ps b Φh k ch M U) : Chain T (inside ch ps b) := by
  obtain ⟨Φ, env, D, V, W, Bs⟩ := ch
  exact Chain.enter F.chain F.hs.1

/-! ## The lifted program -/

variable {I : Nat → List Nat → Option Nat} {γ : Nm → Option Nat}

/-- What the lifted program evaluates, in the end. -/
def Gives (T : List TDef) (I : Nat → List Nat → Option Nat) (γ : Nm → Option Nat) (tf : Frame)
    {s : Srt} (t : Syn TName s) (r : Res s) : Prop :=
  Evt fun m => ev (tgt T) I γ m () [tf] t = some r

theorem gives_addArgs {tf : Frame} {g : Nm → Nat} {as : Syn TName .es} {vs : List Nat}
    (has : Gives T I γ tf as vs) (xs : List Nm) (hx : ∀ x ∈ xs, tf.lookup x = some (g x)) :
    Gives T I γ tf (addArgs xs as) (xs.map g ++ vs : List Nat) := by
  induction xs with
  | nil => exact has
  | cons x xs ih =>
    have hv : Gives T I γ tf (.var x) (g x) := by
      refine Evt.true fun m => ?_
      simp only [ev, look1, hx x (by simp)]
    refine Evt.succ (Evt.and hv (ih fun y hy => hx y (by simp [hy]))) fun m hm => ?_
    have e1 : addArgs (x :: xs) as = .econs (.var x) (addArgs xs as) := rfl
    rw [e1]
    simp only [ev, hm.1, hm.2, Option.bind_some, Option.map_some]
    rfl

/-- Expressions. -/
def SimE (T : List TDef) (I : Nat → List Nat → Option Nat) (γ : Nm → Option Nat) (n : Nat) : Prop :=
  ∀ ctx fs tf P, Chain T ctx → Rt ctx fs → Agr P tf fs → ∀ (a : Syn Nm .e) v,
    Use P ctx.env.F a.free → ev src I γ n ctx.Φ fs a = some v → Gives T I γ tf (llE ctx.env a) v

/-- Lists of expressions. -/
def SimEs (T : List TDef) (I : Nat → List Nat → Option Nat) (γ : Nm → Option Nat) (n : Nat) : Prop :=
  ∀ ctx fs tf P, Chain T ctx → Rt ctx fs → Agr P tf fs → ∀ (as : Syn Nm .es) vs,
    Use P ctx.env.F as.free → ev src I γ n ctx.Φ fs as = some vs →
    Gives T I γ tf (llE.llEs ctx.env as) vs

/-- Suites. -/
def SimS (T : List TDef) (I : Nat → List Nat → Option Nat) (γ : Nm → Option Nat) (n : Nat) : Prop :=
  ∀ ctx fs tf P, Chain T ctx → Rt ctx fs → Agr P tf fs → ∀ (s : Syn Nm .s) c q,
    Use P ctx.env.F (s.free ++ s.assigned) → s.Scoped ctx.V ctx.W ctx.D →
    InT T (llS ctx.env c s).top → ctx.Bs ≠ [] → (∀ x ∈ s.vars, x ∈ ctx.Bs.headD []) →
    (∀ x ∈ s.assigned, ctx.V x) → ev src I γ n ctx.Φ fs s = some q →
    ∃ tf', Gives T I γ tf (llS ctx.env c s).s (([tf'], q.2) : List Frame × Option Nat) ∧
      Agr P tf' q.1 ∧ Rt ctx q.1 ∧ (q.2 = none → s.falls = true ∧ ∀ x ∈ s.sure, look q.1 x ≠ none)

theorem ev_call {φ E : Type} {Λ : Lang φ E} {n : Nat} {Φ : E} {fs : List Frame} {f : φ}
    {as : Syn φ .es} {vs : List Nat} {d : List Nm × Syn φ .s × E × Nat} {q : List Frame × Option Nat}
    (h1 : ev Λ I γ n Φ fs as = some vs) (h2 : Λ.find Φ f = some d) (h3 : d.1.length = vs.length)
    (h4 : ev Λ I γ n d.2.2.1 (d.1.zip vs :: fs.drop (fs.length - d.2.2.2)) d.2.1 = some q) :
    ev Λ I γ (n + 1) Φ fs (.call f as) = some (q.2.getD 0 : Nat) := by
  simp only [ev, h1, h2]
  show (if d.1.length = vs.length then _ else _) = _
  rw [if_pos h3]
  refine (congrArg (Option.map _) h4).trans ?_
  rfl

theorem simE_succ {n : Nat} (hes : SimEs T I γ n) (hs : SimS T I γ n) : SimE T I γ (n + 1) := by
  intro ctx fs tf P hc hr ha a v hu hv
  match a, hu, hv with
  | .var x, hu, hv =>
    refine Evt.true fun m => ?_
    simp only [ev] at hv
    simp only [llE, ev, look1, ha x (hu x (by simp [Syn.free])).1]
    exact hv
  | .op j as, hu, hv =>
    simp only [ev] at hv
    obtain ⟨vs, h1, h2⟩ := Option.bind_eq_some_iff.1 hv
    have := hes ctx fs tf P hc hr ha as vs (by simpa only [Syn.free] using hu) h1
    refine Evt.succ this fun m hm => ?_
    simp only [llE, ev, hm, Option.bind_some]
    exact h2
  | .call f as, hu, hv =>
    simp only [ev] at hv
    obtain ⟨vs, h1, h2⟩ := Option.bind_eq_some_iff.1 hv
    obtain ⟨⟨ps, b, Φh, k⟩, h2, h3⟩ := Option.bind_eq_some_iff.1 h2
    simp only at h3
    split at h3
    rotate_left
    · cases h3
    rename_i hl
    obtain ⟨q, h3, h4⟩ := Option.map_eq_some_iff.1 h3
    have hu' : Use P ctx.env.F as.free := hu.mono fun y hy => by simp [Syn.free, hy]
    have hargs := hes ctx fs tf P hc hr ha as vs hu' h1
    obtain ⟨ch, M, U, F⟩ := hc.find h2
    obtain ⟨c, hT, hin⟩ := F.inT
    have hex : ctx.env.extraArgs f = M.filter (· ∈ ch.env.L) := by
      rw [F.extra]
      exact List.filter_congr fun x hx => by simp only [F.same x hx]
    have hdef : ∀ x ∈ M.filter (· ∈ ch.env.L), tf.lookup x = some ((look fs x).getD 0) := by
      intro x hx
      obtain ⟨hm1, hm2⟩ := List.mem_filter.1 hx
      have hL : x ∈ ctx.env.L := (F.same x hm1).2 (by simpa using hm2)
      obtain ⟨M', hM', hxM'⟩ := F.arg x hm1 hL
      have hP : P x := (hu f (by simp [Syn.free])).2 M' hM' x hxM'
      have hd : look fs x ≠ none := by
        refine hr.defd x (F.hD x ((F.hM x hm1).2.2 (F.chain.L_sub_W x (by simpa using hm2))))
      rw [ha x hP]
      cases hlk : look fs x with
      | none => exact absurd hlk hd
      | some v => rfl
    have hall := gives_addArgs hargs (M.filter (· ∈ ch.env.L)) hdef
    have hΦ := F.hΦ
    obtain ⟨tf', hb, -, -, -⟩ := hs (inside ch ps b) _ _ _ F.inside (F.rt hr hl) (F.agr hr) b c q
      F.use F.hs.2.2 hin (by simp [inside])
      (fun x hx => List.mem_append_right _ hx) (fun x hx => Or.inr (List.mem_append_right _ hx))
      (by
        have e1 : (inside ch ps b).Φ = Φh := hΦ
        rw [e1]
        exact h3)
    refine Evt.succ (Evt.and hall hb) fun m hm => ?_
    have hfind : (tgt T).find () (ctx.env.tname f) =
        some (M.filter (· ∈ ch.env.L) ++ ps, (llS (ch.env.extLocals ps) c b).s, (), 0) := by
      simp only [tgt, hT, Option.map_some]
    have e1 : llE ctx.env (.call f as) = .call (ctx.env.tname f)
        (addArgs (M.filter (· ∈ ch.env.L)) (llE.llEs ctx.env as)) := by rw [← hex]; simp only [llE]
    rw [e1]
    refine (ev_call (q := ([tf'], q.2)) hm.1 hfind ?_ hm.2).trans (congrArg some h4)
    have hl' : ∀ (xs ys : List Nm) (g : Nm → Nat) (us : List Nat), ys.length = us.length →
        (xs ++ ys).length = (xs.map g ++ us).length := by
      intro xs ys g us h
      rw [List.length_append, List.length_append, List.length_map, h]
    exact hl' _ _ _ _ hl

theorem simEs_succ {n : Nat} (he : SimE T I γ n) (hes : SimEs T I γ n) : SimEs T I γ (n + 1) := by
  intro ctx fs tf P hc hr ha as vs hu hv
  match as, hu, hv with
  | .enil, _, hv =>
    refine Evt.true fun m => ?_
    simp only [ev] at hv
    simp only [llE.llEs, ev]
    exact hv
  | .econs a as, hu, hv =>
    simp only [ev] at hv
    obtain ⟨v, h1, h2⟩ := Option.bind_eq_some_iff.1 hv
    obtain ⟨ws, h2, h3⟩ := Option.map_eq_some_iff.1 h2
    have i1 := he ctx fs tf P hc hr ha a v (hu.mono fun y hy => by simp [Syn.free, hy]) h1
    have i2 := hes ctx fs tf P hc hr ha as ws (hu.mono fun y hy => by simp [Syn.free, hy]) h2
    refine Evt.succ (Evt.and i1 i2) fun m hm => ?_
    simp only [llE.llEs, ev, hm.1, hm.2, Option.bind_some, Option.map_some]
    exact congrArg some h3

theorem Rt.set {ctx : Ctx} {fs : List Frame} (hr : Rt ctx fs) (hB : ctx.Bs ≠ []) {x : Nm}
    (hx : x ∈ ctx.Bs.headD []) (v : Nat) :
    (∀ y, look (Lift.set fs x v) y = if y = x then some v else look fs y) ∧
      Rt ctx (Lift.set fs x v) := by
  have hdom := hr.dom
  cases hfs : fs with
  | nil =>
    rw [hfs] at hdom
    exact absurd (List.length_eq_zero_iff.1 (hdom.len).symm) hB
  | cons fr rest =>
    rw [hfs] at hdom
    refine ⟨fun y => look_set, ?_, ?_⟩
    · cases hBs : ctx.Bs with
      | nil => exact absurd hBs hB
      | cons B Bs =>
        rw [hBs] at hdom hx
        cases hdom with
        | cons h1 h2 =>
          refine List.Forall₂.cons ?_ h2
          intro y hy
          rw [List.lookup_cons] at hy
          by_cases hyx : y = x
          · rw [hyx]; exact hx
          · simp only [show (y == x) = false by simpa using hyx] at hy
            exact h1 y hy
    · intro y hy
      rw [look_set]
      split
      · simp
      · rw [← hfs]; exact hr.defd y hy

theorem simS_succ {n : Nat} (he : SimE T I γ n) (hs : SimS T I γ n) : SimS T I γ (n + 1) := by
  intro ctx fs tf P hc hr ha s c q hu hsc hin hB hvars hV hq
  match s, hu, hsc, hin, hvars, hV, hq with
  | .done, hu, hsc, hin, hvars, hV, hq =>
    simp only [ev] at hq
    cases hq
    exact ⟨tf, Evt.true fun m => by simp only [llS, ev], ha, hr, fun _ => ⟨by simp only [falls], by simp [sure]⟩⟩
  | .assign x a r, hu, hsc, hin, hvars, hV, hq =>
    simp only [ev] at hq
    obtain ⟨v, h1, h2⟩ := Option.bind_eq_some_iff.1 hq
    simp only [llS] at hin
    simp only [Scoped] at hsc
    simp only [vars, List.mem_cons, forall_eq_or_imp] at hvars
    simp only [assigned, List.mem_cons, forall_eq_or_imp] at hV
    have i1 := he ctx fs tf P hc hr ha a v (hu.mono fun y hy => by simp [Syn.free, hy]) h1
    obtain ⟨hlk, hr'⟩ := hr.set hB hvars.1 v
    obtain ⟨Φ, ⟨L, F, N⟩, D, V, W, Bs⟩ := ctx
    have hc' : Chain T ⟨Φ, (LEnv.mk L F N).extLocals [x], x :: D, V, W, Bs⟩ := by
      refine Chain.grow hc ?_ ?_ ?_ ?_
      · intro y hy
        exact (mem_extLocals (env := ⟨L, F, N⟩)).2 (Or.inr hy)
      · intro y hy; exact List.mem_cons_of_mem _ hy
      · intro y hy
        refine (mem_extLocals (env := ⟨L, F, N⟩)).2 ?_
        rcases List.mem_cons.1 hy with hy | hy
        · exact Or.inl (by simp [hy])
        · exact Or.inr (hc.D_sub_L y hy)
      · intro y hy
        rcases (mem_extLocals (env := ⟨L, F, N⟩)).1 hy with hy | hy
        · rw [List.mem_singleton] at hy
          rw [hy]
          refine (hc.mem_W x).2 ⟨_, ?_, hvars.1⟩
          cases Bs with
          | nil => exact absurd rfl hB
          | cons B Bs => simp
        · exact hc.L_sub_W y hy
    have hr2 : Rt ⟨Φ, (LEnv.mk L F N).extLocals [x], x :: D, V, W, Bs⟩ (Lift.set fs x v) := by
      refine ⟨hr'.dom, ?_⟩
      intro y hy
      rcases List.mem_cons.1 hy with rfl | hy
      · rw [hlk]; simp
      · exact hr'.defd y hy
    have ha2 : Agr P ((x, v) :: tf) (Lift.set fs x v) := by
      intro y hy
      rw [hlk y]
      refine (lookup_cons_eq x y v tf).trans ?_
      rw [ha y hy]
    obtain ⟨tf', g1, g2, g3, g4⟩ := hs _ _ _ P hc' hr2 ha2 r c q
      (hu.mono fun y hy => by
        rcases List.mem_append.1 hy with hy | hy <;> simp [Syn.free, assigned, hy])
      hsc hin hB hvars.2 hV.2 h2
    refine ⟨tf', ?_, g2, ⟨g3.dom, fun y hy => g3.defd y (List.mem_cons_of_mem _ hy)⟩, ?_⟩
    · refine Evt.succ (Evt.and i1 g1) fun m hm => ?_
      simp only [llS, ev, hm.1]
      exact hm.2
    · intro hn
      obtain ⟨f1, f2⟩ := g4 hn
      refine ⟨by simpa only [falls] using f1, ?_⟩
      intro y hy
      simp only [sure, List.mem_cons] at hy
      rcases hy with rfl | hy
      · exact g3.defd y (by simp)
      · exact f2 y hy
  | .ifs e b1 b2 r, hu, hsc, hin, hvars, hV, hq =>
    simp only [ev] at hq
    obtain ⟨v, h1, h2⟩ := Option.bind_eq_some_iff.1 hq
    obtain ⟨q1, h2, h3⟩ := Option.bind_eq_some_iff.1 h2
    simp only [llS] at hin
    simp only [Scoped] at hsc
    simp only [vars, List.mem_append] at hvars
    simp only [assigned, List.mem_append] at hV
    have i1 := he ctx fs tf P hc hr ha e v (hu.mono fun y hy => by simp [Syn.free, hy]) h1
    have hbr : ∃ tf1, Evt (fun m => (if zero v then
          ev (tgt T) I γ m () [tf] (llS ctx.env (llS ctx.env c b1).c b2).s
          else ev (tgt T) I γ m () [tf] (llS ctx.env c b1).s) =
            some (([tf1], q1.2) : List Frame × Option Nat)) ∧
        Agr P tf1 q1.1 ∧ Rt ctx q1.1 ∧ (q1.2 = none →
          (b1.falls = true ∧ ∀ x ∈ b1.sure, look q1.1 x ≠ none) ∨
          (b2.falls = true ∧ ∀ x ∈ b2.sure, look q1.1 x ≠ none)) := by
      by_cases hz : zero v = true
      · rw [if_pos hz] at h2
        obtain ⟨tf1, g1, g2, g3, g4⟩ := hs ctx fs tf P hc hr ha b2 _ q1
          (hu.mono fun y hy => by
            rcases List.mem_append.1 hy with hy | hy <;> simp [Syn.free, assigned, hy])
          hsc.2.1 hin.app.1.app.2 hB (fun x hx => hvars x (Or.inl (Or.inr hx)))
          (fun x hx => hV x (Or.inl (Or.inr hx))) h2
        exact ⟨tf1, by simp only [if_pos hz]; exact g1, g2, g3, fun h => Or.inr (g4 h)⟩
      · rw [if_neg hz] at h2
        obtain ⟨tf1, g1, g2, g3, g4⟩ := hs ctx fs tf P hc hr ha b1 _ q1
          (hu.mono fun y hy => by
            rcases List.mem_append.1 hy with hy | hy <;> simp [Syn.free, assigned, hy])
          hsc.1 hin.app.1.app.1 hB (fun x hx => hvars x (Or.inl (Or.inl hx)))
          (fun x hx => hV x (Or.inl (Or.inl hx))) h2
        exact ⟨tf1, by simp only [if_neg hz]; exact g1, g2, g3, fun h => Or.inl (g4 h)⟩
    obtain ⟨tf1, g1, g2, g3, g4⟩ := hbr
    cases hq1 : q1.2 with
    | some w =>
      simp only [hq1] at h3
      cases h3
      refine ⟨tf1, ?_, g2, g3, fun h => by rw [hq1] at h; cases h⟩
      refine Evt.succ (Evt.and i1 g1) fun m hm => ?_
      simp only [llS, ev, hm.1]
      show Option.bind (if zero v then _ else _) _ = _
      rw [hm.2]
      show (match q.2 with | some _ => _ | none => _) = _
      simp only [hq1]
    | none =>
      simp only [hq1] at h3
      have g4 := g4 hq1
      obtain ⟨Φ, ⟨L, F, N⟩, D, V, W, Bs⟩ := ctx
      have hsure : ∀ y ∈ (Syn.ifs e b1 b2 .done).sure,
          y ∈ common b1.falls b2.falls b1.envVars b2.envVars b2.assigned ∧ look q1.1 y ≠ none := by
        intro y hy
        have i1 := sure_sub b1 y
        have i2 := sure_sub b2 y
        simp only [sure, through_eq, List.append_nil] at hy
        cases f1 : b1.falls <;> cases f2 : b2.falls <;>
          simp only [f1, f2, Bool.false_eq_true, if_true, if_false, List.mem_filter,
            decide_eq_true_eq, List.not_mem_nil, false_and, true_and, false_or, or_false] at hy g4 <;>
          simp only [common, Bool.false_eq_true, if_true, if_false, List.mem_filter,
            decide_eq_true_eq]
        · exact ⟨(i2 hy).1, g4 y hy⟩
        · exact ⟨(i1 hy).1, g4 y hy⟩
        · exact ⟨⟨(i1 hy.1).1, (i2 hy.2).2⟩, g4.elim (fun h => h y hy.1) (fun h => h y hy.2)⟩
      have hc' : Chain T ⟨Φ, (LEnv.mk L F N).extLocals
          (common b1.falls b2.falls b1.envVars b2.envVars b2.assigned),
          (Syn.ifs e b1 b2 .done).sure ++ D, V, W, Bs⟩ := by
        refine Chain.grow hc ?_ ?_ ?_ ?_
        · intro y hy
          exact (mem_extLocals (env := ⟨L, F, N⟩)).2 (Or.inr hy)
        · intro y hy; exact List.mem_append_right _ hy
        · intro y hy
          refine (mem_extLocals (env := ⟨L, F, N⟩)).2 ?_
          rcases List.mem_append.1 hy with hy | hy
          · exact Or.inl (hsure y hy).1
          · exact Or.inr (hc.D_sub_L y hy)
        · intro y hy
          rcases (mem_extLocals (env := ⟨L, F, N⟩)).1 hy with hy | hy
          · have : y ∈ Bs.headD [] :=
              hvars y (Or.inl ((mem_common hy).imp (envVars_sub b1 y) (envVars_sub b2 y)))
            refine (hc.mem_W y).2 ⟨_, ?_, this⟩
            cases Bs with
            | nil => exact absurd rfl hB
            | cons B Bs => simp
          · exact hc.L_sub_W y hy
      have hr2 : Rt ⟨Φ, (LEnv.mk L F N).extLocals
          (common b1.falls b2.falls b1.envVars b2.envVars b2.assigned),
          (Syn.ifs e b1 b2 .done).sure ++ D, V, W, Bs⟩ q1.1 := by
        refine ⟨g3.dom, ?_⟩
        intro y hy
        rcases List.mem_append.1 hy with hy | hy
        · exact (hsure y hy).2
        · exact g3.defd y hy
      obtain ⟨tf', k1, k2, k3, k4⟩ := hs _ _ _ P hc' hr2 g2 r _ q
        (hu.mono fun y hy => by
          rcases List.mem_append.1 hy with hy | hy <;> simp [Syn.free, assigned, hy])
        hsc.2.2 hin.app.2 hB (fun x hx => hvars x (Or.inr hx)) (fun x hx => hV x (Or.inr hx)) h3
      refine ⟨tf', ?_, k2, ⟨k3.dom, fun y hy => k3.defd y (List.mem_append_right _ hy)⟩, ?_⟩
      · refine Evt.succ (Evt.and i1 (Evt.and g1 k1)) fun m hm => ?_
        simp only [llS, ev, hm.1]
        show Option.bind (if zero v then _ else _) _ = _
        rw [hm.2.1]
        show (match q1.2 with | some _ => _ | none => _) = _
        simp only [hq1]
        exact hm.2.2
      · intro hn
        obtain ⟨f1, f2⟩ := k4 hn
        refine ⟨?_, ?_⟩
        · simp only [falls, f1, Bool.and_true, Bool.or_eq_true]
          exact g4.imp (fun h => h.1) (fun h => h.1)
        · intro y hy
          simp only [sure, List.mem_append] at hy
          rcases hy with hy | hy
          · refine k3.defd y (List.mem_append_left _ ?_)
            simp only [sure, List.append_nil]
            exact hy
          · exact f2 y hy
  | .whl e b r, hu, hsc, hin, hvars, hV, hq =>
    have hq0 := hq
    simp only [ev] at hq
    obtain ⟨v, h1, h2⟩ := Option.bind_eq_some_iff.1 hq
    have hin0 := hin
    simp only [llS] at hin
    have hsc0 := hsc
    simp only [Scoped] at hsc
    have hvars0 := hvars
    simp only [vars, List.mem_append] at hvars
    have hV0 := hV
    simp only [assigned, List.mem_append] at hV
    have i1 := he ctx fs tf P hc hr ha e v (hu.mono fun y hy => by simp [Syn.free, hy]) h1
    by_cases hz : zero v = true
    · rw [if_pos hz] at h2
      obtain ⟨tf', g1, g2, g3, g4⟩ := hs ctx fs tf P hc hr ha r _ q
        (hu.mono fun y hy => by
          rcases List.mem_append.1 hy with hy | hy <;> simp [Syn.free, assigned, hy])
        hsc.2 hin.app.2 hB (fun x hx => hvars x (Or.inr hx)) (fun x hx => hV x (Or.inr hx)) h2
      refine ⟨tf', ?_, g2, g3, ?_⟩
      · refine Evt.succ (Evt.and i1 g1) fun m hm => ?_
        simp only [llS, ev, hm.1]
        show (if zero v then _ else _) = _
        rw [if_pos hz]
        exact hm.2
      · intro hn
        obtain ⟨f1, f2⟩ := g4 hn
        exact ⟨by simpa only [falls] using f1, by simpa only [sure] using f2⟩
    · rw [if_neg hz] at h2
      obtain ⟨q1, h2, h3⟩ := Option.bind_eq_some_iff.1 h2
      obtain ⟨tf1, g1, g2, g3, g4⟩ := hs ctx fs tf P hc hr ha b _ q1
        (hu.mono fun y hy => by
          rcases List.mem_append.1 hy with hy | hy <;> simp [Syn.free, assigned, hy])
        hsc.1 hin.app.1 hB (fun x hx => hvars x (Or.inl hx)) (fun x hx => hV x (Or.inl hx)) h2
      cases hq1 : q1.2 with
      | some w =>
        simp only [hq1] at h3
        cases h3
        refine ⟨tf1, ?_, g2, g3, fun h => by rw [hq1] at h; cases h⟩
        refine Evt.succ (Evt.and i1 g1) fun m hm => ?_
        simp only [llS, ev, hm.1]
        show (if zero v then _ else Option.bind _ _) = _
        rw [if_neg hz, hm.2]
        show (match q.2 with | some _ => _ | none => _) = _
        simp only [hq1]
      | none =>
        simp only [hq1] at h3
        obtain ⟨tf', k1, k2, k3, k4⟩ := hs ctx q1.1 tf1 P hc g3 g2 (.whl e b r) c q hu hsc0 hin0 hB
          hvars0 hV0 h3
        refine ⟨tf', ?_, k2, k3, k4⟩
        refine Evt.succ (Evt.and i1 (Evt.and g1 k1)) fun m hm => ?_
        have k1' := hm.2.2
        simp only [llS] at k1'
        simp only [llS, ev, hm.1]
        show (if zero v then _ else Option.bind _ _) = _
        rw [if_neg hz, hm.2.1]
        show (match q1.2 with | some _ => _ | none => _) = _
        simp only [hq1]
        exact k1'
  | .ret a r, hu, hsc, hin, hvars, hV, hq =>
    simp only [ev] at hq
    obtain ⟨v, h1, h2⟩ := Option.map_eq_some_iff.1 hq
    have i1 := he ctx fs tf P hc hr ha a v (hu.mono fun y hy => by simp [Syn.free, hy]) h1
    cases h2
    refine ⟨tf, ?_, ha, hr, fun h => by cases h⟩
    refine Evt.succ i1 fun m hm => ?_
    simp only [llS, ev, hm]
    rfl
  | .decl ds r, hu, hsc, hin, hvars, hV, hq =>
    simp only [ev] at hq
    simp only [llS] at hin
    simp only [Scoped] at hsc
    simp only [vars] at hvars
    simp only [assigned, List.mem_append] at hV
    obtain ⟨Φ, env, D, V, W, Bs⟩ := ctx
    have hlen := hr.dom.len
    simp only at hlen
    have hent := llD_entry ds hin.app.1.app.2 hin.app.1.app.1
    have hc' : Chain T ⟨.group ds Bs.length Φ, env.group c ds, D, V, W, Bs⟩ := by
      refine Chain.group hc hsc.1 (fun f hf => hV f (Or.inl hf)) fun d hd => ⟨hent d hd, ?_⟩
      exact scoped_defs ds hsc.2.1 d hd
    have hu' : Use P (env.group c ds).F (r.free ++ r.assigned) := by
      intro x hx
      have hxold : x ∈ (Syn.decl ds r).free ++ (Syn.decl ds r).assigned := by
        rcases List.mem_append.1 hx with hx | hx <;> simp [Syn.free, assigned, hx]
      refine ⟨(hu x hxold).1, fun M hM y hy => ?_⟩
      by_cases hxn : x ∈ ds.names
      · obtain ⟨d, hd, rfl⟩ := mem_names hxn
        obtain ⟨C, e1, e2, _⟩ := funfree_some (F := env.F) hsc.1 hd
        simp only [LEnv.group, lookup_append_l, e2] at hM
        cases hM
        have hy := (List.mem_filter.1 hy).1
        have hC : ∀ z ∈ C, z ∈ (Syn.decl ds r).free ++ (Syn.decl ds r).assigned := by
          intro z hz
          have : z ∈ ds.free := (mem_free_ds ds).2 (closure_free e1 z hz)
          by_cases hzn : z ∈ ds.names
          · simp [assigned, hzn]
          · simp [Syn.free, this, hzn]
        rcases mem_expand1.1 hy with hy | ⟨g, hg, ws, hw, hy⟩
        · exact (hu y (hC y hy)).1
        · exact (hu g (hC g hg)).2 ws hw y hy
      · simp only [LEnv.group, lookup_append_l, funfree_none hxn] at hM
        exact (hu x hxold).2 M hM y hy
    have hr2 : Rt ⟨.group ds Bs.length Φ, env.group c ds, D, V, W, Bs⟩ fs := ⟨hr.dom, hr.defd⟩
    rw [hlen] at hq
    obtain ⟨tf', k1, k2, k3, k4⟩ := hs _ fs tf P hc' hr2 ha r _ q hu' hsc.2.2 hin.app.2 hB
      hvars (fun x hx => hV x (Or.inr hx)) hq
    refine ⟨tf', ?_, k2, ⟨k3.dom, k3.defd⟩, ?_⟩
    · obtain ⟨N, hN⟩ := k1
      refine ⟨N, fun m hm => ?_⟩
      simp only [llS]
      exact hN m hm
    · intro hn
      obtain ⟨f1, f2⟩ := k4 hn
      exact ⟨by simpa only [falls] using f1, by simpa only [sure] using f2⟩

/-- All depths. -/
theorem sim (T : List TDef) (I : Nat → List Nat → Option Nat) (γ : Nm → Option Nat) (n : Nat) :
    SimE T I γ n ∧ SimEs T I γ n ∧ SimS T I γ n := by
  induction n with
  | zero =>
    refine ⟨?_, ?_, ?_⟩
    · intro ctx fs tf P _ _ _ a v _ h
      cases h
    · intro ctx fs tf P _ _ _ a v _ h
      cases h
    · intro ctx fs tf P _ _ _ s c q _ _ _ _ _ _ h
      cases h
  | succ n ih => exact ⟨simE_succ ih.2.1 ih.2.2, simEs_succ ih.1 ih.2.1, simS_succ ih.1 ih.2.2⟩

/-- The chain of a module. -/
theorem chain_module {G : Nm → Prop} {ds : Syn Nm .ds} (h : ScopedModule G ds) :
    Chain (liftModule ds) ⟨.top ds, ⟨[], [], []⟩, [], fun x => G x ∨ x ∈ ds.names,
      fun _ => False, []⟩ := by
  have hin : InT (liftModule ds) ((llD ⟨[], [], []⟩ 1 ds).2.1 ++ (llD ⟨[], [], []⟩ 1 ds).1) :=
    inT_liftModule h
  refine Chain.top h.1 (fun f hf => Or.inr hf) fun d hd => ⟨?_, scoped_defs ds h.2 d hd⟩
  exact llD_entry ds hin.app.2 hin.app.1 d hd

/-- A function of the module. -/
theorem run_lift {G : Nm → Prop} {ds : Syn Nm .ds} (h : ScopedModule G ds) {n : Nat} {f : Nm}
    {vs : List Nat} {v : Nat} (hr : runSrc I γ n ds f vs = some v) :
    Evt fun m => runTgt I γ m (liftModule ds) f vs = some v := by
  have hc := chain_module h
  obtain ⟨⟨ps, b, Φh, k⟩, h1, h2⟩ := Option.bind_eq_some_iff.1 hr
  simp only at h2
  split at h2
  rotate_left
  · cases h2
  rename_i hl
  obtain ⟨q, h2, h3⟩ := Option.map_eq_some_iff.1 h2
  obtain ⟨ch, M, U, F⟩ := hc.find h1
  obtain ⟨c, hT, hin⟩ := F.inT
  have hrt : Rt ⟨.top ds, ⟨[], [], []⟩, [], fun x => G x ∨ x ∈ ds.names, fun _ => False, []⟩ [] :=
    ⟨List.Forall₂.nil, by simp⟩
  have hM : M.filter (· ∈ ch.env.L) = [] := by
    rw [List.filter_eq_nil_iff]
    intro x hx hxl
    have := (F.same x hx).2 (by simpa using hxl)
    simp at this
  have hagr := F.agr hrt (vs := vs)
  rw [hM] at hagr
  obtain ⟨tf', hb, -, -, -⟩ := (sim (liftModule ds) I γ n).2.2 (inside ch ps b) _ _ _ F.inside
    (F.rt hrt hl) hagr b c q F.use F.hs.2.2 hin (by simp [inside])
    (fun x hx => List.mem_append_right _ hx) (fun x hx => Or.inr (List.mem_append_right _ hx))
    (by
      have e1 : (inside ch ps b).Φ = Φh := F.hΦ
      rw [e1, List.drop_nil]
      exact h2)
  obtain ⟨N, hN⟩ := hb
  refine ⟨N, fun m hm => ?_⟩
  have hT' : (liftModule ds).lookup (.top f) = some (ps, (llS (ch.env.extLocals ps) c b).s) := by
    rw [hM] at hT; exact hT
  have hfind : (tgt (liftModule ds)).find () (.top f) =
      some (ps, (llS (ch.env.extLocals ps) c b).s, (), 0) := by
    simp only [tgt, hT', Option.map_some]
  simp only [runTgt, hfind, Option.bind_some]
  rw [if_pos hl]
  refine (congrArg (Option.map _) (hN m hm)).trans ?_
  exact congrArg some h3

end Verif.Lift
