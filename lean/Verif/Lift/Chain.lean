import Verif.Lift.Free

/-!
# What holds at each place of a program
-/

namespace Verif.Lift

open Syn

/-- The definitions are those of the lifted program. -/
def InT (T l : List TDef) : Prop := ∀ q ∈ l, T.lookup q.1 = some q.2

theorem InT.app {T l l' : List TDef} (h : InT T (l ++ l')) : InT T l ∧ InT T l' :=
  ⟨fun q hq => h q (List.mem_append_left _ hq), fun q hq => h q (List.mem_append_right _ hq)⟩

/-- `Scoped` of one definition. -/
def ScopedDef (V W : Nm → Prop) (D ps : List Nm) (b : Syn Nm .s) : Prop :=
  (∀ x ∈ ps ++ b.assigned, ¬ V x) ∧
  (∀ x ∈ freeDef ps b, V x ∧ (W x → x ∈ D)) ∧
  b.Scoped (fun x => V x ∨ x ∈ ps ++ b.assigned) (fun x => W x ∨ x ∈ ps ++ b.vars) (ps ++ D)

theorem scoped_defs {V W : Nm → Prop} {D : List Nm} : (ds : Syn Nm .ds) → ds.Scoped V W D →
    ∀ d ∈ ds.defs, ScopedDef V W D d.2.1 d.2.2
  | .dnil, _ => by simp [defs]
  | .dcons f ps b ds, h => by
    simp only [Scoped] at h
    intro d hd
    simp only [defs, List.mem_cons] at hd
    rcases hd with rfl | hd
    · exact ⟨h.1, h.2.1, h.2.2.1⟩
    · exact scoped_defs ds h.2.2.2 d hd

theorem names_eq : (ds : Syn Nm .ds) → ds.names = ds.defs.map (·.1)
  | .dnil => by simp [names, defs]
  | .dcons f ps b ds => by simp [names, defs, names_eq ds]

theorem mem_free_ds {x : Nm} : (ds : Syn Nm .ds) →
    (x ∈ ds.free ↔ ∃ d ∈ ds.defs, x ∈ freeDef d.2.1 d.2.2)
  | .dnil => by simp [Syn.free, defs]
  | .dcons f ps b ds => by
    simp only [Syn.free, defs, List.mem_append, List.mem_cons, mem_free_ds ds, freeDef]
    constructor
    · rintro (h | ⟨d, hd, h⟩)
      · exact ⟨_, Or.inl rfl, by simpa using h⟩
      · exact ⟨d, Or.inr hd, h⟩
    · rintro ⟨d, rfl | hd, h⟩
      · exact Or.inl (by simpa using h)
      · exact Or.inr ⟨d, hd, h⟩

/-- A place: the functions known, the environment of the lifter, the variables that have values, the
names of the enclosing scopes and the variables among them, and the variables of each frame. -/
structure Ctx where
  Φ : FEnv
  env : LEnv
  D : List Nm
  V : Nm → Prop
  W : Nm → Prop
  Bs : List (List Nm)

/-- A definition is scoped, and in the lifted program. -/
def DefOk (T : List TDef) (ctx : Ctx) (d : Nm × List Nm × Syn Nm .s) : Prop :=
  (∃ c, T.lookup (ctx.env.tname d.1) =
      some (ctx.env.extraArgs d.1 ++ d.2.1, (llS (ctx.env.extLocals d.2.1) c d.2.2).s) ∧
    InT T (llS (ctx.env.extLocals d.2.1) c d.2.2).top) ∧
  ScopedDef ctx.V ctx.W ctx.D d.2.1 d.2.2

/-- The places that are reached going inwards. -/
inductive Chain (T : List TDef) : Ctx → Prop where
  | top {ds : Syn Nm .ds} {V : Nm → Prop} :
      ds.names.Nodup → (∀ f ∈ ds.names, V f) →
      (∀ d ∈ ds.defs, DefOk T ⟨.top ds, ⟨[], [], []⟩, [], V, fun _ => False, []⟩ d) →
      Chain T ⟨.top ds, ⟨[], [], []⟩, [], V, fun _ => False, []⟩
  | enter {Φ env D V W Bs} {ps : List Nm} {b : Syn Nm .s} :
      Chain T ⟨Φ, env, D, V, W, Bs⟩ → (∀ x ∈ ps ++ b.assigned, ¬ V x) →
      Chain T ⟨Φ, env.extLocals ps, ps ++ D, fun x => V x ∨ x ∈ ps ++ b.assigned,
        fun x => W x ∨ x ∈ ps ++ b.vars, (ps ++ b.vars) :: Bs⟩
  | grow {Φ D V W Bs L F N} {L' D' : List Nm} :
      Chain T ⟨Φ, ⟨L, F, N⟩, D, V, W, Bs⟩ → L ⊆ L' → D ⊆ D' → D' ⊆ L' → (∀ x ∈ L', W x) →
      Chain T ⟨Φ, ⟨L', F, N⟩, D', V, W, Bs⟩
  | group {Φ env D V W Bs} {ds : Syn Nm .ds} {c : Nat} :
      Chain T ⟨Φ, env, D, V, W, Bs⟩ → ds.names.Nodup → (∀ f ∈ ds.names, V f) →
      (∀ d ∈ ds.defs, DefOk T ⟨.group ds Bs.length Φ, env.group c ds, D, V, W, Bs⟩ d) →
      Chain T ⟨.group ds Bs.length Φ, env.group c ds, D, V, W, Bs⟩

theorem vars_sub : (s : Syn Nm .s) → ∀ x ∈ s.vars, x ∈ s.assigned
  | .done => by simp [vars]
  | .assign y a r => by
    intro x hx
    simp only [vars, assigned, List.mem_cons] at hx ⊢
    exact hx.imp id (vars_sub r x)
  | .ifs c b1 b2 r => by
    intro x hx
    simp only [vars, assigned, List.mem_append] at hx ⊢
    exact hx.imp (Or.imp (vars_sub b1 x) (vars_sub b2 x)) (vars_sub r x)
  | .whl c b r => by
    intro x hx
    simp only [vars, assigned, List.mem_append] at hx ⊢
    exact hx.imp (vars_sub b x) (vars_sub r x)
  | .ret a r => by
    intro x hx
    simp only [vars, assigned] at hx ⊢
    exact vars_sub r x hx
  | .decl ds r => by
    intro x hx
    simp only [vars, assigned, List.mem_append] at hx ⊢
    exact Or.inr (vars_sub r x hx)

theorem mem_extLocals {env : LEnv} {vs : List Nm} {x : Nm} :
    x ∈ (env.extLocals vs).L ↔ x ∈ vs ∨ x ∈ env.L := by
  simp only [LEnv.extLocals, List.mem_append, List.mem_filter, decide_not, Bool.not_eq_true',
    decide_eq_false_iff_not]
  tauto

namespace Chain

variable {T : List TDef} {ctx : Ctx}

theorem mem_W (h : Chain T ctx) : ∀ x, ctx.W x ↔ ∃ B ∈ ctx.Bs, x ∈ B := by
  induction h with
  | top => simp
  | enter _ _ ih =>
    intro x
    simp only at ih ⊢
    rw [ih x]
    simp only [List.exists_mem_cons_iff]
    exact or_comm
  | grow _ _ _ _ _ ih => exact ih
  | group _ _ _ _ ih => exact ih

theorem W_sub_V (h : Chain T ctx) : ∀ x, ctx.W x → ctx.V x := by
  induction h with
  | top => intro x hx; exact hx.elim
  | @enter _ _ _ _ _ _ ps b _ _ ih =>
    intro x hx
    rcases hx with hx | hx
    · exact Or.inl (ih x hx)
    · refine Or.inr ?_
      rw [List.mem_append] at hx ⊢
      exact hx.imp id (vars_sub b x)
  | grow _ _ _ _ _ ih => exact ih
  | group _ _ _ _ ih => exact ih

theorem D_sub_L (h : Chain T ctx) : ∀ x ∈ ctx.D, x ∈ ctx.env.L := by
  induction h with
  | top => simp
  | enter _ _ ih =>
    intro x hx
    rw [mem_extLocals]
    exact (List.mem_append.1 hx).imp id (ih x)
  | grow _ _ _ h _ _ => exact fun x hx => h hx
  | group _ _ _ _ ih => exact ih

theorem L_sub_W (h : Chain T ctx) : ∀ x ∈ ctx.env.L, ctx.W x := by
  induction h with
  | top => simp
  | enter _ _ ih =>
    intro x hx
    rw [mem_extLocals] at hx
    rcases hx with hx | hx
    · exact Or.inr (List.mem_append_left _ hx)
    · exact Or.inl (ih x hx)
  | grow _ _ _ _ h _ => exact h
  | group _ _ _ _ ih => exact ih

end Chain

/-! ## The names of a group -/

theorem lookup_append_l {α : Type} (F G : List (Nm × α)) (f : Nm) :
    (F ++ G).lookup f = match F.lookup f with | some v => some v | none => G.lookup f := by
  induction F with
  | nil => rfl
  | cons p F ih =>
    obtain ⟨k, v⟩ := p
    simp only [List.cons_append, List.lookup_cons]
    by_cases hf : f = k
    · simp [hf]
    · simp only [show (f == k) = false by simpa using hf, ih]

theorem lookup_none_iff {α : Type} (F : List (Nm × α)) (f : Nm) :
    F.lookup f = none ↔ f ∉ F.map (·.1) := by
  induction F with
  | nil => simp
  | cons p F ih =>
    obtain ⟨k, v⟩ := p
    simp only [List.lookup_cons, List.map_cons, List.mem_cons, not_or]
    by_cases hf : f = k
    · simp [hf]
    · simp only [show (f == k) = false by simpa using hf, ih]
      tauto

theorem lookup_of_nodup {κ α : Type} [DecidableEq κ] {F : List (κ × α)} (h : (F.map (·.1)).Nodup)
    {f : κ} {v : α} (hm : (f, v) ∈ F) : F.lookup f = some v := by
  induction F with
  | nil => simp at hm
  | cons p F ih =>
    obtain ⟨k, u⟩ := p
    rw [List.map_cons, List.nodup_cons] at h
    rw [List.mem_cons] at hm
    rw [List.lookup_cons]
    rcases hm with hm | hm
    · cases hm; simp
    · have hf : f ≠ k := fun e => h.1 (e ▸ List.mem_map_of_mem (f := (·.1)) hm)
      simp only [show (f == k) = false by simpa using hf]
      exact ih h.2 hm

theorem funfree0_keys (ds : Syn Nm .ds) : (funfree0 ds).map (·.1) = ds.names := by
  rw [names_eq, funfree0, List.map_map]; rfl

theorem expand_keys (F0 F : FMap) : (expand F0 F).map (·.1) = F.map (·.1) := by
  rw [expand_eq, List.map_map]; rfl

theorem iterexpand_keys (n : Nat) (F : FMap) : (iterexpand n F).map (·.1) = F.map (·.1) := by
  induction n generalizing F with
  | zero => rfl
  | succ n ih =>
    rw [iterexpand]
    split
    · rfl
    · rw [ih, expand_keys]

theorem funfree_keys (F : FMap) (ds : Syn Nm .ds) : (funfree F ds).map (·.1) = ds.names := by
  rw [funfree, List.map_map, ← funfree0_keys ds]
  show (funfree1 F ds).map (·.1) = _
  rw [funfree1, expand_keys, iterexpand_keys]

theorem funfree_none {F : FMap} {ds : Syn Nm .ds} {f : Nm} (h : f ∉ ds.names) :
    (funfree F ds).lookup f = none := by
  rw [lookup_none_iff, funfree_keys]; exact h

/-- The definition of a name in a group. -/
theorem params_of_mem {ds : Syn Nm .ds} (h : ds.names.Nodup) {d : Nm × List Nm × Syn Nm .s}
    (hd : d ∈ ds.defs) : params ds d.1 = d.2.1 := by
  rw [names_eq] at h
  have : ∀ l : List (Nm × List Nm × Syn Nm .s), (l.map (·.1)).Nodup → d ∈ l →
      (l.filter (·.1 = d.1)).flatMap (·.2.1) = d.2.1 := by
    intro l hl hm
    induction l with
    | nil => simp at hm
    | cons p l ih =>
      rw [List.map_cons, List.nodup_cons] at hl
      rcases List.mem_cons.1 hm with rfl | hm
      · have : l.filter (·.1 = d.1) = [] := by
          rw [List.filter_eq_nil_iff]
          intro q hq hqd
          exact hl.1 (by simp only [decide_eq_true_eq] at hqd
                         exact hqd ▸ List.mem_map_of_mem (f := (·.1)) hq)
        simp [this]
      · have hne : p.1 ≠ d.1 := fun e => hl.1 (e ▸ List.mem_map_of_mem (f := (·.1)) hm)
        rw [List.filter_cons, if_neg (by simpa using hne)]
        exact ih hl.2 hm
  exact this ds.defs h hd

theorem reach_free {ds : Syn Nm .ds} {f x : Nm} (h : Reach (funfree0 ds) f x) :
    ∃ d ∈ ds.defs, x ∈ freeDef d.2.1 d.2.2 := by
  induction h with
  | here hf hx =>
    have := lookup_mem hf
    simp only [funfree0, List.mem_map] at this
    obtain ⟨d, hd, he⟩ := this
    refine ⟨d, hd, ?_⟩
    rw [Prod.mk.injEq] at he
    rw [← he.2, mem_nub] at hx
    exact hx
  | step _ _ _ ih => exact ih

/-- What a group adds for one of its functions. -/
theorem funfree_some {F : FMap} {ds : Syn Nm .ds} (hn : ds.names.Nodup)
    {d : Nm × List Nm × Syn Nm .s} (hd : d ∈ ds.defs) :
    ∃ C, (closure ds).lookup d.1 = some C ∧
      (funfree F ds).lookup d.1 = some ((expand1 F C).filter (· ∉ d.2.1)) ∧
      (∀ x ∈ freeDef d.2.1 d.2.2, x ∈ C) := by
  have h0 : (funfree0 ds).lookup d.1 = some (nub (freeDef d.2.1 d.2.2)) := by
    refine lookup_of_nodup (by rw [funfree0_keys]; exact hn) ?_
    rw [funfree0]
    exact List.mem_map.2 ⟨d, hd, rfl⟩
  have := iterexpand_lookup (rounds (funfree0 ds)) (funfree0 ds) d.1
  simp only [h0] at this
  obtain ⟨C, h1, h2⟩ := this
  refine ⟨C, h1, ?_, fun x hx => h2 x (mem_nub.2 hx)⟩
  have h3 : (funfree1 F ds).lookup d.1 = some (expand1 F C) := by
    rw [funfree1, lookup_expand, h1]; rfl
  have h4 : (funfree F ds).lookup d.1 =
      ((funfree1 F ds).lookup d.1).map fun vs => vs.filter (· ∉ params ds d.1) :=
    lookup_map (fun (f : Nm) (vs : List Nm) => vs.filter fun x => decide (x ∉ params ds f))
      (funfree1 F ds) d.1
  rw [h4, h3, params_of_mem hn hd]
  rfl

theorem closure_free {ds : Syn Nm .ds} {f : Nm} {C : List Nm} (h : (closure ds).lookup f = some C) :
    ∀ x ∈ C, ∃ d ∈ ds.defs, x ∈ freeDef d.2.1 d.2.2 :=
  fun x hx => reach_free ((mem_closure ds h x).1 hx)

theorem mem_names {ds : Syn Nm .ds} {f : Nm} (h : f ∈ ds.names) : ∃ d ∈ ds.defs, d.1 = f := by
  rw [names_eq, List.mem_map] at h
  exact h

namespace Chain

variable {T : List TDef} {ctx : Ctx}

/-- The names of `F` are known. -/
theorem F_dom (h : Chain T ctx) : ∀ f M, ctx.env.F.lookup f = some M → ctx.V f := by
  induction h with
  | top => intro f M h; simp at h
  | enter _ _ ih => exact fun f M h => Or.inl (ih f M h)
  | grow _ _ _ _ _ ih => exact ih
  | @group _ _ _ _ _ _ ds _ _ _ hv _ ih =>
    intro f M h
    by_cases hf : f ∈ ds.names
    · exact hv f hf
    · simp only [LEnv.group, lookup_append_l, funfree_none hf] at h
      exact ih f M h

/-- What is passed to a function is known, and has a value if it is a variable. -/
theorem F_inv (h : Chain T ctx) :
    ∀ f M, ctx.env.F.lookup f = some M → ∀ x ∈ M, ctx.V x ∧ (ctx.W x → x ∈ ctx.D) := by
  induction h with
  | top => intro f M h; simp at h
  | enter _ hd ih =>
    intro f M h x hx
    obtain ⟨h1, h2⟩ := ih f M h x hx
    refine ⟨Or.inl h1, fun hw => ?_⟩
    rcases hw with hw | hw
    · exact List.mem_append_right _ (h2 hw)
    · refine absurd h1 (hd x ?_)
      rw [List.mem_append] at hw ⊢
      exact hw.imp id (vars_sub _ x)
  | grow _ _ hD _ _ ih =>
    intro f M h x hx
    exact ⟨(ih f M h x hx).1, fun hw => hD ((ih f M h x hx).2 hw)⟩
  | @group _ env D V W _ ds c _ hn hv hok ih =>
    intro f M h x hx
    by_cases hf : f ∈ ds.names
    · obtain ⟨d, hd, rfl⟩ := mem_names hf
      obtain ⟨C, h1, h2, _⟩ := funfree_some (F := env.F) hn hd
      simp only [LEnv.group, lookup_append_l, h2] at h
      cases h
      have hx := (List.mem_filter.1 hx).1
      rcases mem_expand1.1 hx with hx | ⟨g, _, ws, hw, hx⟩
      · obtain ⟨d', hd', hx⟩ := closure_free h1 x hx
        exact (hok d' hd').2.2.1 x hx
      · exact ih g ws hw x hx
    · simp only [LEnv.group, lookup_append_l, funfree_none hf] at h
      exact ih f M h x hx

end Chain

/-- What is known of a function that is found. -/
structure Found (T : List TDef) (ctx : Ctx) (h : Nm) (ps : List Nm) (b : Syn Nm .s) (Φh : FEnv)
    (k : Nat) (ch : Ctx) (M U : List Nm) : Prop where
  chain : Chain T ch
  hΦ : ch.Φ = Φh
  len : ch.Bs.length = k
  le : k ≤ ctx.Bs.length
  hBs : ch.Bs = ctx.Bs.drop (ctx.Bs.length - k)
  extra : ctx.env.extraArgs h = M.filter (· ∈ ctx.env.L)
  inT : ∃ c, T.lookup (ctx.env.tname h) =
      some (M.filter (· ∈ ch.env.L) ++ ps, (llS (ch.env.extLocals ps) c b).s) ∧
    InT T (llS (ch.env.extLocals ps) c b).top
  hs : ScopedDef ch.V ch.W ch.D ps b
  free : ∀ x ∈ freeDef ps b, x ∈ U
  closed : ∀ g ∈ freeDef ps b, ∀ M', ch.env.F.lookup g = some M' → ∀ x ∈ M', x ∈ U
  hU : ∀ x ∈ U, x ∈ ps ∨ (x ∈ M ∧ x ∈ ch.env.L) ∨ ¬ ch.W x
  hM : ∀ x ∈ M, x ∉ ps ∧ ch.V x ∧ (ch.W x → x ∈ ch.D)
  same : ∀ x ∈ M, x ∈ ctx.env.L ↔ x ∈ ch.env.L
  hD : ∀ x ∈ ch.D, x ∈ ctx.D
  hV : ∀ x, ch.V x → ctx.V x
  apart : ∀ x, ch.V x → ∀ B ∈ ctx.Bs.take (ctx.Bs.length - k), x ∉ B
  arg : ∀ x ∈ M, x ∈ ctx.env.L → ∃ M', ctx.env.F.lookup h = some M' ∧ x ∈ M'

theorem defs_lookup {ds : Syn Nm .ds} {f : Nm} {d : List Nm × Syn Nm .s}
    (h : ds.defs.lookup f = some d) : (f, d) ∈ ds.defs := lookup_mem h

theorem defs_lookup_none {ds : Syn Nm .ds} {f : Nm} (h : ds.defs.lookup f = none) :
    f ∉ ds.names := by
  rw [names_eq]; exact (lookup_none_iff _ _).1 h

theorem zip_keys (xs : List Nm) (c : Nat) :
    (xs.zip (List.range' c xs.length)).map (·.1) = xs := by
  rw [List.map_fst_zip]; simp

/-- A function that is found is in the lifted program. -/
theorem Chain.find {T : List TDef} {ctx : Ctx} (hc : Chain T ctx) {h : Nm} {ps : List Nm}
    {b : Syn Nm .s} {Φh : FEnv} {k : Nat} (hf : ctx.Φ.find h = some (ps, b, Φh, k)) :
    ∃ ch M U, Found T ctx h ps b Φh k ch M U := by
  induction hc with
  | @top ds V hn hv hok =>
    simp only [FEnv.find, Option.map_eq_some_iff] at hf
    obtain ⟨d, hd, he⟩ := hf
    cases he
    have hm := defs_lookup hd
    obtain ⟨hT, hs⟩ := hok _ hm
    refine ⟨_, [], freeDef d.1 d.2, Chain.top hn hv hok, rfl, rfl, Nat.le_refl _, rfl, rfl, ?_, hs,
      fun _ h => h, fun _ _ _ h => by simp at h, fun _ _ => Or.inr (Or.inr id), by simp, by simp,
      by simp, fun _ h => h, by simp, by simp⟩
    exact hT
  | @enter Φ env D V W Bs ps' b' hc hd ih =>
    obtain ⟨ch, M, U, F⟩ := ih hf
    have hnot : ∀ x, ch.V x → x ∉ ps' ++ b'.vars := by
      intro x hx hm
      refine hd x ?_ (F.hV x hx)
      rw [List.mem_append] at hm ⊢
      exact hm.imp id (vars_sub _ x)
    have hsame : ∀ x ∈ M, x ∈ (env.extLocals ps').L ↔ x ∈ env.L := by
      intro x hx
      rw [mem_extLocals]
      have := hnot x (F.hM x hx).2.1
      rw [List.mem_append] at this
      tauto
    have hle := F.le
    simp only at hle
    have hsub : (Bs.length + 1 - k) = (Bs.length - k) + 1 := by omega
    refine ⟨ch, M, U, F.chain, F.hΦ, F.len, by simp only [List.length_cons]; omega, ?_, ?_, F.inT,
      F.hs, F.free, F.closed, F.hU, F.hM, ?_, ?_, ?_, ?_, ?_⟩
    · simp only [List.length_cons, hsub, List.drop_succ_cons]
      exact F.hBs
    · have h1 : (env.extLocals ps').extraArgs h = ((env.F.lookup h).map fun vs =>
          vs.filter (· ∈ (env.extLocals ps').L)).getD [] := rfl
      have h2 : M.filter (· ∈ (env.extLocals ps').L) = M.filter (· ∈ env.L) :=
        List.filter_congr fun x hx => by simp only [hsame x hx]
      have h3 : env.extraArgs h = M.filter (· ∈ env.L) := F.extra
      simp only
      rw [h1, h2, ← h3]
      have h4 : env.extraArgs h = ((env.F.lookup h).map fun vs => vs.filter (· ∈ env.L)).getD [] :=
        rfl
      rw [h4]
      cases hM : env.F.lookup h with
      | none => rfl
      | some M' =>
        simp only [Option.map_some, Option.getD_some]
        refine List.filter_congr fun x hx => ?_
        have hV := (hc.F_inv h M' hM x hx).1
        have : x ∉ ps' := fun hp => hd x (List.mem_append_left _ hp) hV
        rw [decide_eq_decide, mem_extLocals]
        tauto
    · intro x hx
      rw [hsame x hx]
      exact F.same x hx
    · exact fun x hx => List.mem_append_right _ (F.hD x hx)
    · exact fun x hx => Or.inl (F.hV x hx)
    · intro x hx
      simp only [List.length_cons, hsub, List.take_succ_cons, List.mem_cons]
      rintro B (rfl | hB)
      · exact hnot x hx
      · exact F.apart x hx B hB
    · intro x hx hl
      exact F.arg x hx ((hsame x hx).1 hl)
  | @grow Φ D V W Bs L Fm N L' D' hc hL hD hDL hW ih =>
    obtain ⟨ch, M, U, F⟩ := ih hf
    have hsame : ∀ x ∈ M, x ∈ L' ↔ x ∈ ch.env.L := by
      intro x hx
      constructor
      · intro hl
        obtain ⟨B, hB, hxB⟩ := (hc.mem_W x).1 (hW x hl)
        have : ch.W x := by
          rw [F.chain.mem_W]
          refine ⟨B, ?_, hxB⟩
          rw [F.hBs]
          rw [← List.take_append_drop (Bs.length - k) Bs, List.mem_append] at hB
          rcases hB with hB | hB
          · exact absurd hxB (F.apart x (F.hM x hx).2.1 B hB)
          · exact hB
        exact F.chain.D_sub_L x ((F.hM x hx).2.2 this)
      · intro hl
        exact hL ((F.same x hx).2 hl)
    have hsame' : ∀ x ∈ M, x ∈ L' ↔ x ∈ L := fun x hx => (hsame x hx).trans (F.same x hx).symm
    refine ⟨ch, M, U, F.chain, F.hΦ, F.len, F.le, F.hBs, ?_, F.inT, F.hs, F.free, F.closed, F.hU,
      F.hM, hsame, fun x hx => hD (F.hD x hx), F.hV, F.apart,
      fun x hx hl => F.arg x hx ((hsame' x hx).1 hl)⟩
    have h2 : M.filter (· ∈ L') = M.filter (· ∈ L) :=
      List.filter_congr fun x hx => by simp only [hsame' x hx]
    have h3 : (LEnv.mk L Fm N).extraArgs h = M.filter (· ∈ L) := F.extra
    simp only
    rw [h2, ← h3]
    simp only [LEnv.extraArgs, LEnv.findFree]
    cases hM : Fm.lookup h with
    | none => rfl
    | some M' =>
      simp only [Option.map_some, Option.getD_some]
      refine List.filter_congr fun x hx => ?_
      rw [decide_eq_decide]
      constructor
      · intro hl
        exact hc.D_sub_L x ((hc.F_inv h M' hM x hx).2 (hW x hl))
      · exact fun hl => hL hl
  | @group Φ env D V W Bs ds c hc hn hv hok ih =>
    have hchain := Chain.group hc hn hv hok
    simp only [FEnv.find] at hf
    cases hd : ds.defs.lookup h with
    | some d =>
      simp only [hd] at hf
      cases hf
      have hm := defs_lookup hd
      obtain ⟨hT, hs⟩ := hok _ hm
      obtain ⟨C, h1, h2, h3⟩ := funfree_some (F := env.F) hn hm
      have hlook : (env.group c ds).F.lookup h = some ((expand1 env.F C).filter (· ∉ d.1)) := by
        simp only [LEnv.group, lookup_append_l, h2]
      have hex : (env.group c ds).extraArgs h =
          ((expand1 env.F C).filter (· ∉ d.1)).filter (· ∈ (env.group c ds).L) := by
        rw [LEnv.extraArgs, LEnv.findFree, hlook]; rfl
      have hM := hchain.F_inv h _ hlook
      refine ⟨_, (expand1 env.F C).filter (· ∉ d.1), expand1 env.F C, hchain, rfl, rfl,
        Nat.le_refl _, ?_, hex, ?_, hs, fun x hx => mem_expand1.2 (Or.inl (h3 x hx)), ?_, ?_, ?_,
        fun _ _ => Iff.rfl, fun _ h => h, fun _ h => h, ?_, fun x hx _ => ⟨_, hlook, hx⟩⟩
      · simp
      · rw [← hex]; exact hT
      · intro g hg M' hM' x hx
        have hgC := h3 g hg
        by_cases hgn : g ∈ ds.names
        · obtain ⟨d', hd', rfl⟩ := mem_names hgn
          obtain ⟨C', h1', h2', _⟩ := funfree_some (F := env.F) hn hd'
          simp only [LEnv.group, lookup_append_l, h2'] at hM'
          cases hM'
          have hx := (List.mem_filter.1 hx).1
          have hCC := closed_of_fix (closure_fix ds) h1 hgC h1'
          rcases mem_expand1.1 hx with hx | ⟨g', hg', ws, hw, hx⟩
          · exact mem_expand1.2 (Or.inl (hCC x hx))
          · exact mem_expand1.2 (Or.inr ⟨g', hCC g' hg', ws, hw, hx⟩)
        · simp only [LEnv.group, lookup_append_l, funfree_none hgn] at hM'
          exact mem_expand1.2 (Or.inr ⟨g, hgC, M', hM', hx⟩)
      · intro x hx
        by_cases hp : x ∈ d.1
        · exact Or.inl hp
        · have hxM : x ∈ (expand1 env.F C).filter (· ∉ d.1) := List.mem_filter.2 ⟨hx, by simpa using hp⟩
          by_cases hw : W x
          · exact Or.inr (Or.inl ⟨hxM, hchain.D_sub_L x ((hM x hxM).2 hw)⟩)
          · exact Or.inr (Or.inr hw)
      · intro x hx
        exact ⟨by simpa using (List.mem_filter.1 hx).2, hM x hx⟩
      · simp
    | none =>
      simp only [hd] at hf
      obtain ⟨ch, M, U, F⟩ := ih hf
      have hno := defs_lookup_none hd
      have hlook : (env.group c ds).F.lookup h = env.F.lookup h := by
        simp only [LEnv.group, lookup_append_l, funfree_none hno]
      have hname : (env.group c ds).tname h = env.tname h := by
        have : (ds.names.zip (List.range' c ds.names.length)).lookup h = none := by
          rw [lookup_none_iff, zip_keys]; exact hno
        simp only [LEnv.tname, LEnv.group, lookup_append_l, this]
      have hex : (env.group c ds).extraArgs h = env.extraArgs h := by
        simp only [LEnv.extraArgs, LEnv.findFree, hlook]; rfl
      refine ⟨ch, M, U, F.chain, F.hΦ, F.len, F.le, F.hBs, ?_, ?_, F.hs, F.free, F.closed, F.hU,
        F.hM, F.same, F.hD, F.hV, F.apart, ?_⟩
      · simp only; rw [hex]; exact F.extra
      · simp only; rw [hname]; exact F.inT
      · simp only; rw [hlook]; exact F.arg

end Verif.Lift
