import Verif.Deact.Lemmas
/-!
# C137: methods of actors keep their meaning
-/
namespace Verif.Deact

variable {V : Type}

/-! ## Conditions -/

mutual
/-- No lambda in a dictionary or set mentions a state variable. -/
def Seen (sc : Scope) : Ex → Prop
  | .app e as => Seen sc e ∧ Seens sc as
  | .tup _ es => Seens sc es
  | .dict es => LamIns sc [] [] es
  | _ => True
def Seens (sc : Scope) : List Ex → Prop
  | [] => True
  | e :: es => Seen sc e ∧ Seens sc es
end

/-- Calls only in the last condition, and there at the root. -/
def SimpleB : Brs → Prop
  | .els _ => True
  | .br e _ (.els _) => Simple e
  | .br e _ bs => Calm e ∧ SimpleB bs

/-- The expressions of the statement have calls only at the root. -/
def SimpleS : Stm → Prop
  | .expr e => Simple e
  | .assign _ e => Simple e
  | .mut _ e => Simple e
  | .ret e => Simple e
  | .ite bs => SimpleB bs
  | .after e1 _ => Calm e1
  | .defn _ _ _ => False
  | _ => True

/-- A statement with a lambda over state variables has calls only at the root. -/
def Steady (sc : Scope) (s : Stm) : Prop := (∀ n ∈ lamfreeS s, n ∉ sc.stvars) ∨ SimpleS s

/-- The names that a nested function binds: its parameters are no state variables, its other variables hide no
name of the actor. -/
def DefOk (sc : Scope) (B ps : List Name) (b : Stms) : Prop :=
  (∀ p ∈ ps, p ∉ sc.stvars) ∧ ∀ m ∈ assigneds b, m ∉ sc.stvars → m ∉ ps → m ∉ sc.names ∨ m ∈ B

mutual
def TidyS (sc : Scope) : List Name → Stm → Prop
  | _, .expr e => Seen sc e
  | _, .assign _ e => Seen sc e
  | _, .mut _ e => Seen sc e
  | _, .ret e => Seen sc e
  | B, .ite bs => TidyB sc B bs
  | B, .loop b => Tidy sc B b
  | _, .after e1 _ => Seen sc e1
  | B, .defn _ ps b => DefOk sc B ps b ∧ Tidy sc (binds sc ps b ++ B) b
  | _, _ => True
/-- All statements are steady, their lambdas are seen, and nested functions hide no names. -/
def Tidy (sc : Scope) : List Name → Stms → Prop
  | _, .nil => True
  | B, .cons s ss => Steady sc s ∧ TidyS sc B s ∧ Tidy sc B ss
def TidyB (sc : Scope) : List Name → Brs → Prop
  | B, .els ss => Tidy sc B ss
  | B, .br e ss bs => Seen sc e ∧ Tidy sc B ss ∧ TidyB sc B bs
end

/-! ## Expressions -/

mutual
theorem lamIn_mono (sc : Scope) {S S' : List Name} (hS : ∀ n ∈ S, n ∈ S') : ∀ (e : Ex) (B B' : List Name),
    (∀ n ∈ B, n ∈ B') → LamIn sc S B e → LamIn sc S' B' e
  | .var _, _, _, _, _ => trivial
  | .self _, _, _, _, _ => trivial
  | .lit _, _, _, _, _ => trivial
  | .app e as, B, B', hB, h => ⟨lamIn_mono sc hS e B B' hB h.1, lamIns_mono sc hS as B B' hB h.2⟩
  | .tup _ es, B, B', hB, h => lamIns_mono sc hS es B B' hB h
  | .dict es, B, B', hB, h => lamIns_mono sc hS es B B' hB h
  | .lam ps e, B, B', hB, h => by
    have : ∀ n ∈ ps ++ B, n ∈ ps ++ B' := by
      intro n hn
      rcases List.mem_append.1 hn with hn | hn
      · exact List.mem_append_left _ hn
      · exact List.mem_append_right _ (hB n hn)
    exact ⟨fun n hn hs hb => hS n (h.1 n hn hs fun hx => hb (this n hx)), lamIn_mono sc hS e _ _ this h.2⟩
theorem lamIns_mono (sc : Scope) {S S' : List Name} (hS : ∀ n ∈ S, n ∈ S') : ∀ (es : List Ex) (B B' : List Name),
    (∀ n ∈ B, n ∈ B') → LamIns sc S B es → LamIns sc S' B' es
  | [], _, _, _, _ => trivial
  | e :: es, B, B', hB, h => ⟨lamIn_mono sc hS e B B' hB h.1, lamIns_mono sc hS es B B' hB h.2⟩
end

mutual
theorem seen_lamIn (sc : Scope) {S B : List Name} : ∀ (e : Ex), Seen sc e →
    (∀ n ∈ lamfree e, n ∈ sc.stvars → n ∈ S) → LamIn sc S B e
  | .var _, _, _ => trivial
  | .self _, _, _ => trivial
  | .lit _, _, _ => trivial
  | .app e as, h, hc =>
    ⟨seen_lamIn sc e h.1 fun n hn => hc n (by simp [lamfree, hn]),
     seens_lamIns sc as h.2 fun n hn => hc n (by simp [lamfree, hn])⟩
  | .tup _ es, h, hc => seens_lamIns sc es h fun n hn => hc n (by simp [lamfree, hn])
  | .dict es, h, hc => lamIns_mono sc (by simp) es [] B (by simp) h
  | .lam ps e, h, hc =>
    lamIn_of_free sc S (.lam ps e) B fun n hn hs _ => hc n (by rw [lamfree]; exact hn) hs
theorem seens_lamIns (sc : Scope) {S B : List Name} : ∀ (es : List Ex), Seens sc es →
    (∀ n ∈ lamfrees es, n ∈ sc.stvars → n ∈ S) → LamIns sc S B es
  | [], _, _ => trivial
  | e :: es, h, hc =>
    ⟨seen_lamIn sc e h.1 fun n hn => hc n (by simp [lamfrees, hn]),
     seens_lamIns sc es h.2 fun n hn => hc n (by simp [lamfrees, hn])⟩
end

/-- What holds of the frames and the state while a statement is run. -/
structure Good (sc : Scope) (env : Env) (B : List Name) (ρ ρ' : Frame V) (σ : St V) : Prop where
  fits : Fits sc env B
  free : ∀ n ∈ sc.stvars, n ∉ B
  agree : ∀ n, n ∉ sc.stvars → ρ n = ρ' n
  sam : ∀ n ∈ env.sampled, ρ' n = σ (n, false)

theorem ex_ok (I : Interp V) {sc : Scope} (hsc : sc.Ok) {env : Env} {B : List Name} {ρ ρ' : Frame V} {σ : St V}
    (h : Good sc env B ρ ρ' σ) {e : Ex} (hl : LamIn sc env.sampled B e) (hs : env.sampled = [] ∨ Simple e) :
    tev I (deE env e) ρ' σ = ev I sc e B (fun _ => none) ρ σ := by
  have ha : ∀ n, (n ∈ sc.stvars → n ∈ B) → ρ n = ρ' n :=
    fun n hn => h.agree n fun hx => h.free n hx (hn hx)
  rcases hs with hs | hs
  · refine ev_eq I sc hsc e env B _ ρ ρ' σ h.fits ⟨ha, fun n _ _ _ => .inr ⟨by simp [hs], rfl⟩, fun _ _ => rfl⟩ hl
  · let κ : Name → Option V := fun n => if n ∈ env.sampled then some (ρ' n) else none
    have hn : SameNow sc σ (fun _ => none) κ := by
      intro n
      show σ (sc.attr n) = (if n ∈ env.sampled then some (ρ' n) else none).getD (σ (sc.attr n))
      split
      · next hn => rw [hsc.attr (h.fits.sam n hn), ← h.sam n hn]; rfl
      · rfl
    rw [ev_simple I sc B ρ σ hn e hs]
    refine ev_eq I sc hsc e env B _ ρ ρ' σ h.fits ⟨ha, fun n _ _ _ => ?_, fun n hn => ?_⟩ hl
    · by_cases hS : n ∈ env.sampled
      · exact .inl ⟨hS, if_pos hS⟩
      · exact .inr ⟨hS, if_neg hS⟩
    · exact if_neg fun hS => hn (h.fits.sam n hS)

theorem calm_state (I : Interp V) (sc : Scope) (B : List Name) (ρ : Frame V) (σ : St V) {e : Ex} (h : Calm e) :
    (ev I sc e B (fun _ => none) ρ σ).2 = σ :=
  (ev_calm I sc B ρ σ (κ := fun _ => none) (κ' := fun _ => none) (fun _ => rfl) e h).2

theorem calm_simple : ∀ {e : Ex}, Calm e → Simple e
  | .app _ _, h => h.elim
  | .var _, h => h
  | .self _, h => h
  | .lit _, h => h
  | .tup _ _, h => h
  | .dict _, h => h
  | .lam _ _, h => h

/-! ## Statements -/

/-- Two statements end in the same way, with the same attributes and the same local variables. -/
structure Rel (sc : Scope) (r r' : Out V) : Prop where
  sig : r'.sig = r.sig
  σ : r'.σ = r.σ
  ρ : ∀ n, n ∉ sc.stvars → r.ρ n = r'.ρ n

theorem Rel.result {sc : Scope} {r r' : Out V} (h : Rel sc r r') (I : Interp V) : r'.result I = r.result I := by
  unfold Out.result
  rw [h.sig, h.σ]

theorem Rel.set {sc : Scope} {s : Sig V} {σ : St V} {ρ ρ' : Frame V} (h : ∀ n, n ∉ sc.stvars → ρ n = ρ' n) (m : Name) (v : V) :
    Rel sc ⟨s, set ρ m v, σ⟩ ⟨s, set ρ' m v, σ⟩ :=
  ⟨rfl, rfl, fun n hn => by simp only [Deact.set]; split; rfl; exact h n hn⟩

theorem iter_ok (sc : Scope) (body body' : Frame V → St V → Out V)
    (h : ∀ ρ ρ' σ, (∀ n, n ∉ sc.stvars → ρ n = ρ' n) → Rel sc (body ρ σ) (body' ρ' σ)) :
    ∀ (k : Nat) (ρ ρ' : Frame V) (σ : St V), (∀ n, n ∉ sc.stvars → ρ n = ρ' n) →
    Rel sc (iter body k ρ σ) (iter body' k ρ' σ)
  | 0, ρ, ρ', σ, ha => ⟨rfl, rfl, ha⟩
  | k + 1, ρ, ρ', σ, ha => by
    have hr := h ρ ρ' σ ha
    rw [iter, iter]
    rcases hb : body ρ σ with ⟨s, r1, σ1⟩
    rcases hb' : body' ρ' σ with ⟨s', r1', σ1'⟩
    rw [hb, hb'] at hr
    obtain ⟨h1, h2, h3⟩ := hr
    simp only at h1 h2 h3
    subst h1 h2
    cases s' with
    | next => exact iter_ok sc body body' h k r1 r1' σ1' h3
    | cont => exact iter_ok sc body body' h k r1 r1' σ1' h3
    | brk => exact ⟨rfl, rfl, h3⟩
    | ret v => exact ⟨rfl, rfl, h3⟩
    | out => exact ⟨rfl, rfl, h3⟩

theorem truns_sample (I : Interp V) (k : Nat) (ss : Stms) (σ : St V) : ∀ (ns : List Name) (ρ : Frame V),
    ∃ ρ', truns I k (sampleThen ns ss) ρ σ = truns I k ss ρ' σ ∧ (∀ n ∈ ns, ρ' n = σ (n, false)) ∧
      ∀ n, n ∉ ns → ρ' n = ρ n
  | [], ρ => ⟨ρ, rfl, by simp, fun _ _ => rfl⟩
  | m :: ns, ρ => by
    obtain ⟨ρ', h1, h2, h3⟩ := truns_sample I k ss σ ns (set ρ m (σ (m, false)))
    refine ⟨ρ', ?_, ?_, ?_⟩
    · rw [sampleThen, truns, trun, tev]
      exact h1
    · intro n hn
      by_cases hx : n ∈ ns
      · exact h2 n hx
      · rcases List.mem_cons.1 hn with rfl | hn
        · rw [h3 n hx, Deact.set, if_pos rfl]
        · exact absurd hn hx
    · intro n hn
      simp only [List.mem_cons, not_or] at hn
      rw [h3 n hn.2, Deact.set, if_neg hn.1]

theorem mem_samples (env : Env) (s : Stm) (n : Name) : n ∈ samples env s ↔ n ∈ env.stvars ∧ n ∈ lamfreeS s := by
  simp [samples]

theorem Fits.clear {sc : Scope} {env : Env} {B : List Name} (h : Fits sc env B) : Fits sc (clearSampled env) B :=
  ⟨h.loc, h.wr, h.st, by simp [clearSampled]⟩

theorem Good.clear {sc : Scope} {env : Env} {B : List Name} {ρ ρ' : Frame V} {σ : St V} (h : Good sc env B ρ ρ' σ)
    (σ' : St V) : Good sc (clearSampled env) B ρ ρ' σ' :=
  ⟨h.fits.clear, h.free, h.agree, by simp [clearSampled]⟩

/-- The environment inside a nested function. -/
theorem Fits.defn {sc : Scope} {env : Env} {B ps : List Name} {b : Stms} (h : Fits sc env B) (hd : DefOk sc B ps b) :
    Fits sc (Deact.shadow ps env) (binds sc ps b ++ B) where
  loc n := by
    rw [(h.shadow ps).loc n]
    constructor
    · rintro ⟨h1, h2⟩
      refine ⟨h1, fun hx => h2 ?_⟩
      simp only [binds, List.mem_append, List.mem_filter, decide_eq_true_eq] at hx ⊢
      rcases hx with (hx | ⟨hx, hs⟩) | hx
      · exact .inl hx
      · by_cases hp : n ∈ ps
        · exact .inl hp
        · rcases hd.2 n hx hs hp with h' | h'
          · exact absurd h1 h'
          · exact .inr h'
      · exact .inr hx
    · rintro ⟨h1, h2⟩
      refine ⟨h1, fun hx => h2 ?_⟩
      simp only [binds, List.mem_append] at hx ⊢
      tauto
  wr := (h.shadow ps).wr
  st := h.st
  sam := h.sam

theorem binds_free {sc : Scope} {B ps : List Name} {b : Stms} (hB : ∀ n ∈ sc.stvars, n ∉ B) (hd : ∀ p ∈ ps, p ∉ sc.stvars) :
    ∀ n ∈ sc.stvars, n ∉ binds sc ps b ++ B := by
  intro n hs hx
  simp only [binds, List.mem_append, List.mem_filter, decide_eq_true_eq] at hx
  rcases hx with (hx | ⟨_, hx⟩) | hx
  · exact hd n hx hs
  · exact hx hs
  · exact hB n hs hx

theorem binds_assigned (sc : Scope) (B ps : List Name) (b : Stms) :
    ∀ n ∈ assigneds b, n ∈ binds sc ps b ++ B ∨ n ∈ sc.stvars := by
  intro n hn
  by_cases hs : n ∈ sc.stvars
  · exact .inr hs
  · exact .inl (by simp [binds, hn, hs])

mutual
theorem run_ok (I : Interp V) (sc : Scope) (hsc : sc.Ok) (aft : Aft) (haft : aft ∉ sc.stvars) (k : Nat) :
    ∀ (s : Stm) (env : Env) (B : List Name) (ρ ρ' : Frame V) (σ : St V), Good sc env B ρ ρ' σ → TidyS sc B s →
    (∀ n ∈ assigned s, n ∈ B ∨ n ∈ sc.stvars) → (∀ n ∈ lamfreeS s, n ∈ sc.stvars → n ∈ env.sampled) →
    (env.sampled = [] ∨ SimpleS s) →
    Rel sc (run I sc aft k s B ρ σ) (trun I k (deS aft env s) ρ' σ)
  | .expr e, env, B, ρ, ρ', σ, h, ht, _, hc, hs => by
    rw [run, deS, trun, ex_ok I hsc h (seen_lamIn sc e ht hc) hs]
    exact ⟨rfl, rfl, h.agree⟩
  | .assign n e, env, B, ρ, ρ', σ, h, ht, hA, hc, hs => by
    have he := ex_ok I hsc h (seen_lamIn sc e ht hc) hs
    rw [run, deS]
    by_cases hB : n ∈ B
    · rw [if_pos hB, if_neg (fun hl => ((h.fits.loc n).1 hl).2 hB), trun, he]
      exact Rel.set h.agree n _
    · have hn : n ∈ sc.stvars := (hA n (by simp [assigned])).resolve_left hB
      rw [if_neg hB, if_pos hn, if_pos ((h.fits.loc n).2 ⟨hsc.st n hn, hB⟩), trun, he]
      exact ⟨rfl, rfl, h.agree⟩
  | .mut a e, env, B, ρ, ρ', σ, h, ht, _, hc, hs => by
    rw [run, deS, trun, ex_ok I hsc h (seen_lamIn sc e ht hc) hs]
    exact ⟨rfl, rfl, h.agree⟩
  | .ret e, env, B, ρ, ρ', σ, h, ht, _, hc, hs => by
    rw [run, deS, trun, ex_ok I hsc h (seen_lamIn sc e ht hc) hs]
    exact ⟨rfl, rfl, h.agree⟩
  | .brk, env, B, ρ, ρ', σ, h, _, _, _, _ => by rw [run, deS, trun]; exact ⟨rfl, rfl, h.agree⟩
  | .cont, env, B, ρ, ρ', σ, h, _, _, _, _ => by rw [run, deS, trun]; exact ⟨rfl, rfl, h.agree⟩
  | .pass, env, B, ρ, ρ', σ, h, _, _, _, _ => by rw [run, deS, trun]; exact ⟨rfl, rfl, h.agree⟩
  | .ite bs, env, B, ρ, ρ', σ, h, ht, hA, hc, hs => by
    rw [run, deS, trun]
    exact runb_ok I sc hsc aft haft k bs env B ρ ρ' σ h ht hA hc hs
  | .loop b, env, B, ρ, ρ', σ, h, ht, hA, _, _ => by
    rw [run, deS, trun]
    refine iter_ok sc _ _ (fun ρ1 ρ1' σ1 ha => ?_) k ρ ρ' σ h.agree
    exact runs_ok I sc hsc aft haft k b (clearSampled env) B ρ1 ρ1' σ1
      ⟨h.fits.clear, h.free, ha, by simp [clearSampled]⟩ rfl ht hA
  | .after e1 e2, env, B, ρ, ρ', σ, h, ht, _, hc, hs => by
    have h1 : tev I (deE env e1) ρ' σ = ev I sc e1 B (fun _ => none) ρ σ :=
      ex_ok I hsc h (seen_lamIn sc e1 ht fun n hn => hc n (by simp [lamfreeS, hn]))
        (hs.imp id calm_simple)
    have hl : LamIn sc env.sampled B (.lam [] e2) :=
      lamIn_of_free sc env.sampled (.lam [] e2) B fun n hn hst _ => by
        simp [Deact.free] at hn
        exact hc n (by simp [lamfreeS, hn]) hst
    have h2 : ∀ σ1, (env.sampled = [] ∨ σ1 = σ) → tev I (deE env (.lam [] e2)) ρ' σ1 = ev I sc (.lam [] e2) B (fun _ => none) ρ σ1 := by
      intro σ1 ho
      rcases ho with ho | rfl
      · exact ex_ok I hsc (σ := σ1) ⟨h.fits, h.free, h.agree, by simp [ho]⟩ hl (.inl ho)
      · exact ex_ok I hsc h hl (.inr trivial)
    have h3 : ∀ x σ1, tev I (.var x) ρ' σ1 = (ρ' x, σ1) := fun x σ1 => by rw [tev]
    have h4 : env.sampled = [] ∨ (ev I sc e1 B (fun _ => none) ρ σ).2 = σ := by
      rcases hs with hs | hs
      · exact .inl hs
      · exact .inr (calm_state I sc B ρ σ hs)
    rw [run, deS, trun, tev]
    simp only [tevs, h3]
    rw [h1, h2 _ h4, h.agree aft haft]
    exact ⟨rfl, rfl, h.agree⟩
  | .defn n ps b, env, B, ρ, ρ', σ, h, ht, _, _, hs => by
    have hs : env.sampled = [] := hs.resolve_right id
    rw [run, deS, trun]
    have : (fun vs σ' => (truns I k (deSs aft (shadow ps env) b) (bindAll I ps vs ρ') σ').result I) =
        (fun vs σ' => (runs I sc aft k b (binds sc ps b ++ B) (bindAll I ps vs ρ) σ').result I) := by
      funext vs σ'
      refine Rel.result (sc := sc) (runs_ok I sc hsc aft haft k b (shadow ps env) (binds sc ps b ++ B) _ _ σ' ⟨h.fits.defn ht.1,
        binds_free h.free ht.1.1, fun m hm => bindAll_agree I ps vs ρ ρ' m fun _ => h.agree m hm, ?_⟩ hs ht.2
        (binds_assigned sc B ps b)) I
      show ∀ n ∈ env.sampled, _
      simp [hs]
    rw [this]
    exact Rel.set h.agree n _
theorem runs_ok (I : Interp V) (sc : Scope) (hsc : sc.Ok) (aft : Aft) (haft : aft ∉ sc.stvars) (k : Nat) :
    ∀ (ss : Stms) (env : Env) (B : List Name) (ρ ρ' : Frame V) (σ : St V), Good sc env B ρ ρ' σ → env.sampled = [] →
    Tidy sc B ss → (∀ n ∈ assigneds ss, n ∈ B ∨ n ∈ sc.stvars) →
    Rel sc (runs I sc aft k ss B ρ σ) (truns I k (deSs aft env ss) ρ' σ)
  | .nil, env, B, ρ, ρ', σ, h, _, _, _ => by rw [runs, deSs, truns]; exact ⟨rfl, rfl, h.agree⟩
  | .cons s ss, env, B, ρ, ρ', σ, h, h0, ht, hA => by
    rw [runs, deSs]
    obtain ⟨ρ1, e1, e2, e3⟩ := truns_sample I k (.cons (deS aft (setSampled (samples env s) env) s) (deSs aft env ss)) σ
      (samples env s) ρ'
    have hm : ∀ n, n ∈ samples env s ↔ n ∈ sc.stvars ∧ n ∈ lamfreeS s := fun n => by
      rw [mem_samples, h.fits.st]
    have hsam : (setSampled (samples env s) env).sampled = samples env s := by simp [setSampled, h0]
    have hg : Good sc (setSampled (samples env s) env) B ρ ρ1 σ := by
      refine ⟨⟨h.fits.loc, h.fits.wr, h.fits.st, ?_⟩, h.free, ?_, ?_⟩
      · rw [hsam]; exact fun n hn => ((hm n).1 hn).1
      · intro n hn
        rw [e3 n fun hx => hn ((hm n).1 hx).1]
        exact h.agree n hn
      · rw [hsam]; exact e2
    have hr := run_ok I sc hsc aft haft k s _ B ρ ρ1 σ hg ht.2.1 (fun n hn => hA n (by simp [assigneds, hn]))
      (fun n hn hs => by rw [hsam]; exact (hm n).2 ⟨hs, hn⟩)
      (ht.1.imp (fun hn => by
        rw [hsam]
        exact List.eq_nil_iff_forall_not_mem.2 fun n hx => hn n ((hm n).1 hx).2 ((hm n).1 hx).1) id)
    rw [e1, truns]
    rcases hb : run I sc aft k s B ρ σ with ⟨sg, r1, σ1⟩
    rcases hb' : trun I k (deS aft (setSampled (samples env s) env) s) ρ1 σ with ⟨sg', r1', σ1'⟩
    rw [hb, hb'] at hr
    obtain ⟨h1, h2, h3⟩ := hr
    simp only at h1 h2 h3
    subst h1 h2
    cases sg' with
    | next =>
      exact runs_ok I sc hsc aft haft k ss env B r1 r1' σ1' ⟨h.fits, h.free, h3, by simp [h0]⟩ h0 ht.2.2
        (fun n hn => hA n (by simp [assigneds, hn]))
    | cont => exact ⟨rfl, rfl, h3⟩
    | brk => exact ⟨rfl, rfl, h3⟩
    | ret v => exact ⟨rfl, rfl, h3⟩
    | out => exact ⟨rfl, rfl, h3⟩
theorem runb_ok (I : Interp V) (sc : Scope) (hsc : sc.Ok) (aft : Aft) (haft : aft ∉ sc.stvars) (k : Nat) :
    ∀ (bs : Brs) (env : Env) (B : List Name) (ρ ρ' : Frame V) (σ : St V), Good sc env B ρ ρ' σ → TidyB sc B bs →
    (∀ n ∈ assignedb bs, n ∈ B ∨ n ∈ sc.stvars) → (∀ n ∈ lamfreeb bs, n ∈ sc.stvars → n ∈ env.sampled) →
    (env.sampled = [] ∨ SimpleB bs) →
    Rel sc (runb I sc aft k bs B ρ σ) (trunb I k (deB aft env bs) ρ' σ)
  | .els ss, env, B, ρ, ρ', σ, h, ht, hA, _, _ => by
    rw [runb, deB, trunb]
    exact runs_ok I sc hsc aft haft k ss (clearSampled env) B ρ ρ' σ (h.clear σ) rfl ht hA
  | .br e ss bs, env, B, ρ, ρ', σ, h, ht, hA, hc, hs => by
    have hse : env.sampled = [] ∨ Simple e := by
      rcases hs with hs | hs
      · exact .inl hs
      · cases bs with
        | els _ => exact .inr hs
        | br _ _ _ => exact .inr (calm_simple hs.1)
    have he := ex_ok I hsc h (seen_lamIn sc e ht.1 fun n hn => hc n (by simp [lamfreeb, hn])) hse
    rw [runb, deB, trunb, he]
    split
    · exact runs_ok I sc hsc aft haft k ss (clearSampled env) B ρ ρ' _ (h.clear _) rfl ht.2.1
        (fun n hn => hA n (by simp [assignedb, hn]))
    · have hA' : ∀ n ∈ assignedb bs, n ∈ B ∨ n ∈ sc.stvars := fun n hn => hA n (by simp [assignedb, hn])
      have hc' : ∀ n ∈ lamfreeb bs, n ∈ sc.stvars → n ∈ env.sampled := fun n hn => hc n (by simp [lamfreeb, hn])
      cases bs with
      | els ss' =>
        rw [runb, deB, trunb]
        exact runs_ok I sc hsc aft haft k ss' (clearSampled env) B ρ ρ' _ (h.clear _) rfl ht.2.2 hA'
      | br e' ss' bs' =>
        rcases hs with hs | hs
        · exact runb_ok I sc hsc aft haft k (.br e' ss' bs') env B ρ ρ' _ ⟨h.fits, h.free, h.agree, by simp [hs]⟩
            ht.2.2 hA' hc' (.inl hs)
        · rw [calm_state I sc B ρ σ hs.1]
          exact runb_ok I sc hsc aft haft k (.br e' ss' bs') env B ρ ρ' σ h ht.2.2 hA' hc' (.inr hs.2)
end

end Verif.Deact
