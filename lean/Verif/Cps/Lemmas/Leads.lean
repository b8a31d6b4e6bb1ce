import Verif.Cps.Lemmas.DSim

/-!
What remains to be done, on both sides: outcomes, continuations and catchers.
-/
namespace Verif.Cps
variable {V W : Type}

/-! ### The rest of the source -/

/-- What follows a statement, for each way in which it stops. -/
structure R (V W : Type) where
  nxt : S V W → Fin V W
  brk : S V W → Fin V W
  cnt : S V W → Fin V W
  exn : V → S V W → Fin V W

/-- How the procedure ends. -/
def R.app (r : R V W) : Out V W → Fin V W
  | .nxt s => r.nxt s
  | .brk s => r.brk s
  | .cnt s => r.cnt s
  | .ret v s => .fin v s.w s.stk.length
  | .exn x s => r.exn x s
  | .stuck => .stuck
  | .timeout => .timeout

/-- First `k`. -/
def R.pre (r : R V W) (k : S V W → Out V W) : R V W := { r with nxt := fun s => r.app (k s) }

theorem R.app_seq (r : R V W) (k : S V W → Out V W) (o : Out V W) : r.app (o.seq k) = (r.pre k).app o := by
  cases o <;> rfl

/-- The appended statement. -/
def tlE : Option (Exp V W) → S V W → Out V W
  | none => .nxt
  | some e => fun s => onE s (evalE s.σ s.w e) fun v s => .exn v s

theorem R.pre_none (r : R V W) : r.pre (tlE none) = r := rfl

/-- The rest of a loop body. -/
def R.loop (r : R V W) (k : S V W → Out V W) : R V W :=
  ⟨fun s => r.app (k s), r.nxt, fun s => r.app (k s), r.exn⟩

theorem R.app_again (r : R V W) (k : S V W → Out V W) (o : Out V W) : r.app (o.again k) = (r.loop k).app o := by
  cases o <;> rfl

/-- Only with as many entries as given. -/
def clg (L : Nat) (g : S V W → Fin V W) : S V W → Fin V W := fun s => if s.stk.length ≤ L then g s else .stuck

/-- The rest of a handler. -/
def R.hand (r : R V W) (L : Nat) : R V W :=
  ⟨clg L r.nxt, clg L r.brk, clg L r.cnt, fun x => clg L (r.exn x)⟩

/-- The rest of a `try` body. -/
def R.body (r : R V W) (L : Nat) (h : S V W → Fin V W) : R V W :=
  ⟨clg L r.nxt, clg L r.brk, clg L r.cnt, fun x s =>
    if s.stk.length = L + 1 then h { s with stk := some x :: s.stk.tail } else clg L (r.exn x) s⟩

theorem clg_le {L : Nat} {g : S V W → Fin V W} {s : S V W} (h : s.stk.length ≤ L) : clg L g s = g s := if_pos h

theorem hand_close (r : R V W) (L : Nat) (tl : Option (Exp V W)) (o : Out V W) :
    (r.pre (tlE tl)).app (o.close L) = .stuck ∨
      (r.pre (tlE tl)).app (o.close L) = ((r.hand L).pre (tlE tl)).app o := by
  cases o with
  | nxt s =>
    by_cases h : s.stk.length ≤ L
    · right
      simp only [Out.close, if_pos h, R.app, R.pre]
      cases tl with
      | none => simp [tlE, R.app, R.hand, clg, h]
      | some e =>
        simp only [tlE, onE]
        rcases evalE s.σ s.w e with _ | ⟨v, w⟩ | ⟨v, w⟩ <;> simp [R.app, R.hand, clg, h]
    · left
      simp [Out.close, h, R.app]
  | brk s => by_cases h : s.stk.length ≤ L <;> simp [Out.close, h, R.app, R.pre, R.hand, clg]
  | cnt s => by_cases h : s.stk.length ≤ L <;> simp [Out.close, h, R.app, R.pre, R.hand, clg]
  | exn x s => by_cases h : s.stk.length ≤ L <;> simp [Out.close, h, R.app, R.pre, R.hand, clg]
  | ret v s => right; rfl
  | stuck => left; rfl
  | timeout => right; rfl

theorem body_try (r : R V W) (L : Nat) (tl : Option (Exp V W)) (h : S V W → Out V W) (o : Out V W) :
    (r.pre (tlE tl)).app (tryOut L h o) = .stuck ∨
      (r.pre (tlE tl)).app (tryOut L h o) =
        ((r.body L fun s => (r.pre (tlE tl)).app ((h s).close L)).pre (tlE tl)).app o := by
  cases o with
  | nxt s =>
    by_cases h : s.stk.length ≤ L
    · right
      have hne : s.stk.length ≠ L + 1 := by omega
      simp only [tryOut, Out.close, if_pos h, R.app, R.pre]
      cases tl with
      | none => simp [tlE, R.app, R.body, clg, h]
      | some e =>
        simp only [tlE, onE]
        rcases evalE s.σ s.w e with _ | ⟨v, w⟩ | ⟨v, w⟩ <;> simp [R.app, R.body, clg, h, hne]
    · left
      simp [tryOut, Out.close, h, R.app]
  | brk s => by_cases h : s.stk.length ≤ L <;> simp [tryOut, Out.close, h, R.app, R.pre, R.body, clg]
  | cnt s => by_cases h : s.stk.length ≤ L <;> simp [tryOut, Out.close, h, R.app, R.pre, R.body, clg]
  | exn x s =>
    by_cases h1 : s.stk.length = L + 1
    · right
      simp [tryOut, h1, R.app, R.pre, R.body]
    · by_cases h : s.stk.length ≤ L <;> simp [tryOut, Out.close, h, h1, R.app, R.pre, R.body, clg]
  | ret v s => right; rfl
  | stuck => left; rfl
  | timeout => right; rfl

/-! ### What the worker loop does -/

/-- The worker loop ends as given. It needs more than `j` activations if it does not end. -/
def Leads (P : Prims V) (n j : Nat) (X : Next V W) : Fin V W → Prop
  | .stuck => True
  | .timeout => ∀ m ≤ j, run P n m X = .timeout
  | .fin v w d => ∃ m, run P n m X = .fin v w d
  | .raised x w => ∃ m, run P n m X = .raised x w

theorem Leads.mono {P : Prims V} {n j j' : Nat} {X : Next V W} {o : Fin V W} (h : Leads P n j X o) (hj : j' ≤ j) :
    Leads P n j' X o := by
  cases o with
  | timeout => exact fun m hm => h m (Nat.le_trans hm hj)
  | _ => exact h

theorem Leads.timeout {P : Prims V} {n j : Nat} : Leads P n j (.timeout : Next V W) .timeout := by
  intro m _
  cases m <;> rfl

theorem Leads.apply {P : Prims V} {n j : Nat} {b : Code V W} {Φ : List (KFun V W)} {ρ : Nat → Option (TV V)} {v : V} {t : T V W}
    {o : Fin V W} (h : Leads P n j (step P n v b Φ ρ t) o) : Leads P n (j + 1) (.apply (.fn b Φ ρ) v t) o := by
  cases o with
  | stuck => trivial
  | timeout =>
    intro m hm
    cases m with
    | zero => rfl
    | succ m => exact h m (by omega)
  | fin w v d =>
    obtain ⟨m, h⟩ := h
    exact ⟨m + 1, h⟩
  | raised w v =>
    obtain ⟨m, h⟩ := h
    exact ⟨m + 1, h⟩

theorem Leads.throw {P : Prims V} {n j : Nat} {x : V} {t : T V W} {c : Clo V W} {z : Option V} {cs : List (Clo V W × Option V)}
    {o : Fin V W} (ht : t.cat = (c, z) :: cs) (h : Leads P n j (.apply c P.ff { t with cat := (c, some x) :: cs }) o) :
    Leads P n j (.throw x t) o := by
  cases o with
  | stuck => trivial
  | timeout =>
    intro m hm
    cases m with
    | zero => rfl
    | succ m =>
      rw [run, ht]
      exact h m (by omega)
  | fin w v d =>
    obtain ⟨m, h⟩ := h
    exact ⟨m + 1, by rw [run, ht]; exact h⟩
  | raised w v =>
    obtain ⟨m, h⟩ := h
    exact ⟨m + 1, by rw [run, ht]; exact h⟩

theorem Leads.done {P : Prims V} {n j : Nat} {v : V} {t : T V W} :
    Leads P n j (.apply .done v t) (.fin v t.w t.cat.length) := ⟨1, rfl⟩

theorem Leads.of {P : Prims V} {n j : Nat} {X : Next V W} {o o' : Fin V W} (h : Leads P n j X o)
    (ho : o' = .stuck ∨ o' = o) : Leads P n j X o' := by
  rcases ho with rfl | rfl
  · trivial
  · exact h

/-! ### Continuations -/

/-- The expression denotes a continuation. -/
def KEx (Φ : List (KFun V W)) : KExp → Prop
  | .meth => True
  | .ref k ns => ∃ f Φ', findK k Φ = some (f, Φ') ∧ ns.length = f.ps.length
  | .skip κ => KEx Φ κ
  | .bad => False

theorem KEx.eval {Φ : List (KFun V W)} {ρ : Nat → Option (TV V)} : ∀ {κ : KExp}, KEx Φ κ →
    (∀ x ∈ κ.vars, (ρ x).isSome = true) → (∀ k ∈ κ.refs, ∀ x ∈ fvsOf Φ k, (ρ x).isSome = true) →
    ∃ c, evalK Φ ρ κ = some c
  | .meth, _, _, _ => ⟨_, rfl⟩
  | .ref k ns, ⟨f, Φ', hf, hl⟩, h1, h2 => by
    have h2 := h2 k (by simp [KExp.refs])
    simp only [fvsOf, hf] at h2
    refine ⟨.fn f.body Φ' (bindK ρ f.ps ns f.fvs), ?_⟩
    rw [evalK, mkClo, hf]
    dsimp only
    rw [if_pos]
    simp only [Bool.and_eq_true, List.all_eq_true, decide_eq_true_eq]
    refine ⟨fun x hx => ?_, hl⟩
    rcases List.mem_append.1 hx with hx | hx
    · exact h1 x hx
    · exact h2 x hx
  | .skip κ, h, h1, h2 => KEx.eval (κ := κ) h h1 h2

theorem findK_mem {Φ : List (KFun V W)} {k : Nat} {f : KFun V W} {Φ' : List (KFun V W)} (h : findK k Φ = some (f, Φ')) :
    f ∈ Φ ∧ f.name = k := by
  induction Φ with
  | nil => cases h
  | cons g Φ ih =>
    rw [findK] at h
    split at h
    · cases h
      exact ⟨by simp, by assumption⟩
    · have := ih h
      exact ⟨by simp [this.1], this.2⟩

theorem findK_ne {Φ : List (KFun V W)} {k : Nat} {f : KFun V W} (h : k ≠ f.name) : findK k (f :: Φ) = findK k Φ := by
  rw [findK, if_neg (Ne.symm h)]

theorem fvsOf_ne {Φ : List (KFun V W)} {k : Nat} {f : KFun V W} (h : k ≠ f.name) : fvsOf (f :: Φ) k = fvsOf Φ k := by
  rw [fvsOf, fvsOf, findK_ne h]

theorem fvsOf_same {Φ : List (KFun V W)} {f : KFun V W} : fvsOf (f :: Φ) f.name = f.fvs := by
  rw [fvsOf, findK, if_pos rfl]

theorem KEx.refs {Φ : List (KFun V W)} : ∀ {κ : KExp}, KEx Φ κ → ∀ k ∈ κ.refs, ∃ f ∈ Φ, f.name = k
  | .meth, _, k, hk => by simp [KExp.refs] at hk
  | .ref k ns, ⟨f, Φ', hf, hl⟩, k', hk => by
    rw [KExp.refs, List.mem_singleton] at hk
    subst hk
    exact ⟨f, findK_mem hf⟩
  | .skip κ, h, k, hk => KEx.refs (κ := κ) h k hk

theorem evalK_ext {Φ : List (KFun V W)} {f : KFun V W} {ρ : Nat → Option (TV V)} : ∀ {κ : KExp}, (∀ k ∈ κ.refs, k ≠ f.name) →
    evalK (f :: Φ) ρ κ = evalK Φ ρ κ
  | .meth, _ => rfl
  | .bad, _ => rfl
  | .ref k ns, h => by
    rw [evalK, evalK, mkClo, mkClo, findK_ne (h k (by simp [KExp.refs]))]
  | .skip κ, h => evalK_ext (κ := κ) h

theorem KEx.ext {Φ : List (KFun V W)} {f : KFun V W} : ∀ {κ : KExp}, KEx Φ κ → (∀ k ∈ κ.refs, k ≠ f.name) → KEx (f :: Φ) κ
  | .meth, _, _ => trivial
  | .ref k ns, ⟨g, Φ', hf, hl⟩, h => ⟨g, Φ', by rw [findK_ne (h k (by simp [KExp.refs]))]; exact hf, hl⟩
  | .skip κ, h, h' => KEx.ext (κ := κ) h h'

/-- The continuation does what is left to do. -/
structure KOK (P : Prims V) (n : Nat) (Vol : List Nat) (j : Nat) (κ : KExp) (Φ : List (KFun V W)) (Lk : List Nat)
    (cs : List (CR V W)) (g : V → S V W → Fin V W) : Prop where
  ex : KEx Φ κ
  go : ∀ cs' s ρ t α, cs' <:+ cs → DSt Vol Lk s ⟨ρ, t, []⟩ cs' α → (∀ x ∈ κ.vars, (ρ x).isSome = true) →
    (∀ k ∈ κ.refs, ∀ x ∈ fvsOf Φ k, (ρ x).isSome = true) →
    ∀ c, evalK Φ ρ κ = some c → ∀ v, Leads P n j (.apply c v t) (g v s)

theorem KOK.mono {P : Prims V} {n : Nat} {Vol : List Nat} {j j' : Nat} {κ : KExp} {Φ : List (KFun V W)} {Lk Lk' : List Nat}
    {cs cs' : List (CR V W)} {g : V → S V W → Fin V W} (h : KOK P n Vol j κ Φ Lk cs g) (hj : j' ≤ j)
    (hL : ∀ x ∈ Lk, x ∈ Lk') (hs : cs' <:+ cs) (hG : ∀ c ∈ cs', ∀ x ∈ c.G, x ∈ Lk) : KOK P n Vol j' κ Φ Lk' cs' g where
  ex := h.ex
  go cs1 s ρ t α h1 h2 h3 h4 c hc v :=
    (h.go cs1 s ρ t α (h1.trans hs) (h2.mono hL (fun c hc => hG c (h1.subset hc))) h3 h4 c hc v).mono hj

theorem KOK.ext {P : Prims V} {n : Nat} {Vol : List Nat} {j : Nat} {κ : KExp} {Φ : List (KFun V W)} {Lk : List Nat}
    {cs : List (CR V W)} {g : V → S V W → Fin V W} {f : KFun V W} (h : KOK P n Vol j κ Φ Lk cs g)
    (hΦ : ∀ f' ∈ Φ, f'.name < f.name) : KOK P n Vol j κ (f :: Φ) Lk cs g := by
  have hr : ∀ k ∈ κ.refs, k ≠ f.name := by
    intro k hk
    obtain ⟨g, hg, e⟩ := h.ex.refs k hk
    have := hΦ g hg
    omega
  refine ⟨h.ex.ext hr, ?_⟩
  intro cs' s ρ t α h1 h2 h3 h4 c hc v
  rw [evalK_ext hr] at hc
  refine h.go cs' s ρ t α h1 h2 h3 ?_ c hc v
  intro k hk
  have := h4 k hk
  rwa [fvsOf_ne (hr k hk)] at this

theorem StC.len {Vol L : List Nat} {s : S V W} {t : T V W} {cs : List (CR V W)} {α : Nat → Nat}
    (h : StC Vol L s t [] cs α) : s.stk.length = cs.length ∧ t.cat.length = cs.length := by
  have h1 := congrArg List.length h.stk
  have h2 := congrArg List.length h.cat
  simp only [List.nil_append, List.length_map] at h1 h2
  omega

/-- Within a `try`, only without its entry. -/
theorem KOK.close {P : Prims V} {n : Nat} {Vol : List Nat} {j : Nat} {κ : KExp} {Φ : List (KFun V W)} {Lk : List Nat}
    {cs : List (CR V W)} {g : S V W → Fin V W} {c : CR V W} (h : KOK P n Vol j κ Φ Lk cs (fun _ => g)) :
    KOK P n Vol j κ Φ Lk (c :: cs) (fun _ => clg cs.length g) := by
  refine ⟨h.ex, ?_⟩
  intro cs' s ρ t α h1 h2 h3 h4 c hc v
  have hl := h2.c.len
  rcases List.suffix_cons_iff.1 h1 with rfl | h1
  · simp only [List.length_cons] at hl
    rw [clg, if_neg (by omega)]
    trivial
  · have := h1.length_le
    rw [clg_le (by omega)]
    exact h.go cs' s ρ t α h1 h2 h3 h4 c hc v

/-- An exception that no buffer of the running code catches. -/
def CatsOK (P : Prims V) (n : Nat) (Vol : List Nat) (j : Nat) (g : V → S V W → Fin V W) (cs : List (CR V W)) : Prop :=
  ∀ cs' L s t α x, cs' <:+ cs → StC Vol L s t [] cs' α → Leads P n j (.throw x t) (g x s)

theorem CatsOK.close {P : Prims V} {n : Nat} {Vol : List Nat} {j : Nat} {g : V → S V W → Fin V W} {cs : List (CR V W)} {c : CR V W}
    (h : CatsOK P n Vol j g cs) : CatsOK P n Vol j (fun x => clg cs.length (g x)) (c :: cs) := by
  intro cs' L s t α x h1 h2
  have hl := h2.len
  show Leads P n j _ (clg cs.length (g x) s)
  rcases List.suffix_cons_iff.1 h1 with rfl | h1
  · simp only [List.length_cons] at hl
    rw [clg, if_neg (by omega)]
    trivial
  · have := h1.length_le
    rw [clg_le (by omega)]
    exact h cs' L s t α x h1 h2

/-! ### Definitions of continuations -/

/-- The variables the code needs have values. -/
structure Bnd (Vol Lx us : List Nat) (c : Code V W) (Φ : List (KFun V W)) (ρ : Nat → Option (TV V)) : Prop where
  b : ∀ x ∈ freeC c, x ∈ Lx → (ρ x).isSome = true
  k : ∀ k ∈ refsC c, ∀ x ∈ fvsOf Φ k, (ρ x).isSome = true
  u : ∀ x ∈ us, x ∉ Vol → x ∈ Lx → (ρ x).isSome = true

theorem Bnd.rest {Vol Lx us us' : List Nat} {k : Nat} {ps : List Nat} {b c : Code V W} {Φ : List (KFun V W)}
    {ρ : Nat → Option (TV V)} (h : Bnd Vol Lx us (.kdef k ps b c) Φ ρ) (hu : ∀ x ∈ us', x ∈ us) :
    Bnd Vol Lx us' c (mkFun Φ ρ k ps b :: Φ) ρ := by
  refine ⟨fun x hx => h.b x (by rw [freeC]; simp [hx]), ?_, fun x hx => h.u x (hu x hx)⟩
  intro k' hk x hx
  by_cases e : k' = k
  · subst e
    have := fvsOf_same (Φ := Φ) (f := mkFun Φ ρ k' ps b)
    rw [show (mkFun Φ ρ k' ps b).name = k' from rfl] at this
    rw [this] at hx
    simp only [mkFun, List.mem_filter, Bool.and_eq_true] at hx
    exact hx.2.2
  · rw [fvsOf_ne e] at hx
    exact h.k k' (by rw [refsC]; simp [hk, e]) x hx

theorem lookup_zip {ps : List Nat} {x : Nat} : (ps.zip ps).lookup x = if x ∈ ps then some x else none := by
  induction ps with
  | nil => rfl
  | cons p ps ih =>
    rw [List.zip_cons_cons, List.lookup_cons, ih]
    by_cases h : x = p
    · subst h
      simp
    · have : (x == p) = false := by simpa using h
      simp [this, h]

theorem bindK_some {ρ : Nat → Option (TV V)} {ps fvs : List Nat} {x : Nat} {tv : TV V}
    (h : bindK ρ ps ps fvs x = some tv) : ρ x = some tv := by
  rw [bindK, lookup_zip] at h
  by_cases hx : x ∈ ps
  · simpa [hx] using h
  · simp only [hx, if_false] at h
    split at h
    · exact h
    · cases h

theorem bindK_mem {ρ : Nat → Option (TV V)} {ps fvs : List Nat} {x : Nat} (h : x ∈ ps ∨ x ∈ fvs) :
    bindK ρ ps ps fvs x = ρ x := by
  rw [bindK, lookup_zip]
  by_cases hx : x ∈ ps
  · simp [hx]
  · simp [hx, h.resolve_left hx]

theorem Agr.bind {Vol L : List Nat} {σ : Nat → Option V} {ρ : Nat → Option (TV V)} {α : Nat → Nat} {ps fvs : List Nat}
    (h : Agr Vol L σ ρ α) : Agr Vol L σ (bindK ρ ps ps fvs) α := fun x hx tv htv => h x hx tv (bindK_some htv)

/-- The variables of a new activation. -/
theorem Bnd.enter {Vol Lx Lxb us us' : List Nat} {k : Nat} {ps : List Nat} {b c : Code V W} {Φ : List (KFun V W)}
    {ρ ρu : Nat → Option (TV V)} (h : Bnd Vol Lx us (.kdef k ps b c) Φ ρ)
    (hL : ∀ x ∈ Lxb, x ∈ Lx ∨ x ∈ ps) (ha : ∀ x ∈ assignedC b, x ∈ Lxb → x ∈ ps)
    (hu : ∀ x ∈ us', x ∉ Vol → x ∈ Lxb → x ∈ ps)
    (h1 : ∀ x ∈ ps, (ρu x).isSome = true) (h2 : ∀ x ∈ (mkFun Φ ρ k ps b).fvs, (ρu x).isSome = true) :
    Bnd Vol Lxb us' b (mkFun Φ ρ k ps b :: Φ) (bindK ρu ps ps (mkFun Φ ρ k ps b).fvs) := by
  have key : ∀ x, x ∈ ps ∨ x ∈ (mkFun Φ ρ k ps b).fvs → (bindK ρu ps ps (mkFun Φ ρ k ps b).fvs x).isSome = true := by
    intro x hx
    rw [bindK_mem hx]
    exact hx.elim (h1 x) (h2 x)
  refine ⟨?_, ?_, fun x hx hv hl => key x (Or.inl (hu x hx hv hl))⟩
  · intro x hx hl
    by_cases hp : x ∈ ps
    · exact key x (Or.inl hp)
    · have hna : x ∉ assignedC b := fun h' => hp (ha x h' hl)
      have hl' := (hL x hl).resolve_right hp
      have hr := h.b x (by rw [freeC]; simp [hx, hp, hna]) hl'
      refine key x (Or.inr ?_)
      simp only [mkFun, List.mem_filter, List.mem_append, Bool.and_eq_true, decide_eq_true_eq]
      exact ⟨Or.inl ⟨hx, by simp [hp, hna]⟩, hp, hr⟩
  · intro k' hk x hx
    by_cases e : k' = k
    · subst e
      have := fvsOf_same (Φ := Φ) (f := mkFun Φ ρ k' ps b)
      rw [show (mkFun Φ ρ k' ps b).name = k' from rfl] at this
      rw [this] at hx
      exact key x (Or.inr hx)
    · rw [fvsOf_ne e] at hx
      by_cases hp : x ∈ ps
      · exact key x (Or.inl hp)
      · have hr := h.k k' (by rw [refsC]; simp [hk, e]) x hx
        refine key x (Or.inr ?_)
        simp only [mkFun, List.mem_filter, List.mem_append, Bool.and_eq_true, decide_eq_true_eq, List.mem_flatMap]
        exact ⟨Or.inr ⟨k', hk, hx⟩, hp, hr⟩

theorem evalK_def {Φ : List (KFun V W)} {f : KFun V W} {ρ : Nat → Option (TV V)} {c : Clo V W}
    (h : evalK (f :: Φ) ρ (.ref f.name f.ps) = some c) : c = .fn f.body (f :: Φ) (bindK ρ f.ps f.ps f.fvs) := by
  rw [evalK, mkClo, findK, if_pos rfl] at h
  dsimp only at h
  split at h
  · cases h
    rfl
  · cases h

/-- A continuation just defined. -/
theorem KOK.def {P : Prims V} {n : Nat} {Vol : List Nat} {j : Nat} {Φ : List (KFun V W)} {ρ : Nat → Option (TV V)} {k : Nat}
    {ps : List Nat} {b : Code V W} {Lk : List Nat} {cs : List (CR V W)} {g : V → S V W → Fin V W}
    (h : ∀ cs' s ρu t α, cs' <:+ cs →
      DSt Vol Lk s ⟨bindK ρu ps ps (mkFun Φ ρ k ps b).fvs, t, []⟩ cs' α → (∀ x ∈ ps, (ρu x).isSome = true) →
      (∀ x ∈ (mkFun Φ ρ k ps b).fvs, (ρu x).isSome = true) → ∀ v,
      Leads P n j (step P n v b (mkFun Φ ρ k ps b :: Φ) (bindK ρu ps ps (mkFun Φ ρ k ps b).fvs) t) (g v s)) :
    KOK P n Vol (j + 1) (.ref k ps) (mkFun Φ ρ k ps b :: Φ) Lk cs g := by
  have hf := fvsOf_same (Φ := Φ) (f := mkFun Φ ρ k ps b)
  rw [show (mkFun Φ ρ k ps b).name = k from rfl] at hf
  refine ⟨⟨mkFun Φ ρ k ps b, _, by rw [findK, if_pos (show (mkFun Φ ρ k ps b).name = k from rfl)], rfl⟩, ?_⟩
  intro cs' s ρu t α h1 h2 h3 h4 c hc v
  have := evalK_def (f := mkFun Φ ρ k ps b) hc
  subst this
  refine Leads.apply ?_
  have h4 := h4 k (by simp [KExp.refs])
  rw [hf] at h4
  exact h cs' s ρu t α h1 ⟨h2.c, h2.a.bind⟩ h3 h4 v

end Verif.Cps
