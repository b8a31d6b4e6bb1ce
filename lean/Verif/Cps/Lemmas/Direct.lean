import Verif.Cps.Lemmas.Static

/-!
The relation between the states before and after the conversion, and the statements that stay in direct
style.
-/
namespace Verif.Cps
variable {V W : Type}

/-! ### How statements stop -/

theorem onE_nxt {s s' : S V W} {r : Option (Ev V W)} {k : V → S V W → Out V W} (h : onE s r k = .nxt s') :
    ∃ v s1, k v s1 = .nxt s' := by
  unfold onE at h
  split at h
  · exact ⟨_, _, h⟩
  · cases h
  · cases h

theorem onE_brk {s s' : S V W} {r : Option (Ev V W)} {k : V → S V W → Out V W} (h : onE s r k = .brk s') :
    ∃ v s1, k v s1 = .brk s' := by
  unfold onE at h
  split at h
  · exact ⟨_, _, h⟩
  · cases h
  · cases h

theorem close_nxt {L : Nat} {o : Out V W} {s : S V W} (h : o.close L = .nxt s) : o = .nxt s := by
  cases o <;> simp only [Out.close] at h <;> first | (split at h <;> simp_all; done) | simp_all

theorem close_brk {L : Nat} {o : Out V W} {s : S V W} (h : o.close L = .brk s) : o = .brk s := by
  cases o <;> simp only [Out.close] at h <;> first | (split at h <;> simp_all; done) | simp_all

theorem tryOut_nxt {L : Nat} {h : S V W → Out V W} {o : Out V W} {s : S V W} (e : tryOut L h o = .nxt s) :
    o = .nxt s ∨ ∃ s1, h s1 = .nxt s := by
  cases o <;> simp only [tryOut] at e
  all_goals first
    | exact Or.inl (close_nxt e)
    | (split at e
       · exact Or.inr ⟨_, close_nxt e⟩
       · exact Or.inl (close_nxt e))

theorem tryOut_brk {L : Nat} {h : S V W → Out V W} {o : Out V W} {s : S V W} (e : tryOut L h o = .brk s) :
    o = .brk s ∨ ∃ s1, h s1 = .brk s := by
  cases o <;> simp only [tryOut] at e
  all_goals first
    | exact Or.inl (close_brk e)
    | (split at e
       · exact Or.inr ⟨_, close_brk e⟩
       · exact Or.inl (close_brk e))

theorem loop_nxt {P : Prims V} {test : S V W → Option (Ev V W)} {body els : S V W → Out V W} :
    ∀ (n : Nat) (s s' : S V W), loop P test body els n s = .nxt s' →
      (∃ s1 s2, body s1 = .brk s2) ∨ ∃ s1, els s1 = .nxt s'
  | 0, s, s', h => by cases h
  | n + 1, s, s', h => by
    rw [loop] at h
    obtain ⟨v, s1, h⟩ := onE_nxt h
    split at h
    · cases e : body s1 with
      | nxt s2 => rw [e] at h; exact loop_nxt n _ _ h
      | cnt s2 => rw [e] at h; exact loop_nxt n _ _ h
      | brk s2 => exact Or.inl ⟨_, _, e⟩
      | ret _ _ => rw [e] at h; cases h
      | exn _ _ => rw [e] at h; cases h
      | stuck => rw [e] at h; cases h
      | timeout => rw [e] at h; cases h
    · exact Or.inr ⟨_, h⟩

theorem loop_brk {P : Prims V} {test : S V W → Option (Ev V W)} {body els : S V W → Out V W} :
    ∀ (n : Nat) (s s' : S V W), loop P test body els n s = .brk s' → ∃ s1, els s1 = .brk s'
  | 0, s, s', h => by cases h
  | n + 1, s, s', h => by
    rw [loop] at h
    obtain ⟨v, s1, h⟩ := onE_brk h
    split at h
    · cases e : body s1 with
      | nxt s2 => rw [e] at h; exact loop_brk n _ _ h
      | cnt s2 => rw [e] at h; exact loop_brk n _ _ h
      | brk s2 => rw [e] at h; cases h
      | ret _ _ => rw [e] at h; cases h
      | exn _ _ => rw [e] at h; cases h
      | stuck => rw [e] at h; cases h
      | timeout => rw [e] at h; cases h
    · exact ⟨_, h⟩

theorem seq_nxt {o : Out V W} {k : S V W → Out V W} {s' : S V W} (h : o.seq k = .nxt s') :
    ∃ s1, o = .nxt s1 ∧ k s1 = .nxt s' := by
  cases o <;> simp_all [Out.seq]

theorem seq_brk {o : Out V W} {k : S V W → Out V W} {s' : S V W} (h : o.seq k = .brk s') :
    o = .brk s' ∨ ∃ s1, o = .nxt s1 ∧ k s1 = .brk s' := by
  cases o <;> simp_all [Out.seq]

theorem update_brk {s s' : S V W} {x : Nat} {v : V} (h : s.update x v = .brk s') : False := by
  unfold S.update at h
  split at h <;> cases h

mutual
/-- A statement that stops normally may do so. -/
theorem eval_stops (P : Prims V) (n : Nat) : ∀ (s : Stmt V W) (st st' : S V W), eval P n s st = .nxt st' → stops s = true
  | .ite e a b, st, st', h => by
    rw [eval] at h
    obtain ⟨v, s1, h⟩ := onE_nxt h
    rw [stops, Bool.or_eq_true]
    split at h
    · exact Or.inl (evalS_stops P n a _ _ h)
    · exact Or.inr (evalS_stops P n b _ _ h)
  | .whl e a b, st, st', h => by
    rw [eval] at h
    rw [stops, Bool.or_eq_true]
    rcases loop_nxt _ _ _ h with ⟨s1, s2, h⟩ | ⟨s1, h⟩
    · exact Or.inl (evalS_breaks P n a _ _ h)
    · exact Or.inr (evalS_stops P n b _ _ h)
  | .tryS _ a b, st, st', h => by
    rw [eval] at h
    rw [stops, Bool.or_eq_true]
    rcases tryOut_nxt h with h | ⟨s1, h⟩
    · exact Or.inl (evalS_stops P n a _ _ h)
    · exact Or.inr (evalS_stops P n b _ _ h)
  | .exp _, _, _, _ => by simp [stops]
  | .decl _ _, _, _, _ => by simp [stops]
  | .upd _ _, _, _, _ => by simp [stops]
  | .call _, _, _, _ => by simp [stops]
  | .declCall _ _, _, _, _ => by simp [stops]
  | .updCall _ _, _, _, _ => by simp [stops]
  | .mutCall _ _ _, _, _, _ => by simp [stops]
  | .drop, _, _, _ => by simp [stops]
  | .pop _, _, _, _ => by simp [stops]
  | .ret _, _, _, h => by
    rw [eval] at h
    obtain ⟨v, s1, h⟩ := onE_nxt h
    cases h
  | .retCall _, _, _, h => by
    rw [eval] at h
    obtain ⟨v, s1, h⟩ := onE_nxt h
    cases h
  | .brk, _, _, h => by rw [eval] at h; cases h
  | .cnt, _, _, h => by rw [eval] at h; cases h
  | .raise _, _, _, h => by
    rw [eval] at h
    obtain ⟨v, s1, h⟩ := onE_nxt h
    cases h
theorem evalS_stops (P : Prims V) (n : Nat) : ∀ (ss : Suite V W) (st st' : S V W), evalS P n ss st = .nxt st' → stopsS ss = true
  | .nil, _, _, _ => by simp [stopsS]
  | .cons s ss, st, st', h => by
    rw [evalS] at h
    obtain ⟨s1, h1, h2⟩ := seq_nxt h
    rw [stopsS, Bool.and_eq_true]
    exact ⟨eval_stops P n s _ _ h1, evalS_stops P n ss _ _ h2⟩
/-- A statement that stops with `break` may do so. -/
theorem eval_breaks (P : Prims V) (n : Nat) : ∀ (s : Stmt V W) (st st' : S V W), eval P n s st = .brk st' → breaks s = true
  | .ite e a b, st, st', h => by
    rw [eval] at h
    obtain ⟨v, s1, h⟩ := onE_brk h
    rw [breaks, Bool.or_eq_true]
    split at h
    · exact Or.inl (evalS_breaks P n a _ _ h)
    · exact Or.inr (evalS_breaks P n b _ _ h)
  | .whl e a b, st, st', h => by
    rw [eval] at h
    rw [breaks]
    obtain ⟨s1, h⟩ := loop_brk _ _ _ h
    exact evalS_breaks P n b _ _ h
  | .tryS _ a b, st, st', h => by
    rw [eval] at h
    rw [breaks, Bool.or_eq_true]
    rcases tryOut_brk h with h | ⟨s1, h⟩
    · exact Or.inl (evalS_breaks P n a _ _ h)
    · exact Or.inr (evalS_breaks P n b _ _ h)
  | .brk, _, _, _ => by simp [breaks]
  | .exp _, _, _, h => by rw [eval] at h; obtain ⟨v, s1, h⟩ := onE_brk h; cases h
  | .decl _ _, _, _, h => by rw [eval] at h; obtain ⟨v, s1, h⟩ := onE_brk h; cases h
  | .upd _ _, _, _, h => by rw [eval] at h; obtain ⟨v, s1, h⟩ := onE_brk h; exact (update_brk h).elim
  | .call _, _, _, h => by rw [eval] at h; obtain ⟨v, s1, h⟩ := onE_brk h; cases h
  | .declCall _ _, _, _, h => by rw [eval] at h; obtain ⟨v, s1, h⟩ := onE_brk h; cases h
  | .updCall _ _, _, _, h => by rw [eval] at h; obtain ⟨v, s1, h⟩ := onE_brk h; exact (update_brk h).elim
  | .mutCall _ _ _, _, _, h => by
    rw [eval] at h
    obtain ⟨v, s1, h⟩ := onE_brk h
    obtain ⟨v, s1, h⟩ := onE_brk h
    cases h
  | .drop, _, _, h => by rw [eval] at h; split at h <;> cases h
  | .pop _, _, _, h => by rw [eval] at h; split at h <;> cases h
  | .ret _, _, _, h => by rw [eval] at h; obtain ⟨v, s1, h⟩ := onE_brk h; cases h
  | .retCall _, _, _, h => by rw [eval] at h; obtain ⟨v, s1, h⟩ := onE_brk h; cases h
  | .cnt, _, _, h => by rw [eval] at h; cases h
  | .raise _, _, _, h => by rw [eval] at h; obtain ⟨v, s1, h⟩ := onE_brk h; cases h
theorem evalS_breaks (P : Prims V) (n : Nat) : ∀ (ss : Suite V W) (st st' : S V W), evalS P n ss st = .brk st' → breaksS ss = true
  | .nil, _, _, h => by rw [evalS] at h; cases h
  | .cons s ss, st, st', h => by
    rw [evalS] at h
    rw [breaksS, Bool.or_eq_true, Bool.and_eq_true]
    rcases seq_brk h with h | ⟨s1, h1, h2⟩
    · exact Or.inl (eval_breaks P n s _ _ h)
    · exact Or.inr ⟨eval_stops P n s _ _ h1, evalS_breaks P n ss _ _ h2⟩
end

/-! ### Related states -/

/-- A catcher: the closure, and the variables whose values it has captured, with these values or the
addresses of their cells. -/
structure CR (V W : Type) where
  clo : Clo V W
  G : List Nat
  σ : Nat → Option V
  α : Nat → Nat

/-- The actor holds the state of the source: `α` gives the cells of the volatile variables in `L`. -/
structure StC (Vol L : List Nat) (s : S V W) (t : T V W) (loc : List (Option V)) (cs : List (CR V W)) (α : Nat → Nat) :
    Prop where
  cel : ∀ x ∈ L, x ∈ Vol → ∃ v, s.σ x = some v ∧ t.cells[α x]? = some v
  inj : ∀ x ∈ L, x ∈ Vol → ∀ y ∈ L, y ∈ Vol → α x = α y → x = y
  w : s.w = t.w
  stk : s.stk = loc ++ t.cat.map Prod.snd
  cat : t.cat.map Prod.fst = cs.map CR.clo
  keep : ∀ c ∈ cs, ∀ x ∈ c.G, x ∈ L ∧ (x ∉ Vol → s.σ x = c.σ x) ∧ (x ∈ Vol → α x = c.α x)

/-- The variables of the activation hold those of the source, if they have a value at all. -/
def Agr (Vol L : List Nat) (σ : Nat → Option V) (ρ : Nat → Option (TV V)) (α : Nat → Nat) : Prop :=
  ∀ x ∈ L, ∀ tv, ρ x = some tv → ∃ v, σ x = some v ∧ tv = if x ∈ Vol then .cell (α x) else .val v

/-- Related states within a body. -/
structure DSt (Vol L : List Nat) (s : S V W) (d : D V W) (cs : List (CR V W)) (α : Nat → Nat) : Prop where
  c : StC Vol L s d.t d.loc cs α
  a : Agr Vol L s.σ d.ρ α

/-- Variables keep having values. -/
def Grow (ρ ρ' : Nat → Option (TV V)) : Prop := ∀ x, (ρ x).isSome = true → (ρ' x).isSome = true

theorem Grow.refl {ρ : Nat → Option (TV V)} : Grow ρ ρ := fun _ h => h

theorem Grow.trans {ρ ρ' ρ'' : Nat → Option (TV V)} (h : Grow ρ ρ') (h' : Grow ρ' ρ'') : Grow ρ ρ'' :=
  fun x hx => h' x (h x hx)

theorem StC.mono {Vol L L' : List Nat} {s : S V W} {t : T V W} {loc : List (Option V)} {cs : List (CR V W)} {α : Nat → Nat}
    (h : StC Vol L s t loc cs α) (hL : ∀ x ∈ L', x ∈ L) (hG : ∀ c ∈ cs, ∀ x ∈ c.G, x ∈ L') : StC Vol L' s t loc cs α where
  cel x hx := h.cel x (hL x hx)
  inj x hx hv y hy := h.inj x (hL x hx) hv y (hL y hy)
  w := h.w
  stk := h.stk
  cat := h.cat
  keep c hc x hx := ⟨hG c hc x hx, (h.keep c hc x hx).2⟩

theorem DSt.mono {Vol L L' : List Nat} {s : S V W} {d : D V W} {cs : List (CR V W)} {α : Nat → Nat}
    (h : DSt Vol L s d cs α) (hL : ∀ x ∈ L', x ∈ L) (hG : ∀ c ∈ cs, ∀ x ∈ c.G, x ∈ L') : DSt Vol L' s d cs α where
  c := h.c.mono hL hG
  a x hx := h.a x (hL x hx)

theorem DSt.setW {Vol L : List Nat} {s : S V W} {d : D V W} {cs : List (CR V W)} {α : Nat → Nat}
    (h : DSt Vol L s d cs α) (w : W) : DSt Vol L { s with w := w } { d with t := { d.t with w := w } } cs α where
  c := ⟨h.c.cel, h.c.inj, rfl, h.c.stk, h.c.cat, h.c.keep⟩
  a := h.a

theorem set_same {A : Type} {ρ : Nat → Option A} {x : Nat} {a : A} : set ρ x a x = some a := by simp [set]

theorem set_ne {A : Type} {ρ : Nat → Option A} {x y : Nat} {a : A} (h : y ≠ x) : set ρ x a y = ρ y := by simp [set, h]

theorem set_isSome {A : Type} {ρ : Nat → Option A} {x : Nat} {a : A} {y : Nat} (h : (ρ y).isSome = true) :
    (set ρ x a y).isSome = true := by
  unfold set
  split
  · rfl
  · exact h

theorem lt_of_get {l : List V} {i : Nat} {v : V} (h : l[i]? = some v) : i < l.length := by
  obtain ⟨h, _⟩ := List.getElem?_eq_some_iff.1 h
  exact h

/-- Declare a variable on both sides. -/
theorem DSt.declare {Vol L : List Nat} {s : S V W} {d : D V W} {cs : List (CR V W)} {α : Nat → Nat}
    (h : DSt Vol L s d cs α) {y : Nat} (hy : y ∉ L) (v : V) :
    ∃ α', DSt Vol (L ++ [y]) { s with σ := set s.σ y v } (d.declare (decide (y ∈ Vol)) y v) cs α' := by
  by_cases hv : y ∈ Vol
  · refine ⟨fun x => if x = y then d.t.cells.length else α x, ?_, ?_⟩
    · have hne : ∀ x ∈ L, x ≠ y := fun x hx e => hy (e ▸ hx)
      refine ⟨?_, ?_, ?_, ?_, ?_, ?_⟩
      · intro x hx hxv
        rcases List.mem_append.1 hx with hx | hx
        · obtain ⟨u, hu, hc⟩ := h.c.cel x hx hxv
          refine ⟨u, ?_, ?_⟩
          · simp only [set_ne (hne x hx)]
            exact hu
          · simp only [if_neg (hne x hx), D.declare, hv, decide_true, if_true]
            rw [List.getElem?_append_left (lt_of_get hc)]
            exact hc
        · simp only [List.mem_singleton] at hx
          subst hx
          refine ⟨v, set_same, ?_⟩
          simp [D.declare, hv]
      · intro x hx hxv z hz hzv e
        rcases List.mem_append.1 hx with hx1 | hx1
        · obtain ⟨u, hu, hc⟩ := h.c.cel x hx1 hxv
          have hlt := lt_of_get hc
          rcases List.mem_append.1 hz with hz1 | hz1
          · simp only [if_neg (hne x hx1), if_neg (hne z hz1)] at e
            exact h.c.inj x hx1 hxv z hz1 hzv e
          · simp only [if_neg (hne x hx1), if_pos (List.mem_singleton.1 hz1)] at e
            omega
        · rcases List.mem_append.1 hz with hz1 | hz1
          · obtain ⟨u, hu, hc⟩ := h.c.cel z hz1 hzv
            have hlt := lt_of_get hc
            simp only [if_neg (hne z hz1), if_pos (List.mem_singleton.1 hx1)] at e
            omega
          · rw [List.mem_singleton.1 hx1, List.mem_singleton.1 hz1]
      · simp only [D.declare, hv, decide_true, if_true]
        exact h.c.w
      · simp only [D.declare, hv, decide_true, if_true]
        exact h.c.stk
      · simp only [D.declare, hv, decide_true, if_true]
        exact h.c.cat
      · intro c hc x hx
        obtain ⟨h1, h2, h3⟩ := h.c.keep c hc x hx
        simp only [set_ne (hne x h1), if_neg (hne x h1)]
        exact ⟨List.mem_append_left _ h1, h2, h3⟩
    · intro x hx tv htv
      simp only [D.declare, hv, decide_true, if_true] at htv
      rcases List.mem_append.1 hx with hx | hx
      · have hne : x ≠ y := fun e => hy (e ▸ hx)
        rw [set_ne hne] at htv
        simp only [set_ne hne, if_neg hne]
        exact h.a x hx tv htv
      · simp only [List.mem_singleton] at hx
        subst hx
        rw [set_same] at htv
        cases htv
        exact ⟨v, set_same, by simp [hv]⟩
  · refine ⟨α, ?_, ?_⟩
    · have hne : ∀ x ∈ L, x ≠ y := fun x hx e => hy (e ▸ hx)
      have hL : ∀ x ∈ L ++ [y], x ∈ Vol → x ∈ L := by
        intro x hx hxv
        rcases List.mem_append.1 hx with hx | hx
        · exact hx
        · simp only [List.mem_singleton] at hx
          subst hx
          exact absurd hxv hv
      refine ⟨?_, ?_, ?_, ?_, ?_, ?_⟩
      · intro x hx hxv
        have hx' := hL x hx hxv
        obtain ⟨u, hu, hc⟩ := h.c.cel x hx' hxv
        refine ⟨u, ?_, ?_⟩
        · simp only [set_ne (hne x hx')]
          exact hu
        · simp only [D.declare, hv, decide_false]
          exact hc
      · intro x hx hxv z hz hzv e
        exact h.c.inj x (hL x hx hxv) hxv z (hL z hz hzv) hzv e
      · simp only [D.declare, hv, decide_false]
        exact h.c.w
      · simp only [D.declare, hv, decide_false]
        exact h.c.stk
      · simp only [D.declare, hv, decide_false]
        exact h.c.cat
      · intro c hc x hx
        obtain ⟨h1, h2, h3⟩ := h.c.keep c hc x hx
        simp only [set_ne (hne x h1)]
        exact ⟨List.mem_append_left _ h1, h2, h3⟩
    · intro x hx tv htv
      simp only [D.declare, hv, decide_false] at htv
      rcases List.mem_append.1 hx with hx | hx
      · have hne : x ≠ y := fun e => hy (e ▸ hx)
        simp only [Bool.false_eq_true, if_false, set_ne hne] at htv
        simp only [set_ne hne]
        exact h.a x hx tv htv
      · simp only [List.mem_singleton] at hx
        subst hx
        simp only [Bool.false_eq_true, if_false, set_same] at htv
        cases htv
        exact ⟨v, set_same, by simp [hv]⟩

theorem declare_grow {d : D V W} {c : Bool} {y : Nat} {v : V} : Grow d.ρ (d.declare c y v).ρ := by
  intro x hx
  cases c
  · exact set_isSome hx
  · exact set_isSome hx

theorem declare_loc {d : D V W} {c : Bool} {y : Nat} {v : V} : (d.declare c y v).loc = d.loc := by
  cases c <;> rfl

/-- Assign to a variable on both sides. -/
theorem DSt.update {Vol L : List Nat} {s : S V W} {d : D V W} {cs : List (CR V W)} {α : Nat → Nat}
    (h : DSt Vol L s d cs α) {y : Nat} (hy : y ∈ L) (hb : (d.ρ y).isSome = true)
    (hU : y ∉ Vol → ∀ c ∈ cs, y ∉ c.G) (v : V) :
    s.update y v = .nxt { s with σ := set s.σ y v } ∧
    ∃ d', d.update (decide (y ∈ Vol)) y v = .nxt d' ∧ DSt Vol L { s with σ := set s.σ y v } d' cs α ∧
      d'.loc = d.loc ∧ Grow d.ρ d'.ρ := by
  obtain ⟨tv, htv⟩ := Option.isSome_iff_exists.1 hb
  obtain ⟨u, hu, hk⟩ := h.a y hy tv htv
  refine ⟨by simp [S.update, hu], ?_⟩
  by_cases hv : y ∈ Vol
  · rw [if_pos hv] at hk
    subst hk
    obtain ⟨u', hu', hc⟩ := h.c.cel y hy hv
    have hlt := lt_of_get hc
    refine ⟨{ d with t := { d.t with cells := d.t.cells.set (α y) v } }, by simp [D.update, hv, htv, hlt], ?_, rfl, Grow.refl⟩
    refine ⟨⟨?_, h.c.inj, h.c.w, h.c.stk, h.c.cat, ?_⟩, ?_⟩
    · intro x hx hxv
      by_cases e : x = y
      · subst e
        exact ⟨v, set_same, by simp [hlt]⟩
      · obtain ⟨z, hz, hc'⟩ := h.c.cel x hx hxv
        refine ⟨z, by simp only [set_ne e]; exact hz, ?_⟩
        have : α y ≠ α x := fun e' => e (h.c.inj x hx hxv y hy hv e'.symm)
        simp only [List.getElem?_set_ne this]
        exact hc'
    · intro c hc' x hx
      obtain ⟨h1, h2, h3⟩ := h.c.keep c hc' x hx
      refine ⟨h1, ?_, h3⟩
      intro hxv
      have : x ≠ y := fun e => hxv (e ▸ hv)
      simp only [set_ne this]
      exact h2 hxv
    · intro x hx tv' htv'
      obtain ⟨z, hz, hk⟩ := h.a x hx tv' htv'
      by_cases e : x = y
      · subst e
        exact ⟨v, set_same, by rw [hk]; simp [hv]⟩
      · exact ⟨z, by simp only [set_ne e]; exact hz, hk⟩
  · rw [if_neg hv] at hk
    subst hk
    refine ⟨{ d with ρ := set d.ρ y (.val v) }, by simp [D.update, hv, htv], ?_, rfl, fun x hx => set_isSome hx⟩
    refine ⟨⟨?_, h.c.inj, h.c.w, h.c.stk, h.c.cat, ?_⟩, ?_⟩
    · intro x hx hxv
      have : x ≠ y := fun e => hv (e ▸ hxv)
      simp only [set_ne this]
      exact h.c.cel x hx hxv
    · intro c hc x hx
      have : x ≠ y := fun e => hU hv c hc (e ▸ hx)
      simp only [set_ne this]
      exact h.c.keep c hc x hx
    · intro x hx tv' htv'
      by_cases e : x = y
      · subst e
        simp only [set_same] at htv'
        cases htv'
        exact ⟨v, set_same, by simp [hv]⟩
      · simp only [set_ne e] at htv' ⊢
        exact h.a x hx tv' htv'

/-! ### Expressions -/

theorem evalA_eq {Vol L : List Nat} {s : S V W} {d : D V W} {cs : List (CR V W)} {α : Nat → Nat}
    (h : DSt Vol L s d cs α) {x : Nat} (hx : x ∈ L) (hb : (d.ρ x).isSome = true) (res : V) :
    evalA d.ρ d.t.cells res (cv Vol x) = s.σ x := by
  obtain ⟨tv, htv⟩ := Option.isSome_iff_exists.1 hb
  obtain ⟨u, hu, hk⟩ := h.a x hx tv htv
  by_cases hv : x ∈ Vol
  · rw [if_pos hv] at hk
    obtain ⟨u', hu', hc⟩ := h.c.cel x hx hv
    simp [cv, hv, evalA, htv, hk, hc, hu']
  · rw [if_neg hv] at hk
    simp [cv, hv, evalA, htv, hk, hu]

theorem evalAs_eq {Vol L : List Nat} {s : S V W} {d : D V W} {cs : List (CR V W)} {α : Nat → Nat}
    (h : DSt Vol L s d cs α) (res : V) : ∀ {xs : List Nat}, (∀ x ∈ xs, x ∈ L) → (∀ x ∈ xs, (d.ρ x).isSome = true) →
    evalAs d.ρ d.t.cells res (xs.map (cv Vol)) = rd s.σ xs
  | [], _, _ => rfl
  | x :: xs, hx, hb => by
    simp only [List.map_cons, evalAs, rd]
    rw [evalA_eq h (hx x (by simp)) (hb x (by simp)) res,
      evalAs_eq h res (fun y hy => hx y (by simp [hy])) (fun y hy => hb y (by simp [hy]))]
    cases s.σ x <;> cases rd s.σ xs <;> rfl

theorem evalT_eq {Vol L : List Nat} {s : S V W} {d : D V W} {cs : List (CR V W)} {α : Nat → Nat}
    (h : DSt Vol L s d cs α) (res : V) {e : Exp V W} (hx : ∀ x ∈ e.fv, x ∈ L) (hb : ∀ x ∈ e.fv, (d.ρ x).isSome = true) :
    evalT d.ρ d.t.cells res d.t.w (convE Vol e) = evalE s.σ s.w e := by
  cases e with
  | var x =>
    simp only [convE, evalT, evalE]
    rw [evalA_eq h (hx x (by simp [Exp.fv])) (hb x (by simp [Exp.fv])) res, h.c.w]
  | op f xs =>
    simp only [convE, evalT, evalE]
    rw [evalAs_eq h res (xs := xs) hx hb, h.c.w]

/-! ### Statements in direct style -/

/-- How the outcomes of a statement and of its converted form correspond. -/
def Rel (Vol L Ls : List Nat) (cs : List (CR V W)) (pd : Bool) (lp : Option Nat) (dep : Nat) (r : Depth)
    (ρ : Nat → Option (TV V)) : Out V W → DOut V W → Prop
  | .stuck, _ => True
  | .timeout, .timeout => True
  | .nxt s, .nxt d => r = .at d.loc.length ∧ (pd = true → d.loc = []) ∧ Grow ρ d.ρ ∧
      (∀ x ∈ Ls, x ∈ L ∨ (d.ρ x).isSome = true) ∧ ∃ cs' α, cs' <:+ cs ∧ (pd = false → cs' = cs) ∧ DSt Vol Ls s d cs' α
  | .brk s, .brk d => lp = some d.loc.length ∧ (pd = true → d.loc = []) ∧ Grow ρ d.ρ ∧
      ∃ cs' α, cs' <:+ cs ∧ (pd = false → cs' = cs) ∧ DSt Vol L s d cs' α
  | .cnt s, .cnt d => lp = some d.loc.length ∧ (pd = true → d.loc = []) ∧ Grow ρ d.ρ ∧
      ∃ cs' α, cs' <:+ cs ∧ (pd = false → cs' = cs) ∧ DSt Vol L s d cs' α
  | .exn x s, .exn y d => x = y ∧ d.loc.length ≤ dep ∧ Grow ρ d.ρ ∧
      ∃ cs' α, cs' <:+ cs ∧ (pd = false → cs' = cs) ∧ DSt Vol L s d cs' α
  | _, _ => False

/-- The conditions to run a statement. -/
structure Pre (Vol L rs us : List Nat) (s : S V W) (d : D V W) (cs : List (CR V W)) (α : Nat → Nat) (pd : Bool) (dep : Nat) :
    Prop where
  st : DSt Vol L s d cs α
  len : d.loc.length = dep
  pd : pd = true → d.loc = []
  bd : ∀ x ∈ L, x ∈ rs ∨ x ∈ us → (d.ρ x).isSome = true
  up : ∀ x ∈ us, x ∉ Vol → ∀ c ∈ cs, x ∉ c.G

theorem Pre.sub {Vol L rs us rs' us' : List Nat} {s : S V W} {d : D V W} {cs : List (CR V W)} {α : Nat → Nat} {pd : Bool} {dep : Nat}
    (h : Pre Vol L rs us s d cs α pd dep) (hr : ∀ x ∈ rs', x ∈ rs) (hu : ∀ x ∈ us', x ∈ us) :
    Pre Vol L rs' us' s d cs α pd dep :=
  ⟨h.st, h.len, h.pd, fun x hx hxx => h.bd x hx (hxx.imp (hr x) (hu x)), fun x hx => h.up x (hu x hx)⟩

theorem Pre.G {Vol L rs us : List Nat} {s : S V W} {d : D V W} {cs : List (CR V W)} {α : Nat → Nat} {pd : Bool} {dep : Nat}
    (h : Pre Vol L rs us s d cs α pd dep) : ∀ c ∈ cs, ∀ x ∈ c.G, x ∈ L := fun c hc x hx => (h.st.c.keep c hc x hx).1

theorem Rel.weaken {Vol L L1 Ls Ls1 : List Nat} {cs cs1 : List (CR V W)} {pd : Bool} {lp : Option Nat} {dep dep1 : Nat}
    {r : Depth} {ρ ρ1 : Nat → Option (TV V)} {o : Out V W} {q : DOut V W}
    (h : Rel Vol L1 Ls1 cs1 pd lp dep1 r ρ1 o q) (hL : ∀ x ∈ L, x ∈ L1)
    (hLs : ∀ s, o = .nxt s → (∀ x ∈ Ls, x ∈ Ls1) ∧ ∀ x ∈ L, x ∈ Ls)
    (hs : cs1 <:+ cs) (hpd : pd = false → cs1 = cs) (hg : Grow ρ ρ1) (hG : ∀ c ∈ cs, ∀ x ∈ c.G, x ∈ L) (hd : dep1 ≤ dep)
    (hB : ∀ x ∈ L1, x ∈ L ∨ (ρ1 x).isSome = true) : Rel Vol L Ls cs pd lp dep r ρ o q := by
  have key : ∀ s d, (∃ cs' α, cs' <:+ cs1 ∧ (pd = false → cs' = cs1) ∧ DSt Vol L1 s d cs' α) →
      ∃ cs' α, cs' <:+ cs ∧ (pd = false → cs' = cs) ∧ DSt Vol L s d cs' α := by
    rintro s d ⟨cs', α, h1, h2, h3⟩
    exact ⟨cs', α, h1.trans hs, fun e => (h2 e).trans (hpd e),
      h3.mono hL (fun c hc => hG c ((h1.trans hs).subset hc))⟩
  cases o <;> cases q <;> simp only [Rel] at h ⊢
  · obtain ⟨h1, h2, h3, hb, cs', α, h4, h5, h6⟩ := h
    obtain ⟨hLs, hLL⟩ := hLs _ rfl
    exact ⟨h1, h2, hg.trans h3,
      fun x hx => (hb x (hLs x hx)).elim (fun hx => (hB x hx).imp_right (h3 x)) Or.inr, cs', α, h4.trans hs, fun e => (h5 e).trans (hpd e),
      h6.mono hLs (fun c hc x hx => hLL x (hG c ((h4.trans hs).subset hc) x hx))⟩
  · exact ⟨h.1, h.2.1, hg.trans h.2.2.1, key _ _ h.2.2.2⟩
  · exact ⟨h.1, h.2.1, hg.trans h.2.2.1, key _ _ h.2.2.2⟩
  · exact ⟨h.1, Nat.le_trans h.2.1 hd, hg.trans h.2.2.1, key _ _ h.2.2.2⟩

/-- Evaluate an expression on both sides. -/
theorem Rel.onE {Vol L Ls rs us : List Nat} {cs : List (CR V W)} {pd : Bool} {lp : Option Nat} {dep : Nat} {r : Depth}
    {s : S V W} {d : D V W} {α : Nat → Nat} {res : V}
    {e : Exp V W} {k : V → S V W → Out V W} {k' : V → D V W → DOut V W} (h : Pre Vol L rs us s d cs α pd dep)
    (hx : ∀ x ∈ e.fv, x ∈ L) (hr : ∀ x ∈ e.fv, x ∈ rs)
    (hk : ∀ v s' d', Pre Vol L rs us s' d' cs α pd dep → d'.ρ = d.ρ → Rel Vol L Ls cs pd lp dep r d.ρ (k v s') (k' v d')) :
    Rel Vol L Ls cs pd lp dep r d.ρ (onE s (evalE s.σ s.w e) k)
      (onEv d (evalT d.ρ d.t.cells res d.t.w (convE Vol e)) k') := by
  rw [evalT_eq h.st res hx (fun x hx' => h.bd x (hx x hx') (Or.inl (hr x hx')))]
  cases evalE s.σ s.w e with
  | none => trivial
  | some ev =>
    cases ev with
    | ok v w => exact hk v _ _ ⟨h.st.setW w, h.len, h.pd, h.bd, h.up⟩ rfl
    | exn x w => exact ⟨rfl, Nat.le_of_eq h.len, Grow.refl, cs, α, List.suffix_rfl, fun _ => rfl, h.st.setW w⟩

theorem Depth.join_bad {a b : Depth} (h : a.join b ≠ .bad) : a ≠ .bad ∧ b ≠ .bad := by
  cases a <;> cases b <;> simp_all [Depth.join]

theorem Depth.join_left {a b : Depth} {d : Nat} (h : a.join b ≠ .bad) (ha : a = .at d) : a.join b = .at d := by
  subst ha
  cases b <;> simp_all [Depth.join]

theorem Depth.join_right {a b : Depth} {d : Nat} (h : a.join b ≠ .bad) (hb : b = .at d) : a.join b = .at d := by
  subst hb
  cases a <;> simp_all [Depth.join]

/-- The outcome of a branch is that of the whole. -/
theorem Rel.depth {Vol L Ls : List Nat} {cs : List (CR V W)} {pd : Bool} {lp : Option Nat} {dep : Nat}
    {r r' : Depth} {ρ : Nat → Option (TV V)} {o : Out V W} {q : DOut V W}
    (h : Rel Vol L Ls cs pd lp dep r ρ o q) (hr : ∀ d, r = .at d → r' = .at d) : Rel Vol L Ls cs pd lp dep r' ρ o q := by
  cases o <;> cases q <;> simp only [Rel] at h ⊢
  · exact ⟨hr _ h.1, h.2⟩
  all_goals exact h

theorem len_close {s : S V W} {d : D V W} {Vol L : List Nat} {cs : List (CR V W)} {α : Nat → Nat} (h : DSt Vol L s d cs α) :
    s.stk.length = d.loc.length + cs.length := by
  rw [h.c.stk, List.length_append, List.length_map]
  have := congrArg List.length h.c.cat
  simp only [List.length_map] at this
  omega

theorem Rel.close {Vol L Ls : List Nat} {cs : List (CR V W)} {pd : Bool} {lp : Option Nat} {dep : Nat}
    {r : Depth} {ρ : Nat → Option (TV V)} {o : Out V W} {q : DOut V W}
    (h : Rel Vol L Ls cs false lp (dep + 1) r ρ o q) (hpd : pd = true → dep = 0) :
    Rel Vol L Ls cs pd lp dep r ρ (o.close (dep + cs.length)) (q.close dep) := by
  have nl : ∀ d : D V W, d.loc.length ≤ dep → pd = true → d.loc = [] := by
    intro d hd e
    have := hpd e
    exact List.length_eq_zero_iff.1 (by omega)
  generalize hf : false = f at h
  cases o <;> cases q <;> simp only [Rel] at h <;> first | exact h.elim | skip
  · rename_i s d
    obtain ⟨h1, h2, h3, hb, cs', α, h4, h5, h6⟩ := h
    have hl := len_close h6
    have := h5 hf.symm
    subst this
    simp only [Out.close, DOut.close]
    by_cases hc : d.loc.length ≤ dep
    · rw [if_pos (by omega), if_pos hc]
      exact ⟨h1, nl d hc, h3, hb, _, α, h4, fun _ => rfl, h6⟩
    · rw [if_neg (by omega)]
      trivial
  · rename_i s d
    obtain ⟨h1, h2, h3, cs', α, h4, h5, h6⟩ := h
    have hl := len_close h6
    have := h5 hf.symm
    subst this
    simp only [Out.close, DOut.close]
    by_cases hc : d.loc.length ≤ dep
    · rw [if_pos (by omega), if_pos hc]
      exact ⟨h1, nl d hc, h3, _, α, h4, fun _ => rfl, h6⟩
    · rw [if_neg (by omega)]
      trivial
  · rename_i s d
    obtain ⟨h1, h2, h3, cs', α, h4, h5, h6⟩ := h
    have hl := len_close h6
    have := h5 hf.symm
    subst this
    simp only [Out.close, DOut.close]
    by_cases hc : d.loc.length ≤ dep
    · rw [if_pos (by omega), if_pos hc]
      exact ⟨h1, nl d hc, h3, _, α, h4, fun _ => rfl, h6⟩
    · rw [if_neg (by omega)]
      trivial
  · rename_i x s y d
    obtain ⟨h1, h2, h3, cs', α, h4, h5, h6⟩ := h
    have hl := len_close h6
    have := h5 hf.symm
    subst this
    simp only [Out.close, DOut.close]
    by_cases hc : d.loc.length ≤ dep
    · rw [if_pos (by omega), if_pos hc]
      exact ⟨h1, hc, h3, _, α, h4, fun _ => rfl, h6⟩
    · rw [if_neg (by omega)]
      trivial
  all_goals trivial

mutual
theorem own_le : ∀ (s : Stmt V W) (pd : Bool) (lp : Option Nat) (d d' : Nat), own pd lp d s = .at d' → d' ≤ d
  | .ite e a b, pd, lp, d, d', h => by
    rw [own] at h
    cases ha : ownS pd lp d a with
    | bad => simp [ha, Depth.join] at h
    | no =>
      cases hb : ownS pd lp d b with
      | bad => simp [ha, hb, Depth.join] at h
      | no => simp [ha, hb, Depth.join] at h
      | «at» e =>
        simp only [ha, hb, Depth.join, Depth.at.injEq] at h
        subst h
        exact ownS_le b pd lp d e hb
    | «at» e =>
      have := ownS_le a pd lp d e ha
      cases hb : ownS pd lp d b with
      | bad => simp [ha, hb, Depth.join] at h
      | no =>
        simp only [ha, hb, Depth.join, Depth.at.injEq] at h
        subst h
        exact this
      | «at» e' =>
        simp only [ha, hb, Depth.join] at h
        split at h
        · cases h
          exact this
        · cases h
  | .whl e a b, pd, lp, d, d', h => by
    rw [own] at h
    split at h
    · cases h
      exact Nat.le_refl _
    · cases h
  | .tryS _ a b, pd, lp, d, d', h => by
    rw [own] at h
    split at h
    · rename_i hb
      rw [h] at hb
      simp [Depth.back] at hb
      omega
    · cases h
  | .exp _, pd, lp, d, d', h => by simp [own] at h; omega
  | .decl _ _, pd, lp, d, d', h => by simp [own] at h; omega
  | .upd _ _, pd, lp, d, d', h => by simp [own] at h; omega
  | .drop, pd, lp, d, d', h => by
    rw [own] at h
    split at h
    · cases h
      exact Nat.le_refl _
    · split at h
      · cases h
      · cases h
        omega
  | .pop _, pd, lp, d, d', h => by
    rw [own] at h
    split at h
    · cases h
      exact Nat.le_refl _
    · split at h
      · cases h
      · cases h
        omega
  | .raise _, pd, lp, d, d', h => by simp [own] at h
  | .brk, pd, lp, d, d', h => by rw [own] at h; split at h <;> cases h
  | .cnt, pd, lp, d, d', h => by rw [own] at h; split at h <;> cases h
  | .call _, pd, lp, d, d', h => by simp [own] at h
  | .declCall _ _, pd, lp, d, d', h => by simp [own] at h
  | .updCall _ _, pd, lp, d, d', h => by simp [own] at h
  | .mutCall _ _ _, pd, lp, d, d', h => by simp [own] at h
  | .ret _, pd, lp, d, d', h => by simp [own] at h
  | .retCall _, pd, lp, d, d', h => by simp [own] at h
theorem ownS_le : ∀ (ss : Suite V W) (pd : Bool) (lp : Option Nat) (d d' : Nat), ownS pd lp d ss = .at d' → d' ≤ d
  | .nil, pd, lp, d, d', h => by simp [ownS] at h; omega
  | .cons s ss, pd, lp, d, d', h => by
    rw [ownS] at h
    cases hs : own pd lp d s with
    | bad => rw [hs] at h; cases h
    | no => rw [hs] at h; cases h
    | «at» e =>
      rw [hs] at h
      have h1 := own_le s pd lp d e hs
      have h2 := ownS_le ss pd lp e d' h
      omega
end

theorem Depth.back_at {d e : Nat} {r : Depth} (h : r.back d = true) (hr : r = .at e) : e = d := by
  subst hr
  simpa [Depth.back] using h

theorem Depth.back_bad {d : Nat} {r : Depth} (h : r.back d = true) : r ≠ .bad := by
  cases r <;> simp_all [Depth.back]

/-- The next statement starts where the first stops. -/
theorem Pre.next {Vol L L1 rs us rs' us' : List Nat} {s s1 : S V W} {d d1 : D V W} {cs cs1 : List (CR V W)} {α α1 : Nat → Nat}
    {pd : Bool} {dep dep1 : Nat} (h : Pre Vol L rs us s d cs α pd dep) (hst : DSt Vol L1 s1 d1 cs1 α1) (hs : cs1 <:+ cs)
    (hlen : d1.loc.length = dep1) (hpd : pd = true → d1.loc = []) (hg : Grow d.ρ d1.ρ)
    (hr : ∀ x ∈ rs', x ∈ rs) (hu : ∀ x ∈ us', x ∈ us) (hL : ∀ x ∈ L1, x ∈ L ∨ (d1.ρ x).isSome = true) :
    Pre Vol L1 rs' us' s1 d1 cs1 α1 pd dep1 where
  st := hst
  len := hlen
  pd := hpd
  bd x hx hxx := (hL x hx).elim (fun hx' => hg x (h.bd x hx' (hxx.imp (hr x) (hu x)))) id
  up x hx hv c hc := h.up x (hu x hx) hv c (hs.subset hc)

end Verif.Cps
