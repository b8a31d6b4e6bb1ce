import Verif.Cps.Lemmas.Comp

/-!
The simulation for whole procedures.
-/
namespace Verif.Cps
variable {V W : Type}

/-! ### How statements stop -/

/-- Ways of stopping that are excluded. -/
def Out.Not (st br : Bool) : Out V W → Prop
  | .nxt _ => st = true
  | .brk _ => br = true
  | _ => True

theorem Out.Not.mono {st br st' br' : Bool} {o : Out V W} (h : o.Not st br) (h1 : st = true → st' = true)
    (h2 : br = true → br' = true) : o.Not st' br' := by
  cases o <;> simp only [Out.Not] at h ⊢
  · exact h1 h
  · exact h2 h

theorem onE_not {s : S V W} {r : Option (Ev V W)} {k : V → S V W → Out V W} {st br : Bool}
    (h : ∀ v s', (k v s').Not st br) : (onE s r k).Not st br := by
  rcases r with _ | ⟨v, w⟩ | ⟨v, w⟩
  · trivial
  · exact h _ _
  · trivial

theorem close_not {L : Nat} {o : Out V W} {st br : Bool} (h : o.Not st br) : (o.close L).Not st br := by
  cases o <;> simp only [Out.close] <;> first | trivial | (split <;> first | exact h | trivial)

theorem tryOut_not {L : Nat} {f : S V W → Out V W} {o : Out V W} {st br : Bool} (hf : ∀ s, (f s).Not st br)
    (h : o.Not st br) : (tryOut L f o).Not st br := by
  cases o with
  | exn x s =>
    rw [tryOut]
    split
    · exact close_not (hf _)
    · exact close_not h
  | _ => exact close_not (L := L) h

theorem loop_not {P : Prims V} {q : S V W → Option (Ev V W)} {f g : S V W → Out V W} {st br sf bf : Bool}
    (hf : ∀ s, (f s).Not sf bf) (hg : ∀ s, (g s).Not st br) : ∀ i s, (loop P q f g i s).Not (bf || st) br
  | 0, _ => trivial
  | i + 1, s => by
    rw [loop]
    refine onE_not fun v s' => ?_
    split
    · have h := hf s'
      generalize f s' = o at h ⊢
      cases o <;> simp only [Out.again]
      · exact loop_not hf hg i _
      · have h : bf = true := h
        show (bf || st) = true
        rw [h]
        rfl
      · exact loop_not hf hg i _
      · trivial
      · trivial
      · trivial
      · trivial
    · exact (hg s').mono (fun e => by rw [e]; simp) (fun e => e)

theorem update_not {s : S V W} {x : Nat} {v : V} {br : Bool} : (s.update x v).Not true br := by
  rw [S.update]
  split <;> trivial

mutual
theorem eval_not (P : Prims V) (n : Nat) : ∀ (a : Stmt V W) (s : S V W), (eval P n a s).Not (stops a) (breaks a)
  | .exp e, s => by rw [eval]; exact onE_not fun _ _ => rfl
  | .decl x e, s => by rw [eval]; exact onE_not fun _ _ => rfl
  | .upd x e, s => by rw [eval]; exact onE_not fun _ _ => update_not
  | .call c, s => by rw [eval]; exact onE_not fun _ _ => rfl
  | .declCall x c, s => by rw [eval]; exact onE_not fun _ _ => rfl
  | .updCall x c, s => by rw [eval]; exact onE_not fun _ _ => update_not
  | .mutCall f xs c, s => by rw [eval]; exact onE_not fun _ _ => onE_not fun _ _ => rfl
  | .ret e, s => by rw [eval]; exact onE_not fun _ _ => trivial
  | .retCall c, s => by rw [eval]; exact onE_not fun _ _ => trivial
  | .brk, s => by rw [eval]; rfl
  | .cnt, s => by rw [eval]; trivial
  | .ite e a b, s => by
    rw [eval, stops, breaks]
    refine onE_not fun v s' => ?_
    split
    · exact (evalS_not P n a s').mono (fun e => by rw [e]; rfl) (fun e => by rw [e]; rfl)
    · exact (evalS_not P n b s').mono (fun e => by rw [e]; simp) (fun e => by rw [e]; simp)
  | .whl e a b, s => by
    rw [eval, stops, breaks]
    exact loop_not (evalS_not P n a) (evalS_not P n b) n s
  | .tryS f a b, s => by
    rw [eval, stops, breaks]
    refine tryOut_not (fun s => ?_) ?_
    · exact (evalS_not P n b s).mono (fun e => by rw [e]; simp) (fun e => by rw [e]; simp)
    · exact (evalS_not P n a _).mono (fun e => by rw [e]; rfl) (fun e => by rw [e]; rfl)
  | .drop, s => by rw [eval]; split <;> trivial
  | .pop x, s => by rw [eval]; split <;> trivial
  | .raise e, s => by rw [eval]; exact onE_not fun _ _ => trivial
theorem evalS_not (P : Prims V) (n : Nat) : ∀ (ss : Suite V W) (s : S V W), (evalS P n ss s).Not (stopsS ss) (breaksS ss)
  | .nil, s => by rw [evalS]; rfl
  | .cons a ss, s => by
    rw [evalS, stopsS, breaksS]
    have h := eval_not P n a s
    cases ho : eval P n a s <;> rw [ho] at h <;> simp only [Out.seq, Out.Not] at h ⊢
    · rw [h]
      exact (evalS_not P n ss _).mono (fun e => by rw [e]; rfl) (fun e => by rw [e]; simp)
    · rw [h]
      rfl
end

/-! ### The start of a procedure -/

theorem DSt.congr {Vol Vol' L : List Nat} {s : S V W} {d : D V W} {cs : List (CR V W)} {α : Nat → Nat}
    (h : DSt Vol L s d cs α) (hv : ∀ x ∈ L, x ∈ Vol' ↔ x ∈ Vol) : DSt Vol' L s d cs α where
  c := ⟨fun x hx e => h.c.cel x hx ((hv x hx).1 e), fun x hx e y hy e' => h.c.inj x hx ((hv x hx).1 e) y hy ((hv y hy).1 e'),
    h.c.w, h.c.stk, h.c.cat, fun c hc x hx => ⟨(h.c.keep c hc x hx).1,
      fun e => (h.c.keep c hc x hx).2.1 (fun e' => e ((hv x (h.c.keep c hc x hx).1).2 e')),
      fun e => (h.c.keep c hc x hx).2.2 ((hv x (h.c.keep c hc x hx).1).1 e)⟩⟩
  a x hx tv ht := by
    obtain ⟨v, h1, h2⟩ := h.a x hx tv ht
    refine ⟨v, h1, ?_⟩
    by_cases e : x ∈ Vol
    · rw [if_pos e] at h2
      rw [if_pos ((hv x hx).2 e)]
      exact h2
    · rw [if_neg e] at h2
      rw [if_neg (fun e' => e ((hv x hx).1 e'))]
      exact h2

/-- Moving a parameter to a cell. -/
theorem DSt.move {Vol L : List Nat} {s : S V W} {ρ : Nat → Option (TV V)} {t : T V W} {α : Nat → Nat} {x : Nat}
    (h : DSt Vol L s ⟨ρ, t, []⟩ [] α) (hL : x ∈ L) (hx : x ∉ Vol) (hs : (ρ x).isSome = true) :
    ∃ v, ρ x = some (.val v) ∧
      DSt (x :: Vol) L s ⟨set ρ x (.cell t.cells.length), { t with cells := t.cells ++ [v] }, []⟩ []
        (fun y => if y = x then t.cells.length else α y) := by
  obtain ⟨tv, htv⟩ := Option.isSome_iff_exists.1 hs
  obtain ⟨v, hv, he⟩ := h.a x hL tv htv
  rw [if_neg hx] at he
  subst he
  have hne : ∀ y ∈ Vol, y ≠ x := fun y hy e => hx (e ▸ hy)
  refine ⟨v, htv, ⟨?_, ?_, h.c.w, h.c.stk, h.c.cat, fun c hc => by simp at hc⟩, ?_⟩
  · intro y hy hyv
    rcases List.mem_cons.1 hyv with rfl | hyv
    · exact ⟨v, hv, by simp⟩
    · obtain ⟨u, hu, hc⟩ := h.c.cel y hy hyv
      refine ⟨u, hu, ?_⟩
      simp only [if_neg (hne y hyv)]
      rw [List.getElem?_append_left (lt_of_get hc)]
      exact hc
  · intro y hy hyv z hz hzv e
    rcases List.mem_cons.1 hyv with hy' | hyv
    · rcases List.mem_cons.1 hzv with hz' | hzv
      · rw [hy', hz']
      · obtain ⟨u, hu, hc⟩ := h.c.cel z hz hzv
        have := lt_of_get hc
        simp only [if_pos hy', if_neg (hne z hzv)] at e
        simp only at this
        omega
    · obtain ⟨u, hu, hc⟩ := h.c.cel y hy hyv
      have := lt_of_get hc
      simp only at this
      rcases List.mem_cons.1 hzv with hz' | hzv
      · simp only [if_pos hz', if_neg (hne y hyv)] at e
        omega
      · simp only [if_neg (hne y hyv), if_neg (hne z hzv)] at e
        exact h.c.inj y hy hyv z hz hzv e
  · intro y hy tv' ht
    by_cases e : y = x
    · subst e
      simp only [set_same] at ht
      cases ht
      exact ⟨v, hv, by simp⟩
    · simp only [set_ne e] at ht
      obtain ⟨u, h1, h2⟩ := h.a y hy tv' ht
      refine ⟨u, h1, ?_⟩
      simp only [List.mem_cons, e, false_or, if_false]
      exact h2

theorem volInits_step {P : Prims V} {n : Nat} {res : V} {L : List Nat} {s : S V W} {c : Code V W} :
    ∀ (xs Vol : List Nat) (ρ : Nat → Option (TV V)) (t : T V W) (α : Nat → Nat), xs.Nodup → (∀ x ∈ xs, x ∈ L ∧ x ∉ Vol) →
      DSt Vol L s ⟨ρ, t, []⟩ [] α → (∀ x ∈ L, (ρ x).isSome = true) →
      ∃ ρ' t' α', DSt (xs ++ Vol) L s ⟨ρ', t', []⟩ [] α' ∧ (∀ x ∈ L, (ρ' x).isSome = true) ∧
        step P n res (volInits xs c) [] ρ t = step P n res c [] ρ' t'
  | [], Vol, ρ, t, α, _, _, h, hs => ⟨ρ, t, α, h, hs, rfl⟩
  | x :: xs, Vol, ρ, t, α, hn, hx, h, hs => by
    rw [List.nodup_cons] at hn
    obtain ⟨v, hv, h'⟩ := h.move (hx x (by simp)).1 (hx x (by simp)).2 (hs x (hx x (by simp)).1)
    obtain ⟨ρ', t', α', h1, h2, h3⟩ := volInits_step (P := P) (n := n) (res := res) (c := c) xs (x :: Vol) _ _ _ hn.2 (fun y hy => by
      refine ⟨(hx y (by simp [hy])).1, ?_⟩
      have := (hx y (by simp [hy])).2
      have hne : y ≠ x := fun e => hn.1 (e ▸ hy)
      simp [this, hne]) h' (fun y hy => set_isSome (hs y hy))
    refine ⟨ρ', t', α', h1.congr (fun y _ => by simp [or_left_comm]), h2, ?_⟩
    rw [← h3, volInits, step, evalD]
    simp only [evalT, evalA, hv, Option.map_some, onEv, D.declare, if_true, afterD]

theorem bindParams_some {V : Type} : ∀ {ps : List Nat} {vs : List V}, vs.length = ps.length → ∀ x ∈ ps,
    (bindParams ps vs x).isSome = true
  | [], _, _, x, hx => by simp at hx
  | p :: ps, [], h, _, _ => by simp at h
  | p :: ps, v :: vs, h, x, hx => by
    simp only [bindParams]
    by_cases e : x = p
    · simp [e]
    · rw [if_neg e]
      exact bindParams_some (by simpa using h) x (by simpa [e] using hx)

/-- The simulation for a procedure. -/
theorem sim_proc (P : Prims V) (p : Proc V W) (hp : p.ok = true) (n : Nat) (vs : List V) (hl : vs.length = p.params.length)
    (w : W) : Leads P n n (step P n P.none p.code [] (fun x => (bindParams p.params vs x).map .val) ⟨w, [], []⟩)
      (p.run P n vs w) := by
  simp only [Proc.ok, Bool.and_eq_true, decide_eq_true_eq, Bool.not_eq_true'] at hp
  obtain ⟨⟨⟨hn, hw⟩, ho⟩, hs⟩ := hp
  have hb := bindParams_some hl
  have h0 : DSt [] p.params ⟨bindParams p.params vs, w, []⟩ ⟨fun x => (bindParams p.params vs x).map TV.val, ⟨w, [], []⟩, []⟩
      ([] : List (CR V W)) (fun _ => 0) := by
    refine ⟨⟨fun x _ h => by simp at h, fun x _ h => by simp at h, rfl, rfl, rfl, fun c hc => by simp at hc⟩, ?_⟩
    intro x hx tv ht
    simp only [Option.map_eq_some_iff] at ht
    obtain ⟨v, h1, h2⟩ := ht
    exact ⟨v, h1, by simp [h2]⟩
  obtain ⟨ρ, t, α, h1, h2, h3⟩ := volInits_step (P := P) (n := n) (res := P.none)
    (c := (cps p.vol p.params [] none false p.body 0).1) (p.params.filter (· ∈ p.vol)) [] _ _ _
    (hn.sublist List.filter_sublist) (fun x hx => ⟨(List.mem_filter.1 hx).1, by simp⟩) h0
    (fun x hx => by simp only [Option.isSome_map]; exact hb x hx)
  rw [Proc.code, h3]
  have h1' : DSt p.vol p.params ⟨bindParams p.params vs, w, []⟩ ⟨ρ, t, []⟩ [] α :=
    h1.congr (fun x hx => by simp [hx])
  have hctx : Ctx P n p.vol (⟨[], p.params, p.params, p.params, [], none, 0, [], [],
      ⟨fun _ => .stuck, fun _ => .stuck, fun _ => .stuck, fun v s => .raised v s.w⟩, n⟩ : Cx V W) (readsS p.body) (updatesS p.body)
      (sureS p.body) (stopsS p.body) (breaksS p.body) := {
    jn := Nat.le_refl _
    LΓ := fun _ h => h
    ΓL := fun _ h _ => h
    LxL := fun _ h => h
    HX := fun _ h _ => h
    hU := fun _ _ _ c hc => by simp at hc
    G := fun c hc => by simp at hc
    tlA := fun y hy => by simp [tlReads] at hy
    tlx := fun e => by rw [hs] at e; cases e
    ns := fun e => by rw [hs] at e; cases e
    bv := fun _ y hy => by simp [brkcont, KExp.vars] at hy
    cv := fun y hy => by simp [cntcont, KExp.vars] at hy
    Φn := fun f hf => by simp at hf
    kn := fun e => by rw [hs] at e; cases e
    kb := fun _ => Or.inl fun _ => rfl
    kc := Or.inl fun _ => rfl
    cat := by
      intro cs' L s' t' α' x hc hst
      have := List.eq_nil_of_suffix_nil hc
      subst this
      have ht : t'.cat = [] := by simpa using hst.cat
      exact ⟨1, by rw [run, ht, hst.w]⟩ }
  have := sim P n p.vol p.body _ false P.none _ ρ t α (by exact hw) ho (fun _ h => h) hctx ⟨fun x _ hx => h2 x hx,
    fun k _ x hx => by simp [fvsOf, findK] at hx, fun x _ _ hx => h2 x hx⟩ h1'
  rw [R.pre_none] at this
  refine this.of ?_
  rw [Proc.run]
  have hnt := evalS_not P n p.body ⟨bindParams p.params vs, w, []⟩
  rw [hs] at hnt
  cases ho : evalS P n p.body ⟨bindParams p.params vs, w, []⟩ with
  | nxt s => rw [ho, Out.Not] at hnt; cases hnt
  | brk s => exact Or.inl rfl
  | cnt s => exact Or.inl rfl
  | ret v s => exact Or.inr rfl
  | exn x s => exact Or.inr rfl
  | stuck => exact Or.inl rfl
  | timeout => exact Or.inr rfl

end Verif.Cps
