import Verif.Cps.Lemmas.Top

/-!
More iterations and more activations do not change an outcome.
-/
namespace Verif.Cps
variable {V W : Type}

/-! ### The source -/

/-- Unless out of iterations, the same. -/
def OLe (o o' : Out V W) : Prop := o = .timeout ∨ o = o'

theorem OLe.refl (o : Out V W) : OLe o o := Or.inr rfl

theorem OLe.seq {o o' : Out V W} {k k' : S V W → Out V W} (h : OLe o o') (hk : ∀ s, OLe (k s) (k' s)) :
    OLe (o.seq k) (o'.seq k') := by
  rcases h with rfl | rfl
  · exact Or.inl rfl
  · cases o <;> first | exact hk _ | exact OLe.refl _

theorem OLe.again {o o' : Out V W} {k k' : S V W → Out V W} (h : OLe o o') (hk : ∀ s, OLe (k s) (k' s)) :
    OLe (o.again k) (o'.again k') := by
  rcases h with rfl | rfl
  · exact Or.inl rfl
  · cases o <;> first | exact hk _ | exact OLe.refl _

theorem OLe.close {o o' : Out V W} {L : Nat} (h : OLe o o') : OLe (o.close L) (o'.close L) := by
  rcases h with rfl | rfl
  · exact Or.inl rfl
  · exact OLe.refl _

theorem OLe.tryOut {o o' : Out V W} {L : Nat} {k k' : S V W → Out V W} (h : OLe o o') (hk : ∀ s, OLe (k s) (k' s)) :
    OLe (tryOut L k o) (tryOut L k' o') := by
  rcases h with rfl | rfl
  · exact Or.inl rfl
  · cases o with
    | exn x s =>
      simp only [Cps.tryOut]
      split
      · exact (hk _).close
      · exact OLe.refl _
    | _ => exact OLe.refl _

theorem OLe.onE {s : S V W} {r : Option (Ev V W)} {k k' : V → S V W → Out V W} (hk : ∀ v s, OLe (k v s) (k' v s)) :
    OLe (onE s r k) (onE s r k') := by
  rcases r with _ | ⟨v, w⟩ | ⟨v, w⟩
  · exact OLe.refl _
  · exact hk _ _
  · exact OLe.refl _

theorem OLe.loop {P : Prims V} {q : S V W → Option (Ev V W)} {f f' g g' : S V W → Out V W} (hf : ∀ s, OLe (f s) (f' s))
    (hg : ∀ s, OLe (g s) (g' s)) : ∀ i i' s, i ≤ i' → OLe (loop P q f g i s) (loop P q f' g' i' s)
  | 0, _, _, _ => Or.inl rfl
  | i + 1, 0, _, h => by omega
  | i + 1, i' + 1, s, h => by
    rw [Cps.loop, Cps.loop]
    refine OLe.onE fun v s => ?_
    split
    · exact (hf s).again (fun s => OLe.loop hf hg i i' s (by omega))
    · exact hg s

mutual
theorem eval_le (P : Prims V) {n n' : Nat} (h : n ≤ n') : ∀ (a : Stmt V W) (s : S V W), OLe (eval P n a s) (eval P n' a s)
  | .ite e a b, s => by
    rw [eval, eval]
    refine OLe.onE fun v s => ?_
    split
    · exact evalS_le P h a s
    · exact evalS_le P h b s
  | .whl e a b, s => by
    rw [eval, eval]
    exact OLe.loop (evalS_le P h a) (evalS_le P h b) n n' s h
  | .tryS f a b, s => by
    rw [eval, eval]
    exact (evalS_le P h a _).tryOut (evalS_le P h b)
  | .exp _, _ => by rw [eval, eval]; exact OLe.refl _
  | .decl _ _, _ => by rw [eval, eval]; exact OLe.refl _
  | .upd _ _, _ => by rw [eval, eval]; exact OLe.refl _
  | .call _, _ => by rw [eval, eval]; exact OLe.refl _
  | .declCall _ _, _ => by rw [eval, eval]; exact OLe.refl _
  | .updCall _ _, _ => by rw [eval, eval]; exact OLe.refl _
  | .mutCall _ _ _, _ => by rw [eval, eval]; exact OLe.refl _
  | .ret _, _ => by rw [eval, eval]; exact OLe.refl _
  | .retCall _, _ => by rw [eval, eval]; exact OLe.refl _
  | .brk, _ => by rw [eval, eval]; exact OLe.refl _
  | .cnt, _ => by rw [eval, eval]; exact OLe.refl _
  | .drop, _ => by rw [eval, eval]; exact OLe.refl _
  | .pop _, _ => by rw [eval, eval]; exact OLe.refl _
  | .raise _, _ => by rw [eval, eval]; exact OLe.refl _
theorem evalS_le (P : Prims V) {n n' : Nat} (h : n ≤ n') : ∀ (ss : Suite V W) (s : S V W),
    OLe (evalS P n ss s) (evalS P n' ss s)
  | .nil, s => by rw [evalS, evalS]; exact OLe.refl _
  | .cons a ss, s => by
    rw [evalS, evalS]
    exact (eval_le P h a s).seq (evalS_le P h ss)
end

theorem run_le (P : Prims V) (p : Proc V W) {n n' : Nat} (h : n ≤ n') (vs : List V) (w : W) :
    p.run P n vs w = .timeout ∨ p.run P n vs w = p.run P n' vs w := by
  rw [Proc.run, Proc.run]
  rcases evalS_le P h p.body ⟨bindParams p.params vs, w, []⟩ with h | h
  · left
    rw [h]
    rfl
  · right
    rw [h]

/-! ### The generated code -/

/-- Unless out of iterations, the same. -/
def DLe (o o' : DOut V W) : Prop := o = .timeout ∨ o = o'

theorem DLe.refl (o : DOut V W) : DLe o o := Or.inr rfl

theorem DLe.seq {o o' : DOut V W} {k k' : D V W → DOut V W} (h : DLe o o') (hk : ∀ s, DLe (k s) (k' s)) :
    DLe (o.seq k) (o'.seq k') := by
  rcases h with rfl | rfl
  · exact Or.inl rfl
  · cases o <;> first | exact hk _ | exact DLe.refl _

theorem DLe.again {o o' : DOut V W} {k k' : D V W → DOut V W} (h : DLe o o') (hk : ∀ s, DLe (k s) (k' s)) :
    DLe (o.again k) (o'.again k') := by
  rcases h with rfl | rfl
  · exact Or.inl rfl
  · cases o <;> first | exact hk _ | exact DLe.refl _

theorem DLe.close {o o' : DOut V W} {L : Nat} (h : DLe o o') : DLe (o.close L) (o'.close L) := by
  rcases h with rfl | rfl
  · exact Or.inl rfl
  · exact DLe.refl _

theorem DLe.dtry {o o' : DOut V W} {L : Nat} {k k' : D V W → DOut V W} (h : DLe o o') (hk : ∀ s, DLe (k s) (k' s)) :
    DLe (dtry L k o) (dtry L k' o') := by
  rcases h with rfl | rfl
  · exact Or.inl rfl
  · cases o with
    | exn x s =>
      simp only [Cps.dtry]
      split
      · exact (hk _).close
      · exact DLe.refl _
    | _ => exact DLe.refl _

theorem DLe.onEv {d : D V W} {r : Option (Ev V W)} {k k' : V → D V W → DOut V W} (hk : ∀ v s, DLe (k v s) (k' v s)) :
    DLe (onEv d r k) (onEv d r k') := by
  rcases r with _ | ⟨v, w⟩ | ⟨v, w⟩
  · exact DLe.refl _
  · exact hk _ _
  · exact DLe.refl _

theorem DLe.loop {P : Prims V} {q : D V W → Option (Ev V W)} {f f' g g' : D V W → DOut V W} (hf : ∀ s, DLe (f s) (f' s))
    (hg : ∀ s, DLe (g s) (g' s)) : ∀ i i' s, i ≤ i' → DLe (dloop P q f g i s) (dloop P q f' g' i' s)
  | 0, _, _, _ => Or.inl rfl
  | i + 1, 0, _, h => by omega
  | i + 1, i' + 1, s, h => by
    rw [dloop, dloop]
    refine DLe.onEv fun v s => ?_
    split
    · exact (hf s).again (fun s => DLe.loop hf hg i i' s (by omega))
    · exact hg s

mutual
theorem evalD_le (P : Prims V) {n n' : Nat} (h : n ≤ n') (res : V) : ∀ (a : DStmt V W) (d : D V W),
    DLe (evalD P n res a d) (evalD P n' res a d)
  | .ite e a b, s => by
    rw [evalD, evalD]
    refine DLe.onEv fun v s => ?_
    split
    · exact evalDS_le P h res a s
    · exact evalDS_le P h res b s
  | .whl e a b, s => by
    rw [evalD, evalD]
    exact DLe.loop (evalDS_le P h res a) (evalDS_le P h res b) n n' s h
  | .tryS a b, s => by
    rw [evalD, evalD]
    exact (evalDS_le P h res a _).dtry (evalDS_le P h res b)
  | .exp _, _ => by rw [evalD, evalD]; exact DLe.refl _
  | .decl _ _ _, _ => by rw [evalD, evalD]; exact DLe.refl _
  | .upd _ _ _, _ => by rw [evalD, evalD]; exact DLe.refl _
  | .brk, _ => by rw [evalD, evalD]; exact DLe.refl _
  | .cnt, _ => by rw [evalD, evalD]; exact DLe.refl _
  | .drop, _ => by rw [evalD, evalD]; exact DLe.refl _
  | .pop _ _, _ => by rw [evalD, evalD]; exact DLe.refl _
  | .dropC, _ => by rw [evalD, evalD]; exact DLe.refl _
  | .popC _ _, _ => by rw [evalD, evalD]; exact DLe.refl _
  | .raise _, _ => by rw [evalD, evalD]; exact DLe.refl _
  | .bad, _ => by rw [evalD, evalD]; exact DLe.refl _
theorem evalDS_le (P : Prims V) {n n' : Nat} (h : n ≤ n') (res : V) : ∀ (ss : DSuite V W) (d : D V W),
    DLe (evalDS P n res ss d) (evalDS P n' res ss d)
  | .nil, s => by rw [evalDS, evalDS]; exact DLe.refl _
  | .cons a ss, s => by
    rw [evalDS, evalDS]
    exact (evalD_le P h res a s).seq (evalDS_le P h res ss)
end

theorem step_le (P : Prims V) {n n' : Nat} (h : n ≤ n') (res : V) : ∀ (c : Code V W) (Φ : List (KFun V W))
    (ρ : Nat → Option (TV V)) (t : T V W), step P n res c Φ ρ t = .timeout ∨ step P n res c Φ ρ t = step P n' res c Φ ρ t
  | .simp s c, Φ, ρ, t => by
    rw [step, step]
    rcases evalD_le P h res s ⟨ρ, t, []⟩ with h' | h'
    · left
      rw [h']
      rfl
    · rw [h']
      cases evalD P n' res s ⟨ρ, t, []⟩ with
      | nxt d =>
        simp only [afterD]
        split
        · exact step_le P h res c Φ _ _
        · exact Or.inr rfl
      | _ => exact Or.inr rfl
  | .kdef k ps b c, Φ, ρ, t => by
    rw [step, step]
    exact step_le P h res c _ _ _
  | .cont κ none, _, _, _ => by rw [step, step]; exact Or.inr rfl
  | .cont κ (some e), _, _, _ => by rw [step, step]; exact Or.inr rfl
  | .call f xs κ, _, _, _ => by rw [step, step]; exact Or.inr rfl
  | .push κ, _, _, _ => by rw [step, step]; exact Or.inr rfl
  | .jump k ns, _, _, _ => by rw [step, step]; exact Or.inr rfl
  | .ite e a b, Φ, ρ, t => by
    rw [step, step]
    rcases evalT ρ t.cells res t.w e with _ | ⟨v, w⟩ | ⟨v, w⟩
    · exact Or.inr rfl
    · dsimp only
      split
      · exact step_le P h res a _ _ _
      · exact step_le P h res b _ _ _
    · exact Or.inr rfl

theorem runs_le (P : Prims V) {n n' : Nat} (h : n ≤ n') : ∀ (m m' : Nat) (X : Next V W), m ≤ m' →
    run P n m X = .timeout ∨ run P n m X = run P n' m' X
  | 0, _, X, _ => Or.inl (by rw [run])
  | m + 1, 0, _, h => by omega
  | m + 1, m' + 1, X, hm => by
    cases X with
    | stuck => exact Or.inr (by rw [run, run])
    | timeout => exact Or.inl (by rw [run])
    | apply c v t =>
      cases c with
      | done => exact Or.inr (by rw [run, run])
      | fn b Φ ρ =>
        rw [run, run]
        rcases step_le P h v b Φ ρ t with h' | h'
        · left
          rw [h']
          cases m <;> rfl
        · rw [← h']
          exact runs_le P h m m' _ (by omega)
    | throw x t =>
      rw [run, run]
      split
      · exact Or.inr rfl
      · exact runs_le P h m m' _ (by omega)

theorem runCps_le (P : Prims V) (p : Proc V W) {n n' m m' : Nat} (h : n ≤ n') (hm : m ≤ m') (vs : List V) (w : W) :
    p.runCps P n m vs w = .timeout ∨ p.runCps P n m vs w = p.runCps P n' m' vs w := by
  rw [Proc.runCps, Proc.runCps]
  rcases step_le P h P.none p.code [] (fun x => (bindParams p.params vs x).map .val) ⟨w, [], []⟩ with h' | h'
  · left
    rw [h']
    cases m <;> rfl
  · rw [← h']
    exact runs_le P h m m' _ hm

/-- Both end in the same way, unless the source goes wrong. -/
theorem ends_iff (P : Prims V) (p : Proc V W) (hp : p.ok = true) (vs : List V) (hl : vs.length = p.params.length) (w : W)
    (hs : ∀ n, p.run P n vs w ≠ .stuck) (r : Fin V W) (hr : r ≠ .timeout) :
    (∃ n, p.run P n vs w = r) ↔ ∃ n m, p.runCps P n m vs w = r := by
  have fwd : ∀ (r : Fin V W) n, r ≠ .timeout → p.run P n vs w = r → ∃ m, p.runCps P n m vs w = r := by
    intro r n hr h
    have hL := sim_proc P p hp n vs hl w
    rw [h] at hL
    cases r with
    | stuck => exact absurd h (hs n)
    | timeout => exact absurd rfl hr
    | fin v w' d => exact hL
    | raised x w' => exact hL
  constructor
  · rintro ⟨n, h⟩
    obtain ⟨m, hm⟩ := fwd r n hr h
    exact ⟨n, m, hm⟩
  · rintro ⟨n, m, h⟩
    by_cases hd : ∀ k, p.run P k vs w = .timeout
    · exfalso
      have hL := sim_proc P p hp (max n m) vs hl w
      rw [hd] at hL
      have h1 : p.runCps P (max n m) m vs w = .timeout := hL m (Nat.le_max_right _ _)
      rcases runCps_le P p (Nat.le_max_left n m) (Nat.le_refl m) vs w with h2 | h2
      · exact hr (h.symm.trans h2)
      · exact hr (h.symm.trans (h2.trans h1))
    · obtain ⟨k, hk⟩ := Classical.not_forall.1 hd
      obtain ⟨m', hm'⟩ := fwd _ k hk rfl
      refine ⟨k, ?_⟩
      have h1 := runCps_le P p (Nat.le_max_left n k) (Nat.le_max_left m m') vs w
      have h2 := runCps_le P p (Nat.le_max_right n k) (Nat.le_max_right m m') vs w
      rw [h] at h1
      rw [hm'] at h2
      exact (h2.resolve_left hk).trans (h1.resolve_left hr).symm

end Verif.Cps
