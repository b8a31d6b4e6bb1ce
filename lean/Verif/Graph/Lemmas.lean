import Verif.Graph.Spec
/-!
# Lemmas: reading simulates writing
-/
namespace Verif.Graph
open Verif

/-- New address of the old object `a`. -/
def rho (st : SerState) (D : DesState) (a : Nat) : Nat :=
  match st.done a with
  | some k => (D.done k).getD 0
  | none => 0

structure Rel (st : SerState) (D : DesState) : Prop where
  row : D.rowNo = st.rowNo
  fwd : ∀ a k, st.done a = some k → k < st.rowNo ∧ ∃ n, D.done k = some n
  inj : ∀ a b k, st.done a = some k → st.done b = some k → a = b
  bwd : ∀ (k : Int) n, D.done k = some n → n < D.heap.length ∧ ∃ a, ∃ j : Nat, k = j ∧ st.done a = some j
  dinj : ∀ k k' n, D.done k = some n → D.done k' = some n → k = k'
  surj : ∀ n, n < D.heap.length → ∃ k, D.done k = some n

structure Post (h : List Obj) (P : Nat → Prop) (slots : List Slot) (st st' : SerState) (D D' : DesState) :
    Prop where
  ext : ∀ a k, st.done a = some k → st'.done a = some k
  dext : ∀ k n, D.done k = some n → D'.done k = some n
  len : D.heap.length ≤ D'.heap.length
  keep : ∀ n, n < D.heap.length → D'.heap[n]? = D.heap[n]?
  refs : ∀ a, Slot.ref a ∈ slots → ∃ k, st'.done a = some k
  new : ∀ a k, st.done a = none → st'.done a = some k → P a ∧ ∃ o, h[a]? = some o ∧
    (∀ b, Slot.ref b ∈ o.kids → ∃ j, st'.done b = some j) ∧
    D'.heap[rho st' D' a]? = some ⟨o.cid, o.ws, o.kids.map (Slot.rename (rho st' D'))⟩

theorem rho_ext {st st' : SerState} {D D' : DesState} (r : Rel st D)
    (ext : ∀ a k, st.done a = some k → st'.done a = some k)
    (dext : ∀ k n, D.done k = some n → D'.done k = some n)
    {a k : Nat} (h : st.done a = some k) : rho st' D' a = rho st D a := by
  obtain ⟨-, n, hn⟩ := r.fwd a k h
  unfold rho
  rw [h, ext a k h]
  simp only [hn, dext _ _ hn]

theorem map_rename_ext {st st' : SerState} {D D' : DesState} (r : Rel st D)
    (ext : ∀ a k, st.done a = some k → st'.done a = some k)
    (dext : ∀ k n, D.done k = some n → D'.done k = some n)
    (l : List Slot) (hl : ∀ b, Slot.ref b ∈ l → ∃ j, st.done b = some j) :
    l.map (Slot.rename (rho st' D')) = l.map (Slot.rename (rho st D)) := by
  apply List.map_congr_left
  intro s hs
  cases s with
  | ref b =>
    obtain ⟨j, hj⟩ := hl b hs
    simp only [Slot.rename, rho_ext r ext dext hj]
  | _ => rfl

theorem Rel.bump {st st1 : SerState} {D D1 : DesState} (r : Rel st D) (i : Nat)
    (h1 : st1.done = st.done) (h2 : D1.done = D.done) (h3 : D1.heap = D.heap)
    (h4 : st1.rowNo = st.rowNo + i) (h5 : D1.rowNo = D.rowNo + i) : Rel st1 D1 where
  row := by rw [h4, h5, r.row]
  fwd := by
    intro a k h; rw [h1] at h; obtain ⟨x, y⟩ := r.fwd a k h
    rw [h2]; exact ⟨by omega, y⟩
  inj := by rw [h1]; exact r.inj
  bwd := by rw [h1, h2, h3]; exact r.bwd
  dinj := by rw [h2]; exact r.dinj
  surj := by rw [h2, h3]; exact r.surj

theorem Post.weaken {h : List Obj} {P : Nat → Prop} {slots : List Slot} {st st1 st' : SerState}
    {D D1 D' : DesState} (p : Post h P slots st1 st' D1 D') (s : Slot)
    (h1 : st1.done = st.done) (h2 : D1.done = D.done) (h3 : D1.heap = D.heap)
    (hs : ∀ a, s = .ref a → ∃ k, st'.done a = some k) : Post h P (s :: slots) st st' D D' where
  ext := by rw [← h1]; exact p.ext
  dext := by rw [← h2]; exact p.dext
  len := by rw [← h3]; exact p.len
  keep := by rw [← h3]; exact p.keep
  refs := by
    intro a ha
    rcases List.mem_cons.1 ha with e | e
    · exact hs a e.symm
    · exact p.refs a e
  new := by rw [← h1]; exact p.new

theorem plain_range {c : Int} (h : kindOf c = .plain) : 0 < c ∧ c ≤ 14 := by
  unfold kindOf at h
  split at h
  · cases h
  · split at h
    · omega
    · split at h
      · cases h
      · split at h <;> cases h

theorem boxed_range {c : Int} (h : kindOf c = .boxed) : 54 ≤ c := by
  unfold kindOf at h
  split at h
  · cases h
  · split at h
    · cases h
    · split at h
      · omega
      · split at h <;> cases h

theorem tracked_range {c : Int} (h : kindOf c = .tracked) : 0 < c := by
  unfold kindOf at h
  split at h
  · omega
  · split at h
    · cases h
    · split at h
      · cases h
      · split at h
        · omega
        · cases h

theorem look_fresh {glob : Bool} {D : DesState} {c : Int} {w : List Int} {rs : List (Int × List Int)}
    (hD : D.rows = (c, w) :: rs) (hc : kindOf c = .tracked) :
    look glob .val D = .ok (.fresh c w ⟨rs, D.rowNo + 1, D.done, D.heap⟩) := by
  have hp := tracked_range hc
  unfold look
  rw [hD]
  simp only
  by_cases h : c.natAbs > 14
  · rw [if_pos h, if_neg (by omega), hc]
  · have e : (c.natAbs : Int) = c := by omega
    rw [if_neg h, if_neg (by omega), e, hc]
    simp only
    rw [if_neg (by omega)]

theorem look_back {glob : Bool} {D : DesState} {c : Int} {k : Nat} {rs : List (Int × List Int)}
    (hD : D.rows = (-c, [(k : Int)]) :: rs) (hc : kindOf c = .tracked) :
    look glob .val D = .ok (.value (D.prev k) ⟨rs, D.rowNo + 1, D.done, D.heap⟩) := by
  have hp := tracked_range hc
  unfold look
  rw [hD]
  simp only
  by_cases h : (-c).natAbs > 14
  · rw [if_pos h, if_pos (by omega), if_neg (by omega)]; rfl
  · have e : ((-c).natAbs : Int) = c := by omega
    rw [if_neg h, if_neg (by omega), e, hc]
    simp only
    rw [if_pos (by omega)]; rfl

theorem look_imm {glob : Bool} {D : DesState} {c : Int} {w : List Int} {rs : List (Int × List Int)}
    (hD : D.rows = (c, w) :: rs) (hc : kindOf c = .plain) :
    look glob .val D = .ok (.value (.imm c w) ⟨rs, D.rowNo + 1, D.done, D.heap⟩) := by
  have hp := plain_range hc
  have e : (c.natAbs : Int) = c := by omega
  unfold look
  rw [hD]
  simp only
  rw [if_neg (by omega), if_neg (by omega), e, hc]

theorem look_box {glob : Bool} {D : DesState} {c d : Int} {w : List Int} {rs : List (Int × List Int)}
    (hD : D.rows = (c, []) :: (d, w) :: rs) (hc : kindOf c = .boxed) :
    look glob .val D = .ok (.value (.box c d w) ⟨rs, D.rowNo + 2, D.done, D.heap⟩) := by
  have hp := boxed_range hc
  unfold look
  rw [hD]
  simp only
  rw [if_pos (by omega), if_neg (by omega), hc]

theorem look_ext {D : DesState} {c k : Int} {rs : List (Int × List Int)}
    (hD : D.rows = (-c, [k]) :: rs) (hc : 14 < c) (hk : k < 0) :
    look true .val D = .ok (.value (.ext c k) ⟨rs, D.rowNo + 1, D.done, D.heap⟩) := by
  unfold look
  rw [hD]
  simp only
  rw [if_pos (by omega), if_pos (by omega), if_pos hk]
  simp

theorem look_none {glob : Bool} {D : DesState} {rs : List (Int × List Int)}
    (hD : D.rows = (0, []) :: rs) :
    look glob .val D = .ok (.value .none ⟨rs, D.rowNo + 1, D.done, D.heap⟩) := by
  unfold look; rw [hD]; simp

theorem look_raw {glob : Bool} {D : DesState} {c : Int} {w : List Int} {rs : List (Int × List Int)}
    (hD : D.rows = (c, w) :: rs) :
    look glob .raw D = .ok (.value (.raw c w) ⟨rs, D.rowNo + 1, D.done, D.heap⟩) := by
  unfold look; rw [hD]

/-- Consequence of the induction hypothesis: what `ser` wrote, `des` reads. -/
def Sim (h : List Obj) (user : Int → List SK) (glob : Bool) (P : Nat → Prop) (f : Nat) (slots : List Slot)
    (st st' : SerState) : Prop :=
  ∃ R, st'.rows = st.rows ++ R ∧ st'.rowNo = st.rowNo + R.length ∧
    ∀ D rest, Rel st D → D.rows = R ++ rest →
      ∃ D', des user glob f (slots.map Slot.sk) D = .ok (slots.map (Slot.rename (rho st' D')), D') ∧
        Rel st' D' ∧ D'.rows = rest ∧ Post h P slots st st' D D'

theorem des_value {user : Int → List SK} {glob : Bool} {f : Nat} {k : SK} {ks : List SK} {D D1 D2 : DesState}
    {v : Slot} {vs : List Slot} (hl : look glob k D = .ok (.value v D1))
    (hd : des user glob f ks D1 = .ok (vs, D2)) : des user glob (f + 1) (k :: ks) D = .ok (v :: vs, D2) := by
  unfold des
  rw [hl, Res.ok_bind]
  simp only
  rw [hd, Res.ok_bind]; rfl

theorem des_fresh {user : Int → List SK} {glob : Bool} {f : Nat} {k : SK} {ks : List SK} {D D1 D2 D4 : DesState}
    {c : Int} {w : List Int} {vs kids : List Slot} (hl : look glob k D = .ok (.fresh c w D1))
    (hk : des user glob f (layout user c w) (D1.alloc c w) = .ok (kids, D2))
    (hd : des user glob f ks (D2.fill D1.heap.length kids) = .ok (vs, D4)) :
    des user glob (f + 1) (k :: ks) D = .ok (.ref D1.heap.length :: vs, D4) := by
  unfold des
  rw [hl, Res.ok_bind]
  simp only
  rw [hk, Res.ok_bind]
  simp only
  rw [hd, Res.ok_bind]; rfl

/-- A slot that is written as the rows `X` and read back as itself without a new object. -/
theorem sim_value {h : List Obj} {user : Int → List SK} {glob : Bool} {P : Nat → Prop} {f : Nat}
    {s : Slot} {ss : List Slot} {st st1 st' : SerState} (X : List (Int × List Int))
    (hr : st1.rows = st.rows ++ X) (hn : st1.rowNo = st.rowNo + X.length) (hd : st1.done = st.done)
    (hs : ∀ D rest, Rel st D → D.rows = X ++ rest →
      ∃ v, look glob s.sk D = .ok (.value v ⟨rest, D.rowNo + X.length, D.done, D.heap⟩) ∧
        ∀ D', Rel st' D' → (∀ a k, st.done a = some k → st'.done a = some k) →
          (∀ k n, D.done k = some n → D'.done k = some n) → v = s.rename (rho st' D'))
    (href : ∀ a, s = .ref a → ∃ k, st.done a = some k)
    (ih : Sim h user glob P f ss st1 st') : Sim h user glob P (f + 1) (s :: ss) st st' := by
  obtain ⟨R, h1, h2, h3⟩ := ih
  refine ⟨X ++ R, by rw [h1, hr, List.append_assoc], by rw [h2, hn, List.length_append]; omega, ?_⟩
  intro D rest hrel hD
  obtain ⟨v, hv1, hv2⟩ := hs D (R ++ rest) hrel (by rw [hD, List.append_assoc])
  have hrel1 : Rel st1 ⟨R ++ rest, D.rowNo + X.length, D.done, D.heap⟩ :=
    hrel.bump X.length hd rfl rfl hn rfl
  obtain ⟨D', d1, d2, d3, d4⟩ := h3 _ rest hrel1 rfl
  have hext : ∀ a k, st.done a = some k → st'.done a = some k := by rw [← hd]; exact d4.ext
  refine ⟨D', ?_, d2, d3, d4.weaken s hd rfl rfl ?_⟩
  · rw [List.map_cons, List.map_cons, ← hv2 D' d2 hext d4.dext]
    exact des_value hv1 d1
  · intro a ha
    obtain ⟨k, hk⟩ := href a ha
    exact ⟨k, hext a k hk⟩

theorem sim_fresh {h : List Obj} {user : Int → List SK} {glob : Bool} {P : Nat → Prop} {f : Nat}
    {a : Nat} {o : Obj} {ss : List Slot} {st st2 st' : SerState}
    (ho : h[a]? = some o) (hc : kindOf o.cid = .tracked) (hlay : o.kids.map Slot.sk = layout user o.cid o.ws)
    (hnone : st.done a = none) (hP : P a)
    (ih1 : Sim h user glob P f o.kids ((st.mark a).add o.cid o.ws) st2)
    (ih2 : Sim h user glob P f ss st2 st') : Sim h user glob P (f + 1) (.ref a :: ss) st st' := by
  obtain ⟨R1, a1, a2, a3⟩ := ih1
  obtain ⟨R2, b1, b2, b3⟩ := ih2
  simp only [SerState.mark, SerState.add] at a1 a2
  refine ⟨(o.cid, o.ws) :: R1 ++ R2, by rw [b1, a1]; simp, by rw [b2, a2]; simp; omega, ?_⟩
  intro D rest hrel hD
  have hlook := look_fresh (glob := glob) (D := D) (c := o.cid) (w := o.ws) (rs := R1 ++ (R2 ++ rest)) (by rw [hD]; simp) hc
  generalize hD0 : (⟨R1 ++ (R2 ++ rest), D.rowNo + 1, D.done, D.heap⟩ : DesState) = D0 at hlook
  have e1 : D0.done = D.done := by rw [← hD0]
  have e2 : D0.heap = D.heap := by rw [← hD0]
  have e3 : D0.rowNo = D.rowNo + 1 := by rw [← hD0]
  have e4 : D0.rows = R1 ++ (R2 ++ rest) := by rw [← hD0]
  -- state after allocation
  have hrow := hrel.row
  have hkey : (D0.rowNo : Int) - 1 = (st.rowNo : Int) := by rw [e3, hrow]; omega
  have hfreshkey : D.done (st.rowNo : Int) = none := by
    cases hx : D.done (st.rowNo : Int) with
    | none => rfl
    | some n =>
      obtain ⟨-, b, j, hj, hb⟩ := hrel.bwd _ _ hx
      have := (hrel.fwd b j hb).1
      omega
  have hrel1 : Rel ((st.mark a).add o.cid o.ws) (D0.alloc o.cid o.ws) := by
    constructor
    · simp only [SerState.mark, SerState.add, DesState.alloc]; omega
    · intro b k hb
      simp only [SerState.mark, SerState.add, DesState.alloc] at hb ⊢
      split at hb
      · cases hb
        refine ⟨by omega, D0.heap.length, ?_⟩
        rw [if_pos (by omega)]
      · obtain ⟨x, n, y⟩ := hrel.fwd b k hb
        refine ⟨by omega, n, ?_⟩
        rw [if_neg (by omega), e1]; exact y
    · intro b c k hb hc'
      simp only [SerState.mark, SerState.add] at hb hc'
      split at hb <;> split at hc'
      · omega
      · cases hb; have := (hrel.fwd _ _ hc').1; omega
      · cases hc'; have := (hrel.fwd _ _ hb).1; omega
      · exact hrel.inj b c k hb hc'
    · intro k n hk
      simp only [SerState.mark, SerState.add, DesState.alloc] at hk ⊢
      split at hk
      · cases hk
        refine ⟨by simp, a, st.rowNo, by omega, by simp⟩
      · rw [e1] at hk
        obtain ⟨x, b, j, y, z⟩ := hrel.bwd k n hk
        refine ⟨by simp [e2]; omega, b, j, y, ?_⟩
        rw [if_neg ?_]; exact z
        intro hba; rw [hba, hnone] at z; cases z
    · intro k k' n hk hk'
      simp only [DesState.alloc] at hk hk'
      split at hk <;> split at hk'
      · omega
      · cases hk; rw [e1] at hk'; have := (hrel.bwd _ _ hk').1; rw [e2] at this; omega
      · cases hk'; rw [e1] at hk; have := (hrel.bwd _ _ hk).1; rw [e2] at this; omega
      · rw [e1] at hk hk'; exact hrel.dinj k k' n hk hk'
    · intro n hn
      simp only [DesState.alloc, List.length_append, List.length_singleton] at hn ⊢
      by_cases hlt : n < D0.heap.length
      · rw [e2] at hlt
        obtain ⟨k, hk⟩ := hrel.surj n hlt
        refine ⟨k, ?_⟩
        rw [if_neg, e1]; exact hk
        intro hkk; rw [hkk, hkey, hfreshkey] at hk; cases hk
      · exact ⟨_, by rw [if_pos rfl]; congr 1; omega⟩
  obtain ⟨D2, c1, c2, c3, c4⟩ := a3 (D0.alloc o.cid o.ws) (R2 ++ rest) hrel1 (by simp only [DesState.alloc, e4])
  rw [hlay] at c1
  -- the new object's address
  let n := D0.heap.length
  have hn : D0.heap.length = n := rfl
  have hnlen : (D0.alloc o.cid o.ws).heap.length = n + 1 := by simp [DesState.alloc, hn]
  have hD2n : D2.heap[n]? = some ⟨o.cid, o.ws, []⟩ := by
    rw [c4.keep n (by omega)]
    simp [DesState.alloc, hn]
  have hn2 : n < D2.heap.length := by have := c4.len; omega
  have hst2a : st2.done a = some st.rowNo := c4.ext a st.rowNo (by simp [SerState.mark, SerState.add])
  have hD2k : D2.done (st.rowNo : Int) = some n := by
    apply c4.dext
    simp only [DesState.alloc]
    rw [if_pos (by omega)]
  generalize hkids : o.kids.map (Slot.rename (rho st2 D2)) = kids at c1
  have hfill : D2.fill n kids = ⟨D2.rows, D2.rowNo, D2.done, D2.heap.set n ⟨o.cid, o.ws, kids⟩⟩ := by
    unfold DesState.fill; rw [hD2n]
  generalize hD3 : D2.fill n kids = D3 at hfill
  have f1 : D3.done = D2.done := by rw [hfill]
  have f2 : D3.heap = D2.heap.set n ⟨o.cid, o.ws, kids⟩ := by rw [hfill]
  have f3 : D3.rows = D2.rows := by rw [hfill]
  have f4 : D3.rowNo = D2.rowNo := by rw [hfill]
  have f5 : D3.heap.length = D2.heap.length := by rw [f2, List.length_set]
  have hrel3 : Rel st2 D3 := by
    constructor
    · rw [f4]; exact c2.row
    · rw [f1]; exact c2.fwd
    · exact c2.inj
    · rw [f1, f5]; exact c2.bwd
    · rw [f1]; exact c2.dinj
    · rw [f1, f5]; exact c2.surj
  obtain ⟨D4, d1, d2, d3, d4⟩ := b3 D3 rest hrel3 (by rw [f3, c3])
  have hext : ∀ b k, st.done b = some k → st2.done b = some k := by
    intro b k hb
    apply c4.ext
    simp only [SerState.mark, SerState.add]
    rw [if_neg]; exact hb
    intro hba; rw [hba, hnone] at hb; cases hb
  have hrho3 : ∀ b, rho st2 D3 b = rho st2 D2 b := by intro b; unfold rho; rw [f1]
  have hrho4a : rho st' D4 a = n := by
    unfold rho
    rw [d4.ext a _ hst2a]
    simp only
    rw [d4.dext _ n (by rw [f1]; exact hD2k)]; rfl
  have hmap : ∀ l : List Slot, (∀ b, Slot.ref b ∈ l → ∃ j, st2.done b = some j) →
      l.map (Slot.rename (rho st' D4)) = l.map (Slot.rename (rho st2 D2)) := by
    intro l hl
    rw [map_rename_ext hrel3 d4.ext d4.dext l hl]
    congr 2
    funext b; exact hrho3 b
  refine ⟨D4, ?_, d2, d3, ?_⟩
  · rw [List.map_cons, List.map_cons]
    have := des_fresh (k := .val) (ks := ss.map Slot.sk) hlook c1 (by rw [hn, hD3]; exact d1)
    simp only [Slot.sk, Slot.rename, hrho4a]
    exact this
  · constructor
    · intro b k hb; exact d4.ext b k (hext b k hb)
    · intro k m hk
      apply d4.dext
      rw [f1]
      apply c4.dext
      simp only [DesState.alloc]
      rw [if_neg, e1]; exact hk
      intro hkk; rw [hkk, hkey, hfreshkey] at hk; cases hk
    · have g1 := d4.len; have g2 := c4.len; rw [← e2]; omega
    · intro m hm
      rw [← e2, hn] at hm
      have g1 := d4.len; have g2 := c4.len
      rw [d4.keep m (by omega), f2, List.getElem?_set_ne (by omega), c4.keep m (by omega)]
      simp only [DesState.alloc, e2]
      rw [List.getElem?_append_left (by rw [← e2]; exact hm)]
    · intro b hb
      rcases List.mem_cons.1 hb with e | e
      · cases e; exact ⟨_, d4.ext a _ hst2a⟩
      · exact d4.refs b e
    · intro b k hb hb'
      by_cases hba : b = a
      · subst hba
        refine ⟨hP, o, ho, ?_, ?_⟩
        · intro c hc'
          obtain ⟨j, hj⟩ := c4.refs c hc'
          exact ⟨j, d4.ext _ _ hj⟩
        · rw [hrho4a, d4.keep n (by omega), f2, List.getElem?_set_self hn2, hmap _ c4.refs, hkids]
      · cases hb2 : st2.done b with
        | none => exact d4.new b k hb2 hb'
        | some j =>
          have hb1 : ((st.mark a).add o.cid o.ws).done b = none := by
            simp only [SerState.mark, SerState.add]; rw [if_neg hba]; exact hb
          obtain ⟨g1, o', g2, g3, g4⟩ := c4.new b j hb1 hb2
          refine ⟨g1, o', g2, fun c hc' => ?_, ?_⟩
          · obtain ⟨i, hi⟩ := g3 c hc'
            exact ⟨i, d4.ext _ _ hi⟩
          · rw [rho_ext hrel3 d4.ext d4.dext hb2, hrho3]
            have hne : rho st2 D2 b ≠ n := by
              intro hcon
              obtain ⟨-, m, hm⟩ := c2.fwd b j hb2
              have : rho st2 D2 b = m := by unfold rho; rw [hb2]; simp only [hm, Option.getD_some]
              rw [this] at hcon
              subst hcon
              have hj := c2.dinj _ _ _ hm hD2k
              have hj' : j = st.rowNo := by omega
              subst hj'
              exact hba (c2.inj _ _ _ hb2 hst2a)
            have hlt : rho st2 D2 b < D2.heap.length := by
              have := List.getElem?_eq_some_iff.1 g4
              exact this.1
            rw [d4.keep _ (by omega), f2, List.getElem?_set_ne (Ne.symm hne), g4, hmap _ g3]

/-- Whatever has been written for well-formed slots is read back. -/
theorem ser_sim {h : List Obj} {user : Int → List SK} {glob : Bool} (hh : OkHeap user h) (P : Nat → Prop)
    (hP : ∀ a o b, P a → h[a]? = some o → Slot.ref b ∈ o.kids → P b) :
    ∀ (f : Nat) (slots : List Slot) (st st' : SerState),
      (∀ s ∈ slots, OkSlot h.length s) → (∀ a, Slot.ref a ∈ slots → P a) →
      ser h glob f slots st = .ok st' → Sim h user glob P f slots st st' := by
  intro f
  induction f with
  | zero => intro slots st st' _ _ he; cases he
  | succ f ih =>
    intro slots st st' hok hpr he
    cases slots with
    | nil =>
      cases he
      refine ⟨[], by simp, by simp, ?_⟩
      intro D rest hrel hD
      refine ⟨D, rfl, hrel, by simpa using hD, ?_⟩
      exact ⟨fun _ _ h => h, fun _ _ h => h, Nat.le_refl _, fun _ _ => rfl, by simp,
        fun a k h1 h2 => by rw [h1] at h2; cases h2⟩
    | cons s ss =>
      have hoks := hok s (by simp)
      have ih' : ∀ st1, ser h glob f ss st1 = .ok st' → Sim h user glob P f ss st1 st' := fun st1 he1 =>
        ih ss st1 st' (fun x hx => hok x (by simp [hx])) (fun a ha => hpr a (by simp [ha])) he1
      cases s with
      | raw c w =>
        refine sim_value (st1 := st.add c w) [(c, w)] rfl rfl rfl ?_ (by intro a ha; cases ha) (ih' _ he)
        intro D rest _ hD
        exact ⟨_, look_raw hD, fun _ _ _ _ => rfl⟩
      | none =>
        refine sim_value (st1 := st.add 0 []) [(0, [])] rfl rfl rfl ?_ (by intro a ha; cases ha) (ih' _ he)
        intro D rest _ hD
        exact ⟨_, look_none hD, fun _ _ _ _ => rfl⟩
      | imm c w =>
        refine sim_value (st1 := st.add c w) [(c, w)] rfl rfl rfl ?_ (by intro a ha; cases ha) (ih' _ he)
        intro D rest _ hD
        exact ⟨_, look_imm hD hoks, fun _ _ _ _ => rfl⟩
      | box c d w =>
        refine sim_value (st1 := (st.add c []).add d w) [(c, []), (d, w)] (by simp [SerState.add]) rfl rfl ?_ (by intro a ha; cases ha) (ih' _ he)
        intro D rest _ hD
        exact ⟨_, look_box hD hoks, fun _ _ _ _ => rfl⟩
      | ext c k =>
        cases glob with
        | false => simp [ser] at he
        | true =>
          refine sim_value (st1 := st.add (-c) [k]) [(-c, [k])] rfl rfl rfl ?_ (by intro a ha; cases ha) (ih' _ he)
          intro D rest _ hD
          exact ⟨_, look_ext hD hoks.1 hoks.2, fun _ _ _ _ => rfl⟩
      | range x y z => exact hoks.elim
      | wild => exact hoks.elim
      | ref a =>
        have ha : a < h.length := hoks
        have ho : h[a]? = some h[a] := List.getElem?_eq_getElem ha
        generalize hoo : h[a] = o at ho
        obtain ⟨k1, k2, k3⟩ := hh o (by rw [← hoo]; exact List.getElem_mem ha)
        unfold ser at he
        simp only [ho, k1] at he
        cases hd : st.done a with
        | some k =>
          simp only [hd] at he
          refine sim_value (st1 := st.add (-o.cid) [(k : Int)]) [(-o.cid, [(k : Int)])] rfl rfl rfl ?_ (by intro b hb; cases hb; exact ⟨k, hd⟩) (ih' _ he)
          intro D rest hrel hD
          refine ⟨_, look_back hD k1, ?_⟩
          intro D' _ hext hdext
          obtain ⟨-, n, hn⟩ := hrel.fwd a k hd
          simp only [DesState.prev, hn, Slot.rename, rho, hext a k hd, hdext _ _ hn, Option.getD_some]
        | none =>
          simp only [hd] at he
          cases h1 : ser h glob f o.kids ((st.mark a).add o.cid o.ws) with
          | ok st2 =>
            rw [h1, Res.ok_bind] at he
            exact sim_fresh ho k1 k2 hd (hpr a (by simp))
              (ih o.kids _ _ k3 (fun b hb => hP a o b (hpr a (by simp)) ho hb) h1) (ih' _ he)
          | raise e => rw [h1] at he; cases he
          | ub => rw [h1] at he; cases he
          | diverge => rw [h1] at he; cases he

/-! ## Termination -/

/-- Work left: unvisited objects with their slots. -/
def work (done : Nat → Option Nat) : Nat → List Obj → Nat
  | _, [] => 0
  | i, o :: os => (if done i = none then o.kids.length + 2 else 0) + work done (i + 1) os

theorem work_mono {d d' : Nat → Option Nat} (hd : ∀ a, d' a = none → d a = none) :
    ∀ (os : List Obj) (i : Nat), work d' i os ≤ work d i os := by
  intro os
  induction os with
  | nil => intro i; exact Nat.le_refl _
  | cons o os ih =>
    intro i
    have := ih (i + 1)
    unfold work
    by_cases h : d' i = none
    · rw [if_pos h, if_pos (hd i h)]; omega
    · rw [if_neg h]; omega

theorem work_mark {d d' : Nat → Option Nat} (hd : ∀ a, d' a = none → d a = none) {a : Nat} {o : Obj}
    (h1 : d a = none) (h2 : d' a ≠ none) :
    ∀ (os : List Obj) (i : Nat), i ≤ a → os[a - i]? = some o →
      work d' i os + (o.kids.length + 2) ≤ work d i os := by
  intro os
  induction os with
  | nil => intro i hi ho; simp at ho
  | cons x os ih =>
    intro i hi ho
    unfold work
    by_cases hia : i = a
    · subst hia
      rw [Nat.sub_self, List.getElem?_cons_zero] at ho
      cases ho
      rw [if_neg h2, if_pos h1]
      have := work_mono hd os (i + 1)
      omega
    · have e : a - i = (a - (i + 1)) + 1 := by omega
      rw [e, List.getElem?_cons_succ] at ho
      have := ih (i + 1) (by omega) ho
      by_cases h : d' i = none
      · rw [if_pos h, if_pos (hd i h)]; omega
      · rw [if_neg h]; omega

theorem ser_total {h : List Obj} {user : Int → List SK} {glob : Bool} (hh : OkHeap user h) :
    ∀ (f : Nat) (slots : List Slot) (st : SerState),
      (∀ s ∈ slots, OkSlot h.length s) →
      (glob = false → (∀ o ∈ h, ∀ c k, Slot.ext c k ∉ o.kids) ∧ ∀ c k, Slot.ext c k ∉ slots) →
      work st.done 0 h + slots.length < f →
      ∃ st', ser h glob f slots st = .ok st' ∧ ∀ a, st'.done a = none → st.done a = none := by
  intro f
  induction f with
  | zero => intro slots st _ _ hf; omega
  | succ f ih =>
    intro slots st hok hg hf
    cases slots with
    | nil => exact ⟨st, rfl, fun _ h => h⟩
    | cons s ss =>
      have hoks := hok s (by simp)
      simp only [List.length_cons] at hf
      have ih' : ∀ st1 : SerState, (∀ a, st1.done a = none → st.done a = none) →
          ∃ st', ser h glob f ss st1 = .ok st' ∧ ∀ a, st'.done a = none → st.done a = none := by
        intro st1 h1
        have hm := work_mono h1 h 0
        obtain ⟨st', e1, e2⟩ := ih ss st1 (fun x hx => hok x (by simp [hx]))
          (fun hgf => ⟨(hg hgf).1, fun c k hc => (hg hgf).2 c k (by simp [hc])⟩) (by omega)
        exact ⟨st', e1, fun a ha => h1 a (e2 a ha)⟩
      cases s with
      | raw c w => exact ih' _ (fun _ h => h)
      | none => exact ih' _ (fun _ h => h)
      | imm c w => exact ih' _ (fun _ h => h)
      | box c d w => exact ih' _ (fun _ h => h)
      | ext c k =>
        cases glob with
        | false => exact absurd (List.mem_cons_self) ((hg rfl).2 c k)
        | true => exact ih' _ (fun _ h => h)
      | range x y z => exact hoks.elim
      | wild => exact hoks.elim
      | ref a =>
        have ha : a < h.length := hoks
        have ho : h[a]? = some h[a] := List.getElem?_eq_getElem ha
        generalize hoo : h[a] = o at ho
        have hmem : o ∈ h := by rw [← hoo]; exact List.getElem_mem ha
        obtain ⟨k1, k2, k3⟩ := hh o hmem
        unfold ser
        simp only [ho, k1]
        cases hd : st.done a with
        | some k => exact ih' _ (fun _ h => h)
        | none =>
          simp only
          have hmono : ∀ b, ((st.mark a).add o.cid o.ws).done b = none → st.done b = none := by
            intro b hb
            simp only [SerState.mark, SerState.add] at hb
            split at hb
            · cases hb
            · exact hb
          have hw := work_mark hmono hd (by simp [SerState.mark, SerState.add]) h 0 (Nat.zero_le _) (by simpa using ho)
          obtain ⟨st2, e1, e2⟩ := ih o.kids ((st.mark a).add o.cid o.ws) k3
            (fun hgf => ⟨(hg hgf).1, fun c k hc => (hg hgf).1 o hmem c k hc⟩) (by omega)
          rw [e1, Res.ok_bind]
          exact ih' st2 (fun b hb => hmono b (e2 b hb))

end Verif.Graph
