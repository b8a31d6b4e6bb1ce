import Verif.Ring.Lemmas
/-!
# C31: object placement on the hash ring
-/
namespace Verif.Ring
open Verif Verif.Skiplist

/-! ### Specification -/

/-- The updates of a ring: a node with an id joins, or the status of a node is set. -/
inductive Op
  | add (id : BitVec 32) (st : Int) (lvl : Nat)
  | set (id : BitVec 32) (st : Int)

/-- The nodes: object and status for each id. The objects are numbered in order of creation. -/
abbrev Nodes := BitVec 32 → Option (Nat × Int)

def setAt (f : Nodes) (i : BitVec 32) (x : Option (Nat × Int)) : Nodes := fun j => if j = i then x else f j

/-- A node that is present is not added again; the status of an absent node is not set. -/
def spec : List Op → Nat → Nodes → Nodes
  | [], _, f => f
  | .add i st _ :: os, n, f => spec os (n + 1) (if f i = none then setAt f i (some (n, st)) else f)
  | .set i st :: os, n, f => spec os n (setAt f i ((f i).map fun x => (x.1, st)))

def Live (f : Nodes) (i : BitVec 32) : Prop := ∃ a, f i = some (a, LIVE)

/-- The first live node at or after the position `h`, or the first of all if there is none. -/
def Chosen (f : Nodes) (h : Int) (i : BitVec 32) : Prop :=
  Live f i ∧
  ((h ≤ pos i ∧ ∀ j, Live f j → h ≤ pos j → pos i ≤ pos j) ∨
   ((∀ j, Live f j → pos j < h) ∧ ∀ j, Live f j → pos i ≤ pos j))

/-- Positions within a window of `2^31`, statuses live or dead. -/
def Op.Ok (b : Int) : Op → Prop
  | .add i st lvl => Window b (pos i) ∧ (st = LIVE ∨ st = DEAD) ∧ lvl < maxLevel
  | .set i st => Window b (pos i) ∧ (st = LIVE ∨ st = DEAD)

def run : List Op → Ring → Res Ring
  | [], g => .ok g
  | .add i st lvl :: os, g => do
    let r ← addNew g ⟨i, st⟩ lvl
    run os r.1
  | .set i st :: os, g => do
    let r ← setStatus g i st
    run os r.1

/-! ### Proof -/

theorem dom_pos {b : Int} {i : BitVec 32} (h : Window b (pos i)) : Dom b (pos i) := by
  refine ⟨h, ?_⟩
  unfold pos
  have := (hash32 i).isLt
  omega

/-- The nodes of the ring. -/
def Rel (g : Ring) (m : List (Int × Nat)) (f : Nodes) : Prop :=
  ∀ i a st, f i = some (a, st) ↔ get id m (pos i) = some a ∧ g.objs[a]? = some ⟨i, st⟩

theorem rel_none {b : Int} {g : Ring} {L : List Nat} {m : List (Int × Nat)} {f : Nodes} (h : RInv b g L m)
    (hr : Rel g m f) (i : BitVec 32) : f i = none ↔ get id m (pos i) = none := by
  constructor
  · intro hf
    cases hg : get id m (pos i) with
    | none => rfl
    | some a =>
      have hm := (mem_iff_get h.abs.rep.srt).2 hg
      obtain ⟨o, h1, h2, _⟩ := h.obj _ hm
      have hid : o.id = i := (pos_inj h2).symm
      have := (hr i a o.status).2 ⟨hg, by rw [h1, ← hid]⟩
      rw [hf] at this; cases this
  · intro hg
    cases hf : f i with
    | none => rfl
    | some x =>
      have := ((hr i x.1 x.2).1 hf).1
      rw [hg] at this; cases this

theorem run_spec {b : Int} : ∀ (ops : List Op) (g : Ring) (L : List Nat) (m : List (Int × Nat)) (f : Nodes),
    (∀ o ∈ ops, o.Ok b) → RInv b g L m → Rel g m f →
    ∃ g' L' m', run ops g = .ok g' ∧ RInv b g' L' m' ∧ Rel g' m' (spec ops g.objs.length f) := by
  intro ops
  induction ops with
  | nil => intro g L m f _ h hr; exact ⟨g, L, m, rfl, h, hr⟩
  | cons o ops ih =>
    intro g L m f ho h hr
    have ho' : ∀ o ∈ ops, o.Ok b := fun x hx => ho x (List.mem_cons_of_mem _ hx)
    have h0 := ho o List.mem_cons_self
    cases o with
    | add i st lvl =>
      obtain ⟨hw, hst, hl⟩ := h0
      obtain ⟨g1, L1, m1, r, e1, i1, hobjs, hcase⟩ := addNew_spec h (dom_pos hw) hst hl
      have hrel : Rel g1 m1 (if f i = none then setAt f i (some (g.objs.length, st)) else f) := by
        intro j a st'
        rcases hcase with ⟨hn, _, hg⟩ | ⟨hs, _, rfl⟩
        · rw [if_pos ((rel_none h hr i).2 hn), hg, hobjs]
          unfold setAt
          by_cases hj : j = i
          · subst hj
            rw [if_pos rfl, if_pos rfl]
            constructor
            · intro c
              injection c with c
              injection c with c1 c2
              subst c1; subst c2
              simp
            · rintro ⟨c1, c2⟩
              injection c1 with c1
              subst c1
              simp at c2
              rw [c2]
          · rw [if_neg hj, if_neg (fun c => hj (pos_inj c)), hr]
            constructor
            · rintro ⟨c1, c2⟩
              refine ⟨c1, ?_⟩
              rw [List.getElem?_append_left (List.getElem?_eq_some_iff.1 c2).1]; exact c2
            · rintro ⟨c1, c2⟩
              have hm := (mem_iff_get h.abs.rep.srt).2 c1
              have := obj_lt h hm
              refine ⟨c1, ?_⟩
              rwa [List.getElem?_append_left this] at c2
        · have hne : f i ≠ none := by
            rw [ne_eq, rel_none h hr i]
            intro c; rw [c] at hs; cases hs
          rw [if_neg hne, hobjs, hr]
          constructor
          · rintro ⟨c1, c2⟩
            refine ⟨c1, ?_⟩
            rw [List.getElem?_append_left (List.getElem?_eq_some_iff.1 c2).1]; exact c2
          · rintro ⟨c1, c2⟩
            have hm := (mem_iff_get h.abs.rep.srt).2 c1
            have := obj_lt h hm
            refine ⟨c1, ?_⟩
            rwa [List.getElem?_append_left this] at c2
      obtain ⟨g2, L2, m2, e2, i2, r2⟩ := ih g1 L1 m1 _ ho' i1 hrel
      refine ⟨g2, L2, m2, ?_, i2, ?_⟩
      · rw [run, e1, Res.ok_bind, e2]
      · rw [hobjs, List.length_append] at r2
        exact r2
    | set i st =>
      obtain ⟨hw, hst⟩ := h0
      rcases setStatus_spec h (dom_pos hw) hst with ⟨hn, e1⟩ | ⟨g1, v, hv, e1, i1, hobjs, hlt⟩
      · have hf := (rel_none h hr i).2 hn
        have hsame : setAt f i ((f i).map fun x => (x.1, st)) = f := by
          funext j
          unfold setAt
          split
          · next hj => rw [hj, hf]; rfl
          · rfl
        obtain ⟨g2, L2, m2, e2, i2, r2⟩ := ih g L m f ho' h hr
        refine ⟨g2, L2, m2, by rw [run, e1, Res.ok_bind, e2], i2, ?_⟩
        rw [spec, hsame]; exact r2
      · have hm := (mem_iff_get h.abs.rep.srt).2 hv
        obtain ⟨o, h1, h2, _⟩ := h.obj _ hm
        simp only at h1 h2
        have hid : o.id = i := (pos_inj h2).symm
        have hfi : f i = some (v, o.status) := (hr i v o.status).2 ⟨hv, by rw [h1, ← hid]⟩
        have hrel : Rel g1 m (setAt f i ((f i).map fun x => (x.1, st))) := by
          intro j a st'
          rw [hobjs]
          unfold setAt
          by_cases hj : j = i
          · subst hj
            rw [if_pos rfl, hfi, hv]
            constructor
            · intro c
              injection c with c
              injection c with c1 c2
              subst c1; subst c2
              exact ⟨rfl, List.getElem?_set_self hlt⟩
            · rintro ⟨c1, c2⟩
              have c1 := Option.some.inj c1
              subst c1
              rw [List.getElem?_set_self hlt] at c2
              have c2 := Option.some.inj c2
              injection c2 with _ c2
              subst c2
              rfl
          · rw [if_neg hj, hr]
            have hav : get id m (pos j) = some a → v ≠ a := by
              rintro c rfl
              have hm' := (mem_iff_get h.abs.rep.srt).2 c
              obtain ⟨o', p1, p2, _⟩ := h.obj _ hm'
              simp only at p1 p2
              rw [h1] at p1
              have : o'.id = i := by rw [← Option.some.inj p1]; exact hid
              exact hj (by rw [← this]; exact pos_inj p2)
            constructor
            · rintro ⟨c1, c2⟩
              exact ⟨c1, by rw [List.getElem?_set_ne (hav c1)]; exact c2⟩
            · rintro ⟨c1, c2⟩
              exact ⟨c1, by rwa [List.getElem?_set_ne (hav c1)] at c2⟩
        obtain ⟨g2, L2, m2, e2, i2, r2⟩ := ih g1 L m _ ho' i1 hrel
        refine ⟨g2, L2, m2, by rw [run, e1, Res.ok_bind, e2], i2, ?_⟩
        rw [hobjs, List.length_set] at r2
        exact r2

theorem rinv_empty (b : Int) : RInv b empty [] [] :=
  ⟨abs_init id (Dom b) longMax, by simp, by decide⟩

theorem rel_empty : Rel empty [] (fun _ => none) := by
  intro i a st
  constructor
  · intro c; cases c
  · rintro ⟨c, _⟩; cases c

/-- For all rings and objects: the result is the object of the chosen node, `NULL` only if no node is
live. Missing: rings with positions further apart than `2^31` (`C31_refuted_order`), other statuses
(`C31_refuted_prejoined`), statuses set without the ring (`C31_refuted_stale`). -/
theorem C31_ring_partial {b : Int} {ops : List Op} (ho : ∀ o ∈ ops, o.Ok b) {oid : BitVec 32}
    (hi : Window b (pos oid)) {rf : Nat} (hrf : 1 ≤ rf) :
    ∃ g r, run ops empty = .ok g ∧ getBuckets g oid rf = .ok r ∧
      match r with
      | none => ∀ i, ¬ Live (spec ops 0 fun _ => none) i
      | some a => ∃ i, spec ops 0 (fun _ => none) i = some (a, LIVE) ∧ Chosen (spec ops 0 fun _ => none) (pos oid) i := by
  obtain ⟨g, L, m, e1, i1, r1⟩ := run_spec ops empty [] [] (fun _ => none) ho (rinv_empty b) rel_empty
  have r1 : Rel g m (spec ops 0 fun _ => none) := r1
  have hlive : ∀ i, Live (spec ops 0 fun _ => none) i → ∃ a, (pos i, a) ∈ m ∧ isLive g.objs a = true := by
    rintro i ⟨a, ha⟩
    obtain ⟨c1, c2⟩ := (r1 i a LIVE).1 ha
    refine ⟨a, (mem_iff_get i1.abs.rep.srt).2 c1, ?_⟩
    unfold isLive
    rw [c2]
    simp
  rcases getBuckets_spec i1 (dom_pos hi) hrf with ⟨h1, h2⟩ | ⟨e, he, h1, h2, h3⟩
  · refine ⟨g, none, e1, h1, ?_⟩
    intro i hl
    obtain ⟨a, ha, hb⟩ := hlive i hl
    rw [h2 _ ha] at hb; cases hb
  · obtain ⟨o, p1, p2, p3⟩ := i1.obj e he
    have hs : o.status = LIVE := by
      unfold isLive at h2
      rw [p1] at h2
      simpa using h2
    have hf : spec ops 0 (fun _ => none) o.id = some (e.2, LIVE) := by
      refine (r1 o.id e.2 LIVE).2 ⟨?_, ?_⟩
      · rw [← p2]; exact get_mem i1.abs.rep.srt he
      · rw [p1, ← hs]
    refine ⟨g, some e.2, e1, h1, o.id, hf, ⟨e.2, hf⟩, ?_⟩
    rw [p2] at h3
    rcases h3 with ⟨q1, q2⟩ | ⟨q1, q2⟩
    · refine .inl ⟨q1, ?_⟩
      intro j hj hle
      obtain ⟨a, ha, hb⟩ := hlive j hj
      exact q2 _ ha hb hle
    · refine .inr ⟨?_, ?_⟩
      · intro j hj
        obtain ⟨a, ha, hb⟩ := hlive j hj
        exact q1 _ ha hb
      · intro j hj
        obtain ⟨a, ha, hb⟩ := hlive j hj
        exact q2 _ ha hb

theorem chosen_unique {f f' : Nodes} {h : Int} {i j : BitVec 32} (hl : ∀ k, Live f k ↔ Live f' k)
    (h1 : Chosen f h i) (h2 : Chosen f' h j) : i = j := by
  have hi := (hl i).1 h1.1
  have hj := (hl j).2 h2.1
  apply pos_inj
  rcases h1.2 with ⟨a1, a2⟩ | ⟨a1, a2⟩ <;> rcases h2.2 with ⟨b1, b2⟩ | ⟨b1, b2⟩
  · have := a2 j hj b1; have := b2 i hi a1; omega
  · have := b1 i hi; omega
  · have := a1 j hj; omega
  · have := a2 j hj; have := b2 i hi; omega

theorem spec_append (o1 o2 : List Op) : ∀ (n : Nat) (f : Nodes),
    ∃ n', spec (o1 ++ o2) n f = spec o2 n' (spec o1 n f) := by
  induction o1 with
  | nil => intro n f; exact ⟨n, rfl⟩
  | cons o o1 ih =>
    intro n f
    cases o with
    | add i st lvl => exact ih _ _
    | set i st => exact ih _ _

/-- The node chosen depends only on the set of live nodes, not on the order in which they joined. -/
theorem C31_same_nodes_partial {b : Int} {ops ops' : List Op} (ho : ∀ o ∈ ops, o.Ok b) (ho' : ∀ o ∈ ops', o.Ok b)
    (hl : ∀ i, Live (spec ops 0 fun _ => none) i ↔ Live (spec ops' 0 fun _ => none) i) {oid : BitVec 32}
    (hi : Window b (pos oid)) {rf rf' : Nat} (hrf : 1 ≤ rf) (hrf' : 1 ≤ rf') :
    ∃ g g' r r', run ops empty = .ok g ∧ run ops' empty = .ok g' ∧ getBuckets g oid rf = .ok r ∧
      getBuckets g' oid rf' = .ok r' ∧
      ((r = none ∧ r' = none) ∨ ∃ i a a', r = some a ∧ r' = some a' ∧
        spec ops 0 (fun _ => none) i = some (a, LIVE) ∧ spec ops' 0 (fun _ => none) i = some (a', LIVE)) := by
  obtain ⟨g, r, h1, h2, h3⟩ := C31_ring_partial ho hi hrf
  obtain ⟨g', r', h1', h2', h3'⟩ := C31_ring_partial ho' hi hrf'
  refine ⟨g, g', r, r', h1, h1', h2, h2', ?_⟩
  cases r with
  | none =>
    cases r' with
    | none => exact .inl ⟨rfl, rfl⟩
    | some a' =>
      obtain ⟨i, q1, q2⟩ := h3'
      exact absurd ((hl i).2 q2.1) (h3 i)
  | some a =>
    obtain ⟨i, p1, p2⟩ := h3
    cases r' with
    | none => exact absurd ((hl i).1 p2.1) (h3' i)
    | some a' =>
      obtain ⟨j, q1, q2⟩ := h3'
      have := chosen_unique hl p2 q2
      subst this
      exact .inr ⟨i, a, a', rfl, rfl, p1, q1⟩

/-- The death of a node that was not chosen does not change the choice. -/
theorem C31_other_dead_partial {b : Int} {ops : List Op} (ho : ∀ o ∈ ops, o.Ok b) {oid : BitVec 32}
    (hi : Window b (pos oid)) {rf : Nat} (hrf : 1 ≤ rf) {j : BitVec 32} (hj : Window b (pos j)) :
    ∃ g g' r, run ops empty = .ok g ∧ getBuckets g oid rf = .ok r ∧
      run (ops ++ [.set j DEAD]) empty = .ok g' ∧
      ((∃ x, spec ops 0 (fun _ => none) j = some x ∧ r = some x.1) ∨ getBuckets g' oid rf = .ok r) := by
  have ho' : ∀ o ∈ ops ++ [Op.set j DEAD], o.Ok b := by
    intro o h
    rw [List.mem_append, List.mem_singleton] at h
    rcases h with h | rfl
    · exact ho o h
    · exact ⟨hj, .inr rfl⟩
  obtain ⟨g, r, h1, h2, h3⟩ := C31_ring_partial ho hi hrf
  obtain ⟨g', r', h1', h2', h3'⟩ := C31_ring_partial ho' hi hrf
  refine ⟨g, g', r, h1, h2, h1', ?_⟩
  obtain ⟨n', hsp⟩ := spec_append ops [.set j DEAD] 0 (fun _ => none)
  rw [hsp] at h3'
  simp only [spec] at h3'
  generalize spec ops 0 (fun _ => none) = f at h3 h3' ⊢
  have hne : ∀ i, i ≠ j → setAt f j ((f j).map fun x => (x.1, DEAD)) i = f i := by
    intro i h; unfold setAt; rw [if_neg h]
  have hlj : ¬ Live (setAt f j ((f j).map fun x => (x.1, DEAD))) j := by
    rintro ⟨a, ha⟩
    unfold setAt at ha
    rw [if_pos rfl] at ha
    cases hf : f j with
    | none => rw [hf] at ha; cases ha
    | some x =>
      rw [hf] at ha
      injection ha with ha
      injection ha with _ ha
      revert ha; decide
  have hsub : ∀ i, Live (setAt f j ((f j).map fun x => (x.1, DEAD))) i → i ≠ j ∧ Live f i := by
    intro i h
    have hij : i ≠ j := by rintro rfl; exact hlj h
    refine ⟨hij, ?_⟩
    obtain ⟨a, ha⟩ := h
    exact ⟨a, by rw [← hne i hij]; exact ha⟩
  cases r with
  | none =>
    right
    cases r' with
    | none => exact h2'
    | some a' =>
      obtain ⟨i, q1, q2⟩ := h3'
      exact absurd (hsub i q2.1).2 (h3 i)
  | some a =>
    obtain ⟨i, p1, p2⟩ := h3
    by_cases hij : i = j
    · left
      subst hij
      exact ⟨(a, LIVE), p1, rfl⟩
    · right
      have hli : Live (setAt f j ((f j).map fun x => (x.1, DEAD))) i := ⟨a, by rw [hne i hij]; exact p1⟩
      cases r' with
      | none => exact absurd hli (h3' i)
      | some a' =>
        obtain ⟨k, q1, q2⟩ := h3'
        have hk := hsub k q2.1
        have hki : k = i := by
          apply pos_inj
          rcases p2.2 with ⟨a1, a2⟩ | ⟨a1, a2⟩ <;> rcases q2.2 with ⟨b1, b2⟩ | ⟨b1, b2⟩
          · have := a2 k hk.2 b1; have := b2 i hli a1; omega
          · have := b1 i hli; omega
          · have := a1 k hk.2; omega
          · have := a2 k hk.2; have := b2 i hli; omega
        subst hki
        rw [hne k hij, p1] at q1
        injection q1 with q1
        injection q1 with q1
        subst q1
        exact h2'

/-- The ids 0, 1, 2, 5 have positions below `2^31`: the hypotheses hold for a ring of them. -/
example : (∀ o ∈ [Op.add 0 LIVE 2, .add 2 LIVE 0, .set 0 DEAD, .add 5 LIVE 1], o.Ok 0) ∧ Window 0 (pos 1) := by
  simp only [List.mem_cons, List.not_mem_nil, or_false, forall_eq_or_imp, forall_eq, Op.Ok, Window]
  decide

/-- Object 1, at position `0x31251ba7`, is placed on node 2, at `0x66a79298`; node 5 is at `0x23531b52`. -/
example : (do let g ← run [Op.add 0 LIVE 2, .add 2 LIVE 0, .set 0 DEAD, .add 5 LIVE 1] empty; getBuckets g 1 1) =
    .ok (some 1) := by decide +kernel

/-- The hash has no collisions. -/
theorem C31_hash_injective {x y : BitVec 32} (h : hash32 x = hash32 y) : x = y := hash32_inj h

/-! ### Refutations -/

/-- The result for an object on the ring that the updates make. -/
def place (ops : List Op) (oid : BitVec 32) (rf : Nat) : Res (Option Nat) := do
  let g ← run ops empty
  getBuckets g oid rf

/-- The nodes 0, 1 and 8 are at `0`, `0x31251ba7`, `0x9a9f4a63`. Object 5, at `0x23531b52`, belongs to
node 1. If they join in the order 0, 1, 8 it is placed on node 8 (the third), if they join in the order
8, 1, 0 on node 1 (the second): servers that learn of the nodes in another order disagree. -/
theorem C31_refuted_order :
    (pos 0 = 0 ∧ pos 1 = 0x31251ba7 ∧ pos 8 = 0x9a9f4a63 ∧ pos 5 = 0x23531b52) ∧
    place [.add 0 LIVE 0, .add 1 LIVE 0, .add 8 LIVE 0] 5 1 = .ok (some 2) ∧
    place [.add 8 LIVE 0, .add 1 LIVE 0, .add 0 LIVE 0] 5 1 = .ok (some 1) := by decide +kernel

/-- A node that is on the ring is not found, and added twice. -/
theorem C31_refuted_twice :
    (do let g ← run [.add 0 LIVE 0, .add 1 LIVE 0, .add 8 LIVE 0] empty
        let r ← addNew g ⟨1, LIVE⟩ 0
        return (r.1.live, r.2)) = .ok (4, 0) := by decide +kernel

/-- A node that goes from dead to prejoined is counted as one more death: no node is found, although
node 0 is live. -/
theorem C31_refuted_prejoined :
    place [.add 0 LIVE 0, .add 1 DEAD 0, .set 1 PREJOINED] 5 1 = .ok none := by decide +kernel

/-- The replication factor does not matter: one bucket is returned where a list is expected. -/
theorem C31_refuted_replicas (g : Ring) (oid : BitVec 32) (h : 2 ≤ g.live) :
    getBuckets g oid 2 = getBuckets g oid 1 := by
  unfold getBuckets
  simp only
  rw [if_neg (by split <;> omega), if_neg (by split <;> omega)]

/-- `prev_descriptor->status = rts_d->status`, client_api.c:663: the status is written into the object and
`live_buckets` is not adjusted. -/
def poke (g : Ring) (v : Nat) (st : Int) : Ring :=
  ⟨g.buckets, g.live, g.objs.modify v fun o => ⟨o.id, st⟩⟩

/-- One node that dies. -/
def stale : Res Ring := do
  let g ← run [.add 1 LIVE 0] empty
  return poke g 0 DEAD

theorem stale_ok : ∃ g, stale = .ok g ∧ g.live = 1 ∧ orHead g none = .ok 1 ∧ statusAt g 1 = .ok DEAD ∧
    fwd g.buckets.heap 1 0 = .ok none ∧ searchHigher longCmp g.buckets (pos 1) = .ok (some 1) := by
  cases h : stale with
  | ok g =>
    have h1 : (do let g ← stale; return g.live) = .ok 1 := by decide +kernel
    have h2 : (do let g ← stale; orHead g none) = .ok 1 := by decide +kernel
    have h3 : (do let g ← stale; statusAt g 1) = .ok DEAD := by decide +kernel
    have h4 : (do let g ← stale; fwd g.buckets.heap 1 0) = .ok none := by decide +kernel
    have h5 : (do let g ← stale; searchHigher longCmp g.buckets (pos 1)) = .ok (some 1) := by decide +kernel
    rw [h, Res.ok_bind] at h1 h2 h3 h4 h5
    exact ⟨g, rfl, Res.ok.inj h1, h2, h3, h4, h5⟩
  | raise e =>
    have : (do let g ← stale; return g.live) = .ok 1 := by decide +kernel
    rw [h] at this; cases this
  | ub =>
    have : (do let g ← stale; return g.live) = .ok 1 := by decide +kernel
    rw [h] at this; cases this
  | diverge =>
    have : (do let g ← stale; return g.live) = .ok 1 := by decide +kernel
    rw [h] at this; cases this

/-- If all nodes die this way, the loop never ends, with the lock held: no number of steps suffices. -/
theorem C31_refuted_stale : ∃ g, stale = .ok g ∧ g.live = 1 ∧
    ∀ f, getLoop g f (some 1) = .diverge ∧ getLoop g f none = .diverge := by
  obtain ⟨g, h1, h2, h3, h4, h5, _⟩ := stale_ok
  refine ⟨g, h1, h2, ?_⟩
  intro f
  induction f with
  | zero => exact ⟨rfl, rfl⟩
  | succ f ih =>
    have hd : DEAD ≠ LIVE := by decide
    constructor
    · rw [getLoop]
      simp only [orHead, Res.ok_bind, h4]
      rw [if_neg hd, h5, Res.ok_bind]
      exact ih.2
    · rw [getLoop, h3, Res.ok_bind, h4, Res.ok_bind, if_neg hd, h5, Res.ok_bind]
      exact ih.2

end Verif.Ring
