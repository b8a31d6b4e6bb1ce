import Verif.Ring.Model
import Verif.Skiplist.Props
/-!
# Hash ring: the invariant
-/
namespace Verif.Ring
open Verif Verif.Skiplist

theorem mix_mix (x : BitVec 32) : (x >>> 16 ^^^ x) >>> 16 ^^^ (x >>> 16 ^^^ x) = x := by
  ext i hi
  simp only [BitVec.getElem_xor, BitVec.getElem_ushiftRight, BitVec.getLsbD_xor, BitVec.getLsbD_ushiftRight]
  have h1 : x.getLsbD (16 + (16 + i)) = false := BitVec.getLsbD_of_ge _ _ (by omega)
  rw [h1]
  simp

theorem mul_inj {x y : BitVec 32} (h : x * 0x45d9f3b#32 = y * 0x45d9f3b#32) : x = y := by
  have hc : 0x45d9f3b#32 * 0x119de1f3#32 = 1#32 := by decide
  have := congrArg (· * 0x119de1f3#32) h
  simp only [BitVec.mul_assoc, hc, BitVec.mul_one] at this
  exact this

theorem mix_inj {x y : BitVec 32} (h : x >>> 16 ^^^ x = y >>> 16 ^^^ y) : x = y := by
  rw [← mix_mix x, h, mix_mix]

/-- "Collision free" (hashes.h:19). -/
theorem hash32_inj {x y : BitVec 32} (h : hash32 x = hash32 y) : x = y :=
  mix_inj (mul_inj (mix_inj (mul_inj (mix_inj h))))

theorem pos_inj {x y : BitVec 32} (h : pos x = pos y) : x = y := by
  unfold pos at h
  exact hash32_inj (BitVec.eq_of_toNat_eq (by omega))

def isLive (objs : List Obj) (v : Nat) : Bool :=
  match objs[v]? with
  | none => false
  | some o => o.status = LIVE

def countLive (objs : List Obj) (m : List (Int × Nat)) : Nat := m.countP fun e => isLive objs e.2

/-- Positions in a window of `2^31`. -/
def Dom (b : Int) (k : Int) : Prop := Window b k ∧ k < 2 ^ 32

theorem cmp_dom (b : Int) : CmpOn longCmp id (Dom b) := fun x y hx hy => longCmp_on b x y hx.1 hy.1

theorem isMax_dom {b x : Int} (h : Dom b x) : isMax x = false := by
  unfold isMax longMax
  have := h.2
  simp
  omega

/-- The ring `g` has the nodes `L` with positions and objects `m`. -/
structure RInv (b : Int) (g : Ring) (L : List Nat) (m : List (Int × Nat)) : Prop where
  abs : Abs id (Dom b) longMax g.buckets L m
  obj : ∀ e ∈ m, ∃ o, g.objs[e.2]? = some o ∧ e.1 = pos o.id ∧ (o.status = LIVE ∨ o.status = DEAD)
  live : g.live = wrap32 (countLive g.objs m)

theorem mem_iff_get {m : List (Int × Nat)} (hs : m.Pairwise fun a b => id a.1 < id b.1) {k : Int} {v : Nat} :
    (k, v) ∈ m ↔ get id m k = some v := by
  constructor
  · intro h; exact get_mem hs h
  · intro h
    obtain ⟨e, he, h1, h2⟩ := mem_of_get h
    have : e = (k, v) := by cases e; simp_all
    rwa [← this]

theorem sorted_length {m : List (Int × Nat)} : ∀ {b : Int} {n : Nat}, (m.Pairwise fun a b => id a.1 < id b.1) →
    (∀ e ∈ m, b ≤ e.1 ∧ e.1 < b + n) → m.length ≤ n := by
  induction m with
  | nil => intro b n _ _; simp
  | cons e m ih =>
    intro b n hs hb
    rw [List.pairwise_cons] at hs
    have h0 := hb e (by simp)
    have := ih (b := e.1 + 1) (n := (b + n - e.1 - 1).toNat) hs.2 (by
      intro x hx
      have h1 := hs.1 x hx
      have h2 := hb x (by simp [hx])
      simp only [id] at h1
      omega)
    rw [List.length_cons]
    omega

theorem RInv.count_le {b : Int} {g : Ring} {L : List Nat} {m : List (Int × Nat)} (h : RInv b g L m) :
    countLive g.objs m ≤ 2 ^ 31 := by
  refine Nat.le_trans List.countP_le_length ?_
  refine sorted_length (b := b) h.abs.rep.srt ?_
  intro e he
  have := h.abs.dom e he
  unfold Dom Window at this
  omega

theorem RInv.live_eq_zero {b : Int} {g : Ring} {L : List Nat} {m : List (Int × Nat)} (h : RInv b g L m) :
    g.live = 0 ↔ ∀ e ∈ m, isLive g.objs e.2 = false := by
  have hc := h.count_le
  have h0 : countLive g.objs m = 0 ↔ ∀ e ∈ m, isLive g.objs e.2 = false := by
    unfold countLive
    rw [List.countP_eq_zero]
    simp
  rw [← h0, h.live]
  unfold wrap32 Int.bmod
  simp only [Nat.reducePow]
  split <;> omega

theorem wrap32_add (a c : Int) : wrap32 (wrap32 a + c) = wrap32 (a + c) := by
  unfold wrap32; exact Int.bmod_add_bmod ..

theorem wrap32_sub (a c : Int) : wrap32 (wrap32 a - c) = wrap32 (a - c) := by
  unfold wrap32; exact Int.bmod_sub_bmod ..

section
variable {b : Int} {g : Ring} {L : List Nat} {m : List (Int × Nat)}

theorem isNode_status (h : RInv b g L m) {a : Nat} {e : Int × Nat} (he : e ∈ m) (hn : IsNode g.buckets a e.1 e.2) :
    ∃ o, g.objs[e.2]? = some o ∧ e.1 = pos o.id ∧ statusAt g a = .ok o.status ∧
      (isLive g.objs e.2 = true ↔ o.status = LIVE) := by
  obtain ⟨o, h1, h2, _⟩ := h.obj e he
  obtain ⟨n, q1, q2, q3⟩ := hn
  refine ⟨o, h1, h2, ?_, ?_⟩
  · unfold statusAt
    rw [q1]
    simp only [q3]
    rw [h1]
  · unfold isLive
    rw [h1]
    simp

theorem search_pos (h : RInv b g L m) {i : BitVec 32} (hi : Dom b (pos i)) :
    (get id m (pos i) = none ∧ search longCmp isMax g.buckets (pos i) = .ok none) ∨
    ∃ a v, (pos i, v) ∈ m ∧ get id m (pos i) = some v ∧ search longCmp isMax g.buckets (pos i) = .ok (some a) ∧
      IsNode g.buckets a (pos i) v := by
  rcases abs_search (isMax := isMax) (cmp_dom b) h.abs (by decide) (fun _ => isMax_dom) hi with
    h1 | ⟨a, e, h1, h2, h3, h4, h5⟩
  · exact .inl h1
  · right
    obtain ⟨k, v⟩ := e
    simp only [id] at h2
    subst h2
    exact ⟨a, v, h1, h3, h4, h5⟩

theorem countLive_congr {objs objs' : List Obj} {m : List (Int × Nat)}
    (h : ∀ e ∈ m, isLive objs' e.2 = isLive objs e.2) : countLive objs' m = countLive objs m := by
  unfold countLive
  exact List.countP_congr fun e he => by rw [h e he]

theorem nodup_of_sorted {m : List (Int × Nat)} (hs : m.Pairwise fun a b => id a.1 < id b.1) : m.Nodup :=
  hs.imp fun hab => by rintro rfl; simp at hab

theorem obj_lt (h : RInv b g L m) {e : Int × Nat} (he : e ∈ m) : e.2 < g.objs.length := by
  obtain ⟨o, h1, _⟩ := h.obj e he
  exact (List.getElem?_eq_some_iff.1 h1).1

/-- The effect of adding a new object. -/
theorem addNew_spec (h : RInv b g L m) {i : BitVec 32} {st : Int} {lvl : Nat} (hi : Dom b (pos i))
    (hst : st = LIVE ∨ st = DEAD) (hl : lvl < maxLevel) :
    ∃ g' L' m' r, addNew g ⟨i, st⟩ lvl = .ok (g', r) ∧ RInv b g' L' m' ∧ g'.objs = g.objs ++ [⟨i, st⟩] ∧
      ((get id m (pos i) = none ∧ r = 0 ∧ ∀ k, get id m' k = if k = pos i then some g.objs.length else get id m k) ∨
       ((get id m (pos i)).isSome ∧ r = -1 ∧ m' = m)) := by
  have hobj : (g.objs ++ [(⟨i, st⟩ : Obj)])[g.objs.length]? = some ⟨i, st⟩ := by simp
  have hlive : ∀ e ∈ m, isLive (g.objs ++ [⟨i, st⟩]) e.2 = isLive g.objs e.2 := by
    intro e he
    unfold isLive
    rw [List.getElem?_append_left (obj_lt h he)]
  have hobjs : ∀ e ∈ m, ∃ o, (g.objs ++ [(⟨i, st⟩ : Obj)])[e.2]? = some o ∧ e.1 = pos o.id ∧
      (o.status = LIVE ∨ o.status = DEAD) := by
    intro e he
    rw [List.getElem?_append_left (obj_lt h he)]
    exact h.obj e he
  unfold addNew addBucket
  simp only [hobj]
  rcases search_pos h hi with ⟨h1, h2⟩ | ⟨a, v, h1, h2, h3, h4⟩
  · rw [h2, Res.ok_bind]
    obtain ⟨s', L', m', e1, a1, g1⟩ := abs_insert (cmp_dom b) h.abs hi g.objs.length hl
    simp only [e1, Res.ok_bind]
    simp only [id] at g1
    refine ⟨_, L', m', _, rfl, ⟨a1, ?_, ?_⟩, rfl, .inl ⟨h1, rfl, g1⟩⟩
    · intro e he
      obtain ⟨k, v⟩ := e
      have hg := (mem_iff_get a1.rep.srt).1 he
      rw [g1] at hg
      by_cases hk : k = pos i
      · rw [if_pos hk] at hg
        injection hg with hg
        subst hg
        exact ⟨⟨i, st⟩, hobj, hk, hst⟩
      · rw [if_neg hk] at hg
        exact hobjs _ ((mem_iff_get h.abs.rep.srt).2 hg)
    · have hp : m'.Perm ((pos i, g.objs.length) :: m) := by
        rw [List.perm_ext_iff_of_nodup (nodup_of_sorted a1.rep.srt)]
        · intro e
          obtain ⟨k, v⟩ := e
          rw [mem_iff_get a1.rep.srt, g1, List.mem_cons, Prod.mk.injEq]
          by_cases hk : k = pos i
          · rw [if_pos hk]
            constructor
            · intro c; injection c with c; exact .inl ⟨hk, c.symm⟩
            · rintro (⟨_, rfl⟩ | c)
              · rfl
              · rw [hk, mem_iff_get h.abs.rep.srt, h1] at c; cases c
          · rw [if_neg hk, ← mem_iff_get h.abs.rep.srt]
            simp [hk]
        · rw [List.nodup_cons]
          refine ⟨?_, nodup_of_sorted h.abs.rep.srt⟩
          intro c
          rw [mem_iff_get h.abs.rep.srt, h1] at c; cases c
      have hc : countLive (g.objs ++ [⟨i, st⟩]) m' = countLive g.objs m + if st = LIVE then 1 else 0 := by
        unfold countLive
        rw [hp.countP_eq, List.countP_cons]
        have : isLive (g.objs ++ [(⟨i, st⟩ : Obj)]) g.objs.length = decide (st = LIVE) := by
          unfold isLive; rw [hobj]
        simp only [this, decide_eq_true_eq]
        congr 1
        exact countLive_congr hlive
      simp only [hc, h.live]
      by_cases hs : st = LIVE
      · rw [if_pos hs, if_pos hs, wrap32_add]; rfl
      · rw [if_neg hs, if_neg hs]; rfl
  · rw [h3, Res.ok_bind]
    refine ⟨_, L, m, _, rfl, ⟨h.abs, hobjs, ?_⟩, rfl, .inr ⟨by rw [h2]; rfl, rfl, rfl⟩⟩
    simp only [countLive_congr hlive]
    exact h.live

/-- The effect of `set_bucket_status`. -/
theorem setStatus_spec (h : RInv b g L m) {i : BitVec 32} {st : Int} (hi : Dom b (pos i))
    (hst : st = LIVE ∨ st = DEAD) :
    (get id m (pos i) = none ∧ setStatus g i st = .ok (g, -1)) ∨
    ∃ g' v, get id m (pos i) = some v ∧ setStatus g i st = .ok (g', 0) ∧ RInv b g' L m ∧
      g'.objs = g.objs.set v ⟨i, st⟩ ∧ v < g.objs.length := by
  unfold setStatus
  rcases search_pos h hi with ⟨h1, h2⟩ | ⟨a, v, h1, h2, h3, ⟨n, q1, q2, q3⟩⟩
  · left
    rw [h2, Res.ok_bind]
    exact ⟨h1, rfl⟩
  · right
    rw [h3, Res.ok_bind]
    obtain ⟨o, ho1, ho2, ho3⟩ := h.obj _ h1
    have hid : o.id = i := (pos_inj ho2).symm
    have hv := obj_lt h h1
    simp only at ho1 ho2 hv
    simp only [setObj, q1, q3, ho1, hid]
    refine ⟨_, v, h2, rfl, ⟨h.abs, ?_, ?_⟩, rfl, hv⟩
    · intro e he
      by_cases hev : e.2 = v
      · refine ⟨⟨i, st⟩, ?_, ?_, hst⟩
        · show (g.objs.set v ⟨i, st⟩)[e.2]? = _
          rw [hev, List.getElem?_set_self hv]
        · obtain ⟨o', p1, p2, _⟩ := h.obj e he
          rw [hev, ho1] at p1
          have hi' : o'.id = i := by rw [← Option.some.inj p1]; exact hid
          exact p2.trans (congrArg pos hi')
      · obtain ⟨o', p1, p2, p3⟩ := h.obj e he
        refine ⟨o', ?_, p2, p3⟩
        rw [List.getElem?_set_ne (fun c => hev c.symm)]; exact p1
    · obtain ⟨m1, m2, hm⟩ := List.append_of_mem h1
      have hne : ∀ e ∈ m1 ++ m2, e.2 ≠ v := by
        intro e he hev
        have he' : e ∈ m := by rw [hm]; simp at he ⊢; tauto
        obtain ⟨o', p1, p2, _⟩ := h.obj e he'
        rw [hev, ho1] at p1
        have hi' : o'.id = i := by rw [← Option.some.inj p1]; exact hid
        have hk : e.1 = pos i := p2.trans (congrArg pos hi')
        have hs := h.abs.rep.srt
        rw [hm, List.pairwise_append, List.pairwise_cons] at hs
        rw [List.mem_append] at he
        rcases he with he | he
        · have := hs.2.2 e he (pos i, v) (by simp)
          simp [hk] at this
        · have := hs.2.1.1 e he
          simp [hk] at this
      have hrest : ∀ e ∈ m1 ++ m2, isLive (g.objs.set v ⟨i, st⟩) e.2 = isLive g.objs e.2 := by
        intro e he
        unfold isLive
        rw [List.getElem?_set_ne (fun c => hne e he c.symm)]
      have hc : ∀ objs : List Obj, countLive objs m = countLive objs (m1 ++ m2) + if isLive objs v then 1 else 0 := by
        intro objs
        unfold countLive
        rw [hm, List.countP_append, List.countP_append, List.countP_cons]
        simp only
        omega
      have l1 : isLive (g.objs.set v ⟨i, st⟩) v = decide (st = LIVE) := by
        unfold isLive; rw [List.getElem?_set_self hv]
      have l2 : isLive g.objs v = decide (o.status = LIVE) := by
        unfold isLive; rw [ho1]
      have hl := h.live
      rw [hc g.objs, l2] at hl
      rw [hc (g.objs.set v ⟨i, st⟩), l1, countLive_congr hrest, hl]
      generalize countLive g.objs (m1 ++ m2) = c
      rcases ho3 with ho3 | ho3 <;> rcases hst with hst | hst <;>
        simp [ho3, hst, LIVE, DEAD, wrap32_add, wrap32_sub]

theorem next_of (h : RInv b g L m) {P : List Nat} {x : Nat} {R : List Nat} (e : L = P ++ x :: R) :
    fwd g.buckets.heap x 0 = .ok R.head? := by
  have hx : x ∈ L := by rw [e]; simp
  rw [h.abs.rep.links (g.buckets.header :: P) x R (by rw [e]; rfl) 0 (h.abs.rep.tallest x hx).1]
  congr 1
  cases R with
  | nil => rfl
  | cons y R =>
    rw [List.find?_cons_of_pos (by rw [tall_of]; exact (h.abs.rep.tallest y (by rw [e]; simp)).1)]
    rfl

theorem head_of (h : RInv b g L m) : fwd g.buckets.heap g.buckets.header 0 = .ok L.head? := by
  rw [h.abs.rep.links [] g.buckets.header L rfl 0 (by rw [h.abs.rep.hdr]; decide)]
  congr 1
  cases L with
  | nil => rfl
  | cons y R =>
    rw [List.find?_cons_of_pos (by rw [tall_of]; exact (h.abs.rep.tallest y (by simp)).1)]
    rfl

theorem getLoop_step (h : RInv b g L m) {P : List Nat} {x : Nat} {R : List Nat} (e : L = P ++ x :: R)
    {en : Int × Nat} (hen : entry g.buckets.heap x = some en) (hm : en ∈ m) (f : Nat) :
    getLoop g (f + 1) (some x) = if isLive g.objs en.2 then .ok (some en.2) else getLoop g f R.head? := by
  obtain ⟨o, h1, h2, h3, h4⟩ := isNode_status h hm (entry_some hen)
  obtain ⟨n, q1, q2, q3⟩ := entry_some hen
  rw [getLoop]
  simp only [orHead, Res.ok_bind, h3]
  by_cases hl : o.status = LIVE
  · rw [if_pos hl, if_pos (h4.2 hl), q1]
    simp only [q3]
  · rw [if_neg hl, if_neg (fun c => hl (h4.1 c)), next_of h e, Res.ok_bind]

theorem getLoop_none (h : RInv b g L m) (hL : L ≠ []) (f : Nat) : getLoop g f none = getLoop g f L.head? := by
  cases f with
  | zero => rfl
  | succ f =>
    cases L with
    | nil => exact absurd rfl hL
    | cons x L =>
      rw [getLoop, getLoop]
      simp only [orHead, head_of h, Res.ok_bind, List.head?_cons]

theorem getLoop_skip (h : RInv b g L m) : ∀ (R : List Nat) (mR : List (Int × Nat)) (P : List Nat), L = P ++ R →
    R.map (entry g.buckets.heap) = mR.map some → (∀ e ∈ mR, e ∈ m) → (∀ e ∈ mR, isLive g.objs e.2 = false) →
    ∀ f, getLoop g (f + R.length) R.head? = getLoop g f none := by
  intro R
  induction R with
  | nil => intro mR P _ _ _ _ f; rfl
  | cons x R ih =>
    intro mR P e hx hm hd f
    cases mR with
    | nil => simp at hx
    | cons en mR =>
      simp only [List.map_cons, List.cons.injEq] at hx
      rw [List.length_cons, ← Nat.add_assoc, List.head?_cons, getLoop_step h e hx.1 (hm en (by simp)),
        hd en (by simp), if_neg (by simp)]
      exact ih mR (P ++ [x]) (by rw [e]; simp) hx.2 (fun e he => hm e (by simp [he])) (fun e he => hd e (by simp [he])) f

theorem getLoop_find (h : RInv b g L m) : ∀ (m1 : List (Int × Nat)) (R : List Nat) (en : Int × Nat) (m2 : List (Int × Nat))
    (P : List Nat), L = P ++ R → R.map (entry g.buckets.heap) = (m1 ++ en :: m2).map some →
    (∀ e ∈ m1 ++ en :: m2, e ∈ m) → (∀ e ∈ m1, isLive g.objs e.2 = false) → isLive g.objs en.2 = true →
    ∀ f, m1.length < f → getLoop g f R.head? = .ok (some en.2) := by
  intro m1
  induction m1 with
  | nil =>
    intro R en m2 P e hx hm _ hl f hf
    obtain ⟨f, rfl⟩ : ∃ k, f = k + 1 := ⟨f - 1, by simp at hf; omega⟩
    cases R with
    | nil => simp at hx
    | cons x R =>
      simp only [List.nil_append, List.map_cons, List.cons.injEq] at hx
      rw [List.head?_cons, getLoop_step h e hx.1 (hm en (by simp)), hl, if_pos rfl]
  | cons e1 m1 ih =>
    intro R en m2 P e hx hm hd hl f hf
    obtain ⟨f, rfl⟩ : ∃ k, f = k + 1 := ⟨f - 1, by simp at hf; omega⟩
    cases R with
    | nil => simp at hx
    | cons x R =>
      simp only [List.cons_append, List.map_cons, List.cons.injEq] at hx
      rw [List.head?_cons, getLoop_step h e hx.1 (hm e1 (by simp)), hd e1 (by simp), if_neg (by simp)]
      refine ih R en m2 (P ++ [x]) (by rw [e]; simp) hx.2 (fun e he => hm e (by simp at he ⊢; tauto))
        (fun e he => hd e (by simp [he])) hl f (by simp at hf; omega)

theorem first_live {objs : List Obj} {m : List (Int × Nat)} (h : ¬ ∀ e ∈ m, isLive objs e.2 = false) :
    ∃ m1 e m2, m = m1 ++ e :: m2 ∧ (∀ e ∈ m1, isLive objs e.2 = false) ∧ isLive objs e.2 = true := by
  induction m with
  | nil => exact absurd (by simp) h
  | cons x m ih =>
    by_cases hx : isLive objs x.2 = true
    · exact ⟨[], x, m, rfl, by simp, hx⟩
    · have : ¬ ∀ e ∈ m, isLive objs e.2 = false := by
        intro c
        apply h
        intro e he
        rw [List.mem_cons] at he
        rcases he with rfl | he
        · simpa using hx
        · exact c e he
      obtain ⟨m1, e, m2, h1, h2, h3⟩ := ih this
      refine ⟨x :: m1, e, m2, by rw [h1]; rfl, ?_, h3⟩
      intro e he
      rw [List.mem_cons] at he
      rcases he with rfl | he
      · simpa using hx
      · exact h2 e he

/-- The bucket that is found. -/
theorem getBuckets_spec (h : RInv b g L m) {i : BitVec 32} (hi : Dom b (pos i)) {rf : Nat} (hrf : 1 ≤ rf) :
    (getBuckets g i rf = .ok none ∧ ∀ e ∈ m, isLive g.objs e.2 = false) ∨
    ∃ e ∈ m, getBuckets g i rf = .ok (some e.2) ∧ isLive g.objs e.2 = true ∧
      ((pos i ≤ e.1 ∧ ∀ e' ∈ m, isLive g.objs e'.2 = true → pos i ≤ e'.1 → e.1 ≤ e'.1) ∨
       ((∀ e' ∈ m, isLive g.objs e'.2 = true → e'.1 < pos i) ∧ ∀ e' ∈ m, isLive g.objs e'.2 = true → e.1 ≤ e'.1)) := by
  unfold getBuckets
  simp only
  have hrep : (if (rf : Int) < g.live then (rf : Int) else g.live) = 0 ↔ ∀ e ∈ m, isLive g.objs e.2 = false := by
    rw [← h.live_eq_zero]
    split <;> omega
  by_cases hz : ∀ e ∈ m, isLive g.objs e.2 = false
  · left
    rw [if_pos (hrep.2 hz)]
    exact ⟨rfl, hz⟩
  right
  rw [if_neg (fun c => hz (hrep.1 c))]
  have hlen : L.length ≤ g.buckets.nxt := by
    have hsub : L ⊆ List.range g.buckets.nxt := by
      intro a ha
      rw [List.mem_range]
      exact h.abs.rep.fresh a (by simp [ha])
    have := (List.subperm_of_subset (List.nodup_cons.1 h.abs.rep.nodup).2 hsub).length_le
    simpa using this
  have hlm : L.length = m.length := by
    have := congrArg List.length h.abs.rep.cont
    simpa using this
  have hLne : L ≠ [] := by
    intro c
    rw [c] at hlm
    have : m = [] := List.length_eq_zero_iff.1 hlm.symm
    exact hz (by simp [this])
  obtain ⟨mA, mB, rfl, tA, tB⟩ := split_lt id (pos i) h.abs.rep.srt
  obtain ⟨A, B, rfl, hA, hB⟩ := h.abs.rep.split
  obtain ⟨r, e1, e2, e3, _, e4⟩ := h.abs.rep.descend hA hB (test := fun x => longCmp x (pos i) < 0)
    (by intro e he; simpa using ((cmp_dom b e.1 (pos i) (h.abs.dom e (by simp [he])) hi).1).2 (tA e he))
    (by
      intro e he
      have h1 := (cmp_dom b e.1 (pos i) (h.abs.dom e (by simp [he])) hi).1
      have h2 := tB e he
      simp only [id] at h1 h2
      simp; omega)
  have hs : searchHigher longCmp g.buckets (pos i) = .ok B.head? := by
    unfold searchHigher
    rw [e1, Res.ok_bind, e4]
  rw [hs, Res.ok_bind]
  have hsrt := h.abs.rep.srt
  simp only [id] at tA tB hsrt
  have hBl : B.length = mB.length := by
    have := congrArg List.length hB
    simpa using this
  rw [List.length_append, List.length_append] at hlm
  rw [List.length_append] at hlen
  by_cases hzB : ∀ e ∈ mB, isLive g.objs e.2 = false
  · have hzA : ¬ ∀ e ∈ mA, isLive g.objs e.2 = false := by
      intro c
      apply hz
      intro e he
      rw [List.mem_append] at he
      rcases he with he | he
      · exact c e he
      · exact hzB e he
    obtain ⟨m1, e, m2, rfl, hd, hl⟩ := first_live hzA
    refine ⟨e, by simp, ?_, hl, .inr ⟨?_, ?_⟩⟩
    · obtain ⟨f, hf⟩ : ∃ f, 2 * g.buckets.nxt + 2 = f + B.length := ⟨2 * g.buckets.nxt + 2 - B.length, by omega⟩
      rw [hf, getLoop_skip h B mB A rfl hB (fun e he => by simp [he]) hzB, getLoop_none h hLne]
      refine getLoop_find h m1 (A ++ B) e (m2 ++ mB) [] rfl ?_ ?_ hd hl f ?_
      · rw [List.map_append, hA, hB]; simp
      · intro x hx; simp at hx ⊢; tauto
      · simp at hlm; omega
    · intro e' he' hl'
      rw [List.mem_append] at he'
      rcases he' with he' | he'
      · exact tA e' he'
      · rw [hzB e' he'] at hl'; cases hl'
    · intro e' he' hl'
      rw [List.mem_append, List.mem_append, List.mem_cons] at he'
      rcases he' with (he' | rfl | he') | he'
      · rw [hd e' he'] at hl'; cases hl'
      · exact Int.le_refl _
      · rw [List.pairwise_append, List.pairwise_append, List.pairwise_cons] at hsrt
        exact Int.le_of_lt (hsrt.1.2.1.1 e' he')
      · rw [hzB e' he'] at hl'; cases hl'
  · obtain ⟨m1, e, m2, rfl, hd, hl⟩ := first_live hzB
    refine ⟨e, by simp, ?_, hl, .inl ⟨tB e (by simp), ?_⟩⟩
    · refine getLoop_find h m1 B e m2 A rfl hB ?_ hd hl _ ?_
      · intro x hx; rw [List.mem_append]; exact .inr hx
      · simp at hlm; omega
    · intro e' he' hl' hle
      rw [List.mem_append, List.mem_append, List.mem_cons] at he'
      rcases he' with he' | he' | rfl | he'
      · have := tA e' he'; omega
      · rw [hd e' he'] at hl'; cases hl'
      · exact Int.le_refl _
      · rw [List.pairwise_append, List.pairwise_append, List.pairwise_cons] at hsrt
        exact Int.le_of_lt (hsrt.2.1.2.1.1 e' he')

end

end Verif.Ring
