import Verif.Skiplist.Ops
/-!
# C22: the skip list is an ordered finite map, for every outcome of the random levels
-/
namespace Verif.Skiplist
open Verif

variable {K V : Type}

/-! ### Specification -/

/-- An update of the list; `lvl` is the level drawn at random. -/
inductive Op (K V : Type)
  | ins (k : K) (v : V) (lvl : Nat)
  | del (k : K)

/-- The finite map after a sequence of updates: the value of the last insertion of the key, if it
was not deleted since. Keys of the same rank are the same. -/
def spec (rank : K → Int) : List (Op K V) → (K → Option V) → K → Option V
  | [], f => f
  | .ins k v _ :: os, f => spec rank os fun k' => if rank k' = rank k then some v else f k'
  | .del k :: os, f => spec rank os fun k' => if rank k' = rank k then none else f k'

/-- The keys are in `D` and the levels below `SKIPLIST_MAX_LEVEL`. -/
def Op.Ok (D : K → Prop) : Op K V → Prop
  | .ins k _ lvl => D k ∧ lvl < maxLevel
  | .del k => D k

/-- Running the updates. -/
def run (cmp : K → K → Int) : List (Op K V) → SL K V → Res (SL K V)
  | [], s => .ok s
  | .ins k v lvl :: os, s => do
    let s' ← insert cmp s k v lvl
    run cmp os s'
  | .del k :: os, s => do
    let r ← delete cmp s k
    run cmp os r.1

/-- The node at address `a` has key `k` and value `v`. -/
def IsNode (s : SL K V) (a : Nat) (k : K) (v : V) : Prop := ∃ n, s.heap a = some n ∧ n.key = k ∧ n.val = some v

/-! ### Contents -/

def get (rank : K → Int) (m : List (K × V)) (k : K) : Option V := (m.find? fun e => rank e.1 = rank k).map Prod.snd

theorem split_lt (rank : K → Int) (r : Int) {m : List (K × V)} (hs : m.Pairwise fun a b => rank a.1 < rank b.1) :
    ∃ mA mB, m = mA ++ mB ∧ (∀ e ∈ mA, rank e.1 < r) ∧ ∀ e ∈ mB, r ≤ rank e.1 := by
  induction m with
  | nil => exact ⟨[], [], rfl, by simp, by simp⟩
  | cons e m ih =>
    rw [List.pairwise_cons] at hs
    by_cases h : rank e.1 < r
    · obtain ⟨A, B, e1, h1, h2⟩ := ih hs.2
      refine ⟨e :: A, B, by rw [e1]; rfl, ?_, h2⟩
      intro x hx
      rw [List.mem_cons] at hx
      rcases hx with rfl | hx
      · exact h
      · exact h1 x hx
    · refine ⟨[], e :: m, rfl, by simp, ?_⟩
      intro x hx
      rw [List.mem_cons] at hx
      rcases hx with rfl | hx
      · omega
      · have := hs.1 x hx; omega

theorem get_none {rank : K → Int} {m : List (K × V)} {k : K} (h : ∀ e ∈ m, rank e.1 ≠ rank k) :
    m.find? (fun e => decide (rank e.1 = rank k)) = none := by
  rw [List.find?_eq_none]; intro e he; simpa using h e he

theorem get_append {rank : K → Int} {mA mB : List (K × V)} {k : K} (h : ∀ e ∈ mA, rank e.1 ≠ rank k) :
    get rank (mA ++ mB) k = get rank mB k := by
  unfold get; rw [List.find?_append, get_none h, Option.none_or]

theorem get_cons_eq {rank : K → Int} {m : List (K × V)} {k : K} {e : K × V} (h : rank e.1 = rank k) :
    get rank (e :: m) k = some e.2 := by
  unfold get; rw [List.find?_cons_of_pos (by simpa using h)]; rfl

theorem get_cons_ne {rank : K → Int} {m : List (K × V)} {k : K} {e : K × V} (h : rank e.1 ≠ rank k) :
    get rank (e :: m) k = get rank m k := by
  unfold get; rw [List.find?_cons_of_neg (by simpa using h)]

theorem get_of_none {rank : K → Int} {m : List (K × V)} {k : K} (h : ∀ e ∈ m, rank e.1 ≠ rank k) :
    get rank m k = none := by unfold get; rw [get_none h]; rfl

theorem get_mid_ne {rank : K → Int} {mA mB : List (K × V)} {e : K × V} {k : K} (h : rank e.1 ≠ rank k) :
    get rank (mA ++ e :: mB) k = get rank (mA ++ mB) k := by
  unfold get
  rw [List.find?_append, List.find?_append, List.find?_cons_of_neg (by simpa using h)]

theorem get_mem {rank : K → Int} {m : List (K × V)} (hs : m.Pairwise fun a b => rank a.1 < rank b.1)
    {e : K × V} (he : e ∈ m) : get rank m e.1 = some e.2 := by
  induction m with
  | nil => cases he
  | cons x m ih =>
    rw [List.pairwise_cons] at hs
    rw [List.mem_cons] at he
    rcases he with rfl | he
    · exact get_cons_eq rfl
    · rw [get_cons_ne (by have := hs.1 e he; omega)]
      exact ih hs.2 he

theorem mem_of_get {rank : K → Int} {m : List (K × V)} {k : K} {v : V} (h : get rank m k = some v) :
    ∃ e ∈ m, rank e.1 = rank k ∧ e.2 = v := by
  unfold get at h
  rw [Option.map_eq_some_iff] at h
  obtain ⟨e, he, hv⟩ := h
  exact ⟨e, List.mem_of_find?_eq_some he, by simpa using List.find?_some he, hv⟩

/-- The list represents the map `f`; its keys are in `D` and the header has the key `hd`. -/
structure Abs (rank : K → Int) (D : K → Prop) (hd : K) (s : SL K V) (L : List Nat) (m : List (K × V)) : Prop where
  rep : Rep rank s L m
  dom : ∀ e ∈ m, D e.1
  head : ∃ n, s.heap s.header = some n ∧ n.key = hd

theorem abs_init (rank : K → Int) (D : K → Prop) (hd : K) : Abs rank D hd (init hd : SL K V) [] [] := by
  refine ⟨⟨rfl, by simp, rfl, by simp, ?_, Nat.zero_lt_succ 5, by simp, by simp [init], rfl⟩, by simp, ?_⟩
  · intro P x R e i hi
    have : P = [] ∧ x = (init hd : SL K V).header ∧ R = [] := by
      cases P with
      | nil => simp at e; exact ⟨rfl, e.1.symm, e.2⟩
      | cons p P => simp at e
    obtain ⟨rfl, rfl, rfl⟩ := this
    have hi' : i < maxLevel := hi
    simp [fwd, init, upd, hi']
  · exact ⟨_, rfl, rfl⟩

section
variable {cmp : K → K → Int} {rank : K → Int} {D : K → Prop} {hd : K} {s : SL K V} {L : List Nat} {m : List (K × V)}

theorem abs_insert (hc : CmpOn cmp rank D) (h : Abs rank D hd s L m) {k : K} (hk : D k) (v : V) {lvl : Nat}
    (hl : lvl < maxLevel) : ∃ s' L' m', insert cmp s k v lvl = .ok s' ∧ Abs rank D hd s' L' m' ∧
      ∀ k', get rank m' k' = if rank k' = rank k then some v else get rank m k' := by
  obtain ⟨mA, mB, rfl, tA, tB⟩ := split_lt rank (rank k) h.rep.srt
  obtain ⟨A, B, rfl, hA, hB⟩ := h.rep.split
  obtain ⟨r, e1, e2, e3, _, e4⟩ := h.rep.descend hA hB (test := fun x => cmp x k < 0)
    (by intro e he; simpa using ((hc e.1 k (h.dom e (by simp [he])) hk).1).2 (tA e he))
    (by
      intro e he
      have := (hc e.1 k (h.dom e (by simp [he])) hk).1
      have := tB e he
      simp; omega)
  unfold insert
  rw [e1, Res.ok_bind, e4, Res.ok_bind]
  obtain ⟨hn0, hh1, hh2⟩ := h.head
  cases B with
  | nil =>
    have hmB : mB = [] := by simpa using hB.symm
    subst hmB
    simp only [List.head?_nil]
    obtain ⟨s', g1, g2, g3, g4⟩ := insertNew_spec h.rep hA hB v hl tA (by simp) e2 e3
    refine ⟨s', _, _, g1, ⟨g2, ?_, ?_⟩, ?_⟩
    · intro e he
      simp at he
      rcases he with he | he
      · exact h.dom e (by simp [he])
      · subst he; exact hk
    · obtain ⟨n', q1, q2⟩ := g4 s.header (by simp) hn0 hh1
      exact ⟨n', by rw [g3]; exact q1, by rw [q2.1]; exact hh2⟩
    · intro k'
      by_cases hkk : rank k' = rank k
      · rw [if_pos hkk, get_append (by intro e he; have := tA e he; omega), get_cons_eq hkk.symm]
      · rw [if_neg hkk, get_mid_ne (by simp only; omega)]
  | cons y B =>
    cases mB with
    | nil => simp at hB
    | cons e0 mB =>
      have hB0 := hB
      simp only [List.map_cons, List.cons.injEq] at hB0
      obtain ⟨n, hn, hnk, hnv⟩ := entry_some hB0.1
      simp only [List.head?_cons, hn]
      have hD0 := h.dom e0 (by simp)
      have hcmp := (hc k e0.1 hk hD0).2
      rw [hnk]
      by_cases heq : rank k = rank e0.1
      · rw [if_pos (hcmp.2 heq)]
        obtain ⟨k0, v0⟩ := e0
        have hy : s.header ≠ y := by
          rintro rfl
          have := h.rep.nodup
          simp [List.nodup_cons] at this
        have hsv := setVal_spec h.rep hA hB v hn
        rw [hnk] at hsv
        refine ⟨_, _, _, rfl, ⟨hsv, ?_, ?_⟩, ?_⟩
        · intro e he
          simp at he
          rcases he with he | he | he
          · exact h.dom e (by simp [he])
          · subst he; exact hD0
          · exact h.dom e (by simp [he])
        · refine ⟨hn0, ?_, hh2⟩
          simp only [upd]
          rw [if_neg hy]; exact hh1
        · intro k'
          by_cases hkk : rank k' = rank k
          · rw [if_pos hkk, get_append (by intro e he; have := tA e he; omega),
              get_cons_eq (by simp only at heq ⊢; omega)]
          · simp only at heq
            rw [if_neg hkk, get_mid_ne (by simp only; omega), get_mid_ne (by simp only; omega)]
      · rw [if_neg (fun c => heq (hcmp.1 c))]
        have hsrt := h.rep.srt
        have tB' : ∀ e ∈ e0 :: mB, rank k < rank e.1 := by
          intro e he
          have h1 := tB e0 (by simp)
          rw [List.mem_cons] at he
          rcases he with rfl | he
          · omega
          · rw [List.pairwise_append, List.pairwise_cons] at hsrt
            have := hsrt.2.1.1 e he
            omega
        obtain ⟨s', g1, g2, g3, g4⟩ := insertNew_spec h.rep hA hB v hl tA tB' e2 e3
        refine ⟨s', _, _, g1, ⟨g2, ?_, ?_⟩, ?_⟩
        · intro e he
          rw [List.mem_append, List.mem_cons] at he
          rcases he with he | he | he
          · exact h.dom e (by simp [he])
          · subst he; exact hk
          · exact h.dom e (by rw [List.mem_append]; exact .inr he)
        · obtain ⟨n', q1, q2⟩ := g4 s.header (by simp) hn0 hh1
          exact ⟨n', by rw [g3]; exact q1, by rw [q2.1]; exact hh2⟩
        · intro k'
          by_cases hkk : rank k' = rank k
          · rw [if_pos hkk, get_append (by intro e he; have := tA e he; omega), get_cons_eq hkk.symm]
          · rw [if_neg hkk, get_mid_ne (by simp only; omega)]

theorem last_cases {a : Nat} {A Q : List Nat} {u : Nat} (e : a :: A = Q ++ [u]) :
    (A = [] ∧ u = a) ∨ ∃ A', A = A' ++ [u] := by
  cases Q with
  | nil => simp at e; exact .inl ⟨e.2, e.1.symm⟩
  | cons q Q => rw [List.cons_append] at e; injection e with _ e; exact .inr ⟨Q, e⟩

theorem abs_delete (hc : CmpOn cmp rank D) (h : Abs rank D hd s L m) {k : K} (hk : D k)
    (hhd : cmp hd k ≠ 0) : ∃ s' L' m', delete cmp s k = .ok (s', get rank m k) ∧ Abs rank D hd s' L' m' ∧
      ∀ k', get rank m' k' = if rank k' = rank k then none else get rank m k' := by
  obtain ⟨mA, mB, rfl, tA, tB⟩ := split_lt rank (rank k) h.rep.srt
  obtain ⟨A, B, rfl, hA, hB⟩ := h.rep.split
  obtain ⟨r, e1, e2, e3, ⟨Q, e5⟩, e4⟩ := h.rep.descend hA hB (test := fun x => cmp x k < 0)
    (by intro e he; simpa using ((hc e.1 k (h.dom e (by simp [he])) hk).1).2 (tA e he))
    (by
      intro e he
      have := (hc e.1 k (h.dom e (by simp [he])) hk).1
      have := tB e he
      simp; omega)
  obtain ⟨hn0, hh1, hh2⟩ := h.head
  unfold delete candidate
  rw [e1, Res.ok_bind, e4]
  have notin : (∀ e ∈ mA ++ mB, rank e.1 ≠ rank k) →
      (∃ s' L' m', (Res.ok (s, (none : Option V)) : Res (SL K V × Option V)) = .ok (s', get rank (mA ++ mB) k) ∧
        Abs rank D hd s' L' m' ∧
        ∀ k', get rank m' k' = if rank k' = rank k then none else get rank (mA ++ mB) k') := by
    intro hne
    refine ⟨s, A ++ B, mA ++ mB, by rw [get_of_none hne], h, ?_⟩
    intro k'
    by_cases hkk : rank k' = rank k
    · rw [if_pos hkk]; exact get_of_none (by intro e he; rw [hkk]; exact hne e he)
    · rw [if_neg hkk]
  cases B with
  | nil =>
    have hmB : mB = [] := by simpa using hB.symm
    subst hmB
    simp only [List.head?_nil, Res.ok_bind, Res.pure_eq]
    have hne : ∀ e ∈ mA ++ [], rank e.1 ≠ rank k := by
      intro e he; simp at he; have := tA e he; omega
    rcases last_cases e5 with ⟨hA0, hr⟩ | ⟨A', hA'⟩
    · rw [hr, hh1]
      simp only
      rw [hh2, if_neg hhd]
      exact notin hne
    · obtain ⟨n, k1, v1, hm1, q1, q2, _⟩ := map_entry_mem hA (a := r.1) (by rw [hA']; simp)
      rw [q1]
      simp only
      rw [q2, if_neg]
      · exact notin hne
      · intro c
        have := ((hc k1 k (h.dom (k1, v1) (by simp [hm1])) hk).2).1 c
        have := tA _ hm1
        simp only at this
        omega
  | cons y B =>
    cases mB with
    | nil => simp at hB
    | cons e0 mB =>
      have hB0 := hB
      simp only [List.map_cons, List.cons.injEq] at hB0
      obtain ⟨n, hn, hnk, hnv⟩ := entry_some hB0.1
      simp only [List.head?_cons, Res.ok_bind, Res.pure_eq, hn]
      have hD0 := h.dom e0 (by simp)
      have hcmp := (hc e0.1 k hD0 hk).2
      rw [hnk]
      have hsrt := h.rep.srt
      rw [List.pairwise_append, List.pairwise_cons] at hsrt
      by_cases heq : rank e0.1 = rank k
      · rw [if_pos (hcmp.2 heq)]
        obtain ⟨k0, v0⟩ := e0
        obtain ⟨s', g1, g2, g3, g4⟩ := deleteNode_spec h.rep hA hB hn e2 e3
        refine ⟨s', _, _, ?_, ⟨g2, ?_, ?_⟩, ?_⟩
        · rw [g1, get_append (by intro e he; have := tA e he; omega), get_cons_eq heq]
        · intro e he
          exact h.dom e (by simp at he ⊢; tauto)
        · obtain ⟨n', q1, q2⟩ := g4 s.header (by simp) hn0 hh1
          exact ⟨n', by rw [g3]; exact q1, by rw [q2.1]; exact hh2⟩
        · intro k'
          simp only at heq
          by_cases hkk : rank k' = rank k
          · rw [if_pos hkk]
            apply get_of_none
            intro e he
            rw [List.mem_append] at he
            rcases he with he | he
            · have := tA e he; omega
            · have := hsrt.2.1.1 e he; simp only at this; omega
          · rw [if_neg hkk, get_mid_ne (by simp only; omega)]
      · rw [if_neg (fun c => heq (hcmp.1 c))]
        refine notin ?_
        intro e he
        rw [List.mem_append, List.mem_cons] at he
        have h1 := tB e0 (by simp)
        rcases he with he | rfl | he
        · have := tA e he; omega
        · exact heq
        · have := hsrt.2.1.1 e he; omega

/-- The search for the last node of a rank not above that of the key. -/
theorem abs_lower (hc : CmpOn cmp rank D) (h : Abs rank D hd s L m) {k : K} (hk : D k) :
    ∃ r, descend (fun x => cmp x k ≤ 0) s.heap s.nxt (s.level + 1) s.header = .ok r ∧
      ((r.1 = s.header ∧ ∀ e ∈ m, rank k < rank e.1) ∨
       ∃ e ∈ m, IsNode s r.1 e.1 e.2 ∧ rank e.1 ≤ rank k ∧ ∀ e' ∈ m, rank e'.1 ≤ rank k → rank e'.1 ≤ rank e.1) := by
  obtain ⟨mA, mB, rfl, tA, tB⟩ := split_lt rank (rank k + 1) h.rep.srt
  obtain ⟨A, B, rfl, hA, hB⟩ := h.rep.split
  obtain ⟨r, e1, e2, e3, ⟨Q, e5⟩, e4⟩ := h.rep.descend hA hB (test := fun x => cmp x k ≤ 0)
    (by
      intro e he
      have := hc e.1 k (h.dom e (by simp [he])) hk
      have := tA e he
      simp; omega)
    (by
      intro e he
      have := hc e.1 k (h.dom e (by simp [he])) hk
      have := tB e he
      simp; omega)
  refine ⟨r, e1, ?_⟩
  rcases last_cases e5 with ⟨hA0, hr⟩ | ⟨A', hA'⟩
  · refine .inl ⟨hr, ?_⟩
    subst hA0
    have : mA = [] := by simpa using hA.symm
    subst this
    intro e he
    have := tB e (by simpa using he)
    omega
  · right
    rw [hA', List.map_append] at hA
    have hA2 := hA.symm
    rw [List.map_eq_append_iff] at hA2
    obtain ⟨m1, m2, hm, hm1, hm2⟩ := hA2
    have : ∃ e, m2 = [e] := by
      have hl := congrArg List.length hm2
      simp at hl
      exact List.length_eq_one_iff.1 hl
    obtain ⟨e, rfl⟩ := this
    simp only [List.map_cons, List.map_nil, List.cons.injEq, and_true] at hm2
    subst hm
    refine ⟨e, by simp, ?_, ?_, ?_⟩
    · exact entry_some hm2.symm
    · have := tA e (by simp); omega
    · intro e' he' hle
      have hsrt := h.rep.srt
      rw [List.pairwise_append, List.pairwise_append] at hsrt
      rw [List.mem_append, List.mem_append] at he'
      rcases he' with (he' | he') | he'
      · have := hsrt.1.2.2 e' he' e (by simp); omega
      · simp at he'; rw [he']; exact Int.le_refl _
      · have := tB e' he'; omega

theorem abs_search (hc : CmpOn cmp rank D) (h : Abs rank D hd s L m) {isMax : K → Bool} (hmax : isMax hd = true)
    (hmaxD : ∀ x, D x → isMax x = false) {k : K} (hk : D k) :
    (get rank m k = none ∧ search cmp isMax s k = .ok none) ∨
    ∃ a e, e ∈ m ∧ rank e.1 = rank k ∧ get rank m k = some e.2 ∧ search cmp isMax s k = .ok (some a) ∧ IsNode s a e.1 e.2 := by
  obtain ⟨r, e1, h1⟩ := abs_lower hc h hk
  unfold search
  rw [e1, Res.ok_bind]
  obtain ⟨hn0, hh1, hh2⟩ := h.head
  rcases h1 with ⟨hr, hall⟩ | ⟨e, he, hnode, hle, hgr⟩
  · refine .inl ⟨get_of_none fun e he => by have := hall e he; omega, ?_⟩
    rw [hr]
    simp only [keyAt, hh1, Res.ok_bind, hh2, hmax]
    rw [if_neg (by simp)]
    rfl
  · obtain ⟨n, q1, q2, q3⟩ := hnode
    have hDe := h.dom e he
    have hcmp := (hc k e.1 hk hDe).2
    simp only [keyAt, q1, Res.ok_bind, q2, hmaxD e.1 hDe]
    by_cases heq : rank e.1 = rank k
    · right
      rw [if_pos ⟨rfl, hcmp.2 heq.symm⟩]
      refine ⟨r.1, e, he, heq, ?_, rfl, ⟨n, q1, q2, q3⟩⟩
      have := get_mem h.rep.srt he
      unfold get at this ⊢
      rw [← heq]
      exact this
    · left
      rw [if_neg (by rintro ⟨_, c⟩; exact heq (hcmp.1 c).symm)]
      refine ⟨get_of_none ?_, rfl⟩
      intro e' he' hc'
      have := hgr e' he' (by omega)
      omega

theorem abs_higher (hc : CmpOn cmp rank D) (h : Abs rank D hd s L m) {k : K} (hk : D k) :
    (searchHigher cmp s k = .ok none ∧ ∀ e ∈ m, rank e.1 < rank k) ∨
    ∃ a, ∃ e ∈ m, searchHigher cmp s k = .ok (some a) ∧ IsNode s a e.1 e.2 ∧ rank k ≤ rank e.1 ∧
      ∀ e' ∈ m, rank k ≤ rank e'.1 → rank e.1 ≤ rank e'.1 := by
  obtain ⟨mA, mB, rfl, tA, tB⟩ := split_lt rank (rank k) h.rep.srt
  obtain ⟨A, B, rfl, hA, hB⟩ := h.rep.split
  obtain ⟨r, e1, e2, e3, _, e4⟩ := h.rep.descend hA hB (test := fun x => cmp x k < 0)
    (by intro e he; simpa using ((hc e.1 k (h.dom e (by simp [he])) hk).1).2 (tA e he))
    (by
      intro e he
      have := (hc e.1 k (h.dom e (by simp [he])) hk).1
      have := tB e he
      simp; omega)
  unfold searchHigher
  rw [e1, Res.ok_bind, e4]
  cases B with
  | nil =>
    have hmB : mB = [] := by simpa using hB.symm
    subst hmB
    left
    exact ⟨rfl, fun e he => tA e (by simpa using he)⟩
  | cons y B =>
    cases mB with
    | nil => simp at hB
    | cons e0 mB =>
      right
      simp only [List.map_cons, List.cons.injEq] at hB
      refine ⟨y, e0, by simp, rfl, entry_some hB.1, tB e0 (by simp), ?_⟩
      intro e' he' hle
      have hsrt := h.rep.srt
      rw [List.pairwise_append, List.pairwise_cons] at hsrt
      rw [List.mem_append, List.mem_cons] at he'
      rcases he' with he' | rfl | he'
      · have := tA e' he'; omega
      · omega
      · have := hsrt.2.1.1 e' he'; omega

theorem traverse_spec {h : Nat → Option (Node K V)} {l : List Nat} (hl : Links h l) (h1 : ∀ a ∈ l, 1 ≤ ht h a) :
    ∀ (R P : List Nat) (f : Nat), l = P ++ R → R.length ≤ f → traverse h f R.head? = .ok R := by
  intro R
  induction R with
  | nil => intro P f _ _; cases f <;> rfl
  | cons x R ih =>
    intro P f e hf
    obtain ⟨f, rfl⟩ : ∃ g, f = g + 1 := ⟨f - 1, by simp at hf; omega⟩
    rw [List.head?_cons, traverse, hl P x R e 0 (h1 x (by rw [e]; simp)), Res.ok_bind]
    have : R.find? (tall h 0) = R.head? := by
      cases R with
      | nil => rfl
      | cons y R =>
        rw [List.find?_cons_of_pos (by rw [tall_of]; exact h1 y (by rw [e]; simp))]
        rfl
    rw [this, ih (P ++ [x]) f (by rw [e]; simp) (by simp at hf; omega), Res.ok_bind]
    rfl

theorem abs_nodes (h : Abs rank D hd s L m) : nodes s = .ok L := by
  have h1 : ∀ a ∈ s.header :: L, 1 ≤ ht s.heap a := by
    intro a ha
    rw [List.mem_cons] at ha
    rcases ha with rfl | ha
    · rw [h.rep.hdr]; decide
    · exact (h.rep.tallest a ha).1
  unfold nodes
  rw [h.rep.links [] s.header L rfl 0 (h1 _ (by simp)), Res.ok_bind]
  have : L.find? (tall s.heap 0) = L.head? := by
    cases L with
    | nil => rfl
    | cons y R =>
      rw [List.find?_cons_of_pos (by rw [tall_of]; exact h1 y (by simp))]
      rfl
  rw [this]
  refine traverse_spec h.rep.links h1 L [s.header] s.nxt rfl ?_
  have hsub : L ⊆ List.range s.nxt := by
    intro a ha
    rw [List.mem_range]
    exact h.rep.fresh a (by simp [ha])
  have := (List.subperm_of_subset (List.nodup_cons.1 h.rep.nodup).2 hsub).length_le
  simpa using this

end

theorem abs_run {cmp : K → K → Int} {rank : K → Int} {D : K → Prop} {hd : K} (hc : CmpOn cmp rank D)
    (hhd : ∀ k, D k → cmp hd k ≠ 0) : ∀ (ops : List (Op K V)) (s : SL K V) (L : List Nat) (m : List (K × V))
    (f : K → Option V), (∀ o ∈ ops, o.Ok D) → Abs rank D hd s L m → (∀ k, get rank m k = f k) →
    ∃ s' L' m', run cmp ops s = .ok s' ∧ Abs rank D hd s' L' m' ∧ ∀ k, get rank m' k = spec rank ops f k := by
  intro ops
  induction ops with
  | nil => intro s L m f _ h hf; exact ⟨s, L, m, rfl, h, hf⟩
  | cons o ops ih =>
    intro s L m f ho h hf
    have ho' : ∀ o ∈ ops, o.Ok D := fun x hx => ho x (List.mem_cons_of_mem _ hx)
    have h0 := ho o (List.mem_cons_self)
    cases o with
    | ins k v lvl =>
      obtain ⟨s1, L1, m1, e1, a1, g1⟩ := abs_insert hc h h0.1 v h0.2
      rw [run, e1, Res.ok_bind, spec]
      exact ih s1 L1 m1 _ ho' a1 fun k' => by rw [g1, hf]
    | del k =>
      obtain ⟨s1, L1, m1, e1, a1, g1⟩ := abs_delete hc h h0 (hhd k h0)
      rw [run, e1, Res.ok_bind, spec]
      exact ih s1 L1 m1 _ ho' a1 fun k' => by rw [g1, hf]

/-- For all insertions and deletions and all random levels: the list behaves as the finite map, and
the nodes in order are its entries in strictly increasing order. `cmp` compares the keys of `D`
correctly, and the key of the header differs from them. -/
theorem C22_skiplist {cmp : K → K → Int} {rank : K → Int} {D : K → Prop} {hd : K} {isMax : K → Bool}
    (hc : CmpOn cmp rank D) (hhd : ∀ k, D k → cmp hd k ≠ 0) (hm : isMax hd = true)
    (hmD : ∀ k, D k → isMax k = false) {ops : List (Op K V)} (ho : ∀ o ∈ ops, o.Ok D) :
    ∃ s L, run cmp ops (init hd) = .ok s ∧ nodes s = .ok L ∧ s.items = L.length ∧
      -- the nodes are the entries of the map, in strictly increasing order
      (∀ a ∈ L, ∃ k v, D k ∧ IsNode s a k v ∧ spec rank ops (fun _ => none) k = some v) ∧
      (∀ k v, spec rank ops (fun _ => none) k = some v → ∃ a ∈ L, ∃ k', rank k' = rank k ∧ IsNode s a k' v) ∧
      L.Pairwise (fun a b => ∀ k v k' v', IsNode s a k v → IsNode s b k' v' → rank k < rank k') ∧
      -- search
      (∀ k, D k → match spec rank ops (fun _ => none) k with
        | none => search cmp isMax s k = .ok none
        | some v => ∃ a k', search cmp isMax s k = .ok (some a) ∧ rank k' = rank k ∧ IsNode s a k' v) ∧
      -- deletion returns the value
      (∀ k, D k → ∃ s', delete cmp s k = .ok (s', spec rank ops (fun _ => none) k)) ∧
      -- search for the next node
      (∀ k, D k → ∃ r, searchHigher cmp s k = .ok r ∧ match r with
        | none => ∀ k' v, spec rank ops (fun _ => none) k' = some v → rank k' < rank k
        | some a => ∃ ka va, IsNode s a ka va ∧ spec rank ops (fun _ => none) ka = some va ∧ rank k ≤ rank ka ∧
            ∀ k' v, spec rank ops (fun _ => none) k' = some v → rank k ≤ rank k' → rank ka ≤ rank k') ∧
      -- search for the previous node; the header stands for none
      (∀ k, D k → ∃ a, searchLower cmp s k = .ok a ∧
        ((a = s.header ∧ ∀ k' v, spec rank ops (fun _ => none) k' = some v → rank k < rank k') ∨
         ∃ ka va, IsNode s a ka va ∧ spec rank ops (fun _ => none) ka = some va ∧ rank ka ≤ rank k ∧
            ∀ k' v, spec rank ops (fun _ => none) k' = some v → rank k' ≤ rank k → rank k' ≤ rank ka)) := by
  obtain ⟨s, L, m, e1, a1, g1⟩ := abs_run hc hhd ops (init hd) [] [] (fun _ => none) ho (abs_init rank D hd)
    (fun k => rfl)
  have hin : ∀ k v, spec rank ops (fun _ => none) k = some v → ∃ e ∈ m, rank e.1 = rank k ∧ e.2 = v := by
    intro k v h; rw [← g1] at h; exact mem_of_get h
  have hout : ∀ e ∈ m, spec rank ops (fun _ => none) e.1 = some e.2 := by
    intro e he; rw [← g1]; exact get_mem a1.rep.srt he
  refine ⟨s, L, e1, abs_nodes a1, a1.rep.items, ?_, ?_, ?_, ?_, ?_, ?_, ?_⟩
  · intro a ha
    obtain ⟨n, k, v, hmm, q1, q2, q3⟩ := map_entry_mem a1.rep.cont ha
    exact ⟨k, v, a1.dom _ hmm, ⟨n, q1, q2, q3⟩, hout _ hmm⟩
  · intro k v h
    obtain ⟨e, he, hr, hv⟩ := hin k v h
    have : some e ∈ L.map (entry s.heap) := by rw [a1.rep.cont]; exact List.mem_map_of_mem he
    rw [List.mem_map] at this
    obtain ⟨a, ha, hae⟩ := this
    exact ⟨a, ha, e.1, hr, by rw [← hv]; exact entry_some hae⟩
  · have hp : (L.map (entry s.heap)).Pairwise (fun x y => ∀ e e', x = some e → y = some e' → rank e.1 < rank e'.1) := by
      rw [a1.rep.cont, List.pairwise_map]
      refine a1.rep.srt.imp ?_
      intro a b hab e e' h1 h2
      injection h1 with h1; injection h2 with h2
      subst h1; subst h2; exact hab
    rw [List.pairwise_map] at hp
    refine hp.imp ?_
    intro a b hab k v k' v' ⟨n, q1, q2, q3⟩ ⟨n', q1', q2', q3'⟩
    have := hab (k, v) (k', v') (by rw [entry_of q1 q3, q2]) (by rw [entry_of q1' q3', q2'])
    exact this
  · intro k hk
    rw [← g1]
    rcases abs_search hc a1 hm hmD hk with ⟨h1, h2⟩ | ⟨a, e, _, h2, h3, h4, h5⟩
    · rw [h1]; exact h2
    · rw [h3]; exact ⟨a, e.1, h4, h2, h5⟩
  · intro k hk
    obtain ⟨s', _, _, h1, _⟩ := abs_delete hc a1 hk (hhd k hk)
    exact ⟨s', by rw [h1, g1]⟩
  · intro k hk
    rcases abs_higher hc a1 hk with ⟨h1, h2⟩ | ⟨a, e, he, h1, h2, h3, h4⟩
    · refine ⟨none, h1, ?_⟩
      intro k' v h
      obtain ⟨e, he, hr, _⟩ := hin k' v h
      have := h2 e he
      omega
    · refine ⟨some a, h1, e.1, e.2, h2, hout e he, h3, ?_⟩
      intro k' v h hle
      obtain ⟨e', he', hr, _⟩ := hin k' v h
      have := h4 e' he' (by omega)
      omega
  · intro k hk
    obtain ⟨r, h0, h1⟩ := abs_lower hc a1 hk
    refine ⟨r.1, by unfold searchLower; rw [h0]; rfl, ?_⟩
    rcases h1 with ⟨h1, h2⟩ | ⟨e, he, h1, h2, h3⟩
    · refine .inl ⟨h1, ?_⟩
      intro k' v h
      obtain ⟨e, he, hr, _⟩ := hin k' v h
      have := h2 e he
      omega
    · refine .inr ⟨e.1, e.2, h1, hout e he, h2, ?_⟩
      intro k' v h hle
      obtain ⟨e', he', hr, _⟩ := hin k' v h
      have := h3 e' he' (by omega)
      omega

theorem abs_cloneLoop {cmp : K → K → Int} {rank : K → Int} {D : K → Prop} {hd : K} {s : SL K V}
    (hc : CmpOn cmp rank D) : ∀ (xs : List Nat) (mx : List (K × V)) (ls : List Nat) (d : SL K V) (L : List Nat)
    (m : List (K × V)), xs.map (entry s.heap) = mx.map some → (∀ e ∈ mx, D e.1) → (∀ l ∈ ls, l < maxLevel) →
    (mx.Pairwise fun a b => rank a.1 < rank b.1) → Abs rank D hd d L m →
    ∃ d' L' m', cloneLoop cmp s.heap xs ls d = .ok d' ∧ Abs rank D hd d' L' m' ∧
      ∀ k, get rank m' k = (get rank mx k).or (get rank m k) := by
  intro xs
  induction xs with
  | nil =>
    intro mx ls d L m hx _ _ _ h
    have : mx = [] := by simpa using hx.symm
    subst this
    exact ⟨d, L, m, rfl, h, fun k => rfl⟩
  | cons x xs ih =>
    intro mx ls d L m hx hD hl hs h
    cases mx with
    | nil => simp at hx
    | cons e mx =>
      simp only [List.map_cons, List.cons.injEq] at hx
      obtain ⟨n, hn, hnk, hnv⟩ := entry_some hx.1
      have h0 : ls.headD 0 < maxLevel := by
        cases ls with
        | nil => decide
        | cons l ls => exact hl l (by simp)
      obtain ⟨d1, L1, m1, e1, a1, g1⟩ := abs_insert hc h (hD e (by simp)) e.2 h0
      rw [List.pairwise_cons] at hs
      obtain ⟨d2, L2, m2, e2, a2, g2⟩ := ih mx ls.tail d1 L1 m1 hx.2 (fun e he => hD e (by simp [he]))
        (fun l hl' => hl l (List.mem_of_mem_tail hl')) hs.2 a1
      refine ⟨d2, L2, m2, ?_, a2, ?_⟩
      · rw [cloneLoop, hn]
        simp only [hnv]
        rw [hnk, e1, Res.ok_bind, e2]
      · intro k
        rw [g2, g1]
        by_cases hkk : rank k = rank e.1
        · rw [if_pos hkk, get_cons_eq hkk.symm, get_of_none]
          · rfl
          · intro e' he'
            have := hs.1 e' he'
            omega
        · rw [if_neg hkk, get_cons_ne (fun c => hkk c.symm)]

/-- A clone, with any levels, finds what the list finds. -/
theorem C22_clone {cmp : K → K → Int} {rank : K → Int} {D : K → Prop} {hd : K} {isMax : K → Bool}
    (hc : CmpOn cmp rank D) (hhd : ∀ k, D k → cmp hd k ≠ 0) (hm : isMax hd = true)
    (hmD : ∀ k, D k → isMax k = false) {ops : List (Op K V)} (ho : ∀ o ∈ ops, o.Ok D) {lvls : List Nat}
    (hl : ∀ l ∈ lvls, l < maxLevel) :
    ∃ s d L, run cmp ops (init hd) = .ok s ∧ clone cmp hd s lvls = .ok d ∧ nodes d = .ok L ∧ d.items = s.items ∧
      L.length = d.items ∧
      (∀ k v, spec rank ops (fun _ => none) k = some v → ∃ a ∈ L, ∃ k', rank k' = rank k ∧ IsNode d a k' v) ∧
      (∀ k, D k → match spec rank ops (fun _ => none) k with
        | none => search cmp isMax d k = .ok none
        | some v => ∃ a k', search cmp isMax d k = .ok (some a) ∧ rank k' = rank k ∧ IsNode d a k' v) := by
  obtain ⟨s, L, m, e1, a1, g1⟩ := abs_run hc hhd ops (init hd) [] [] (fun _ => none) ho (abs_init rank D hd)
    (fun k => rfl)
  obtain ⟨d, Ld, md, e2, a2, g2⟩ := abs_cloneLoop (s := s) hc L m lvls (init hd) [] [] a1.rep.cont a1.dom hl
    a1.rep.srt (abs_init rank D hd)
  have g3 : ∀ k, get rank md k = spec rank ops (fun _ => none) k := by
    intro k; rw [g2, g1]; exact Option.or_none
  have hlen : ∀ {s : SL K V} {L : List Nat} {m : List (K × V)}, Abs rank D hd s L m → L.length = m.length := by
    intro s L m h
    have := congrArg List.length h.rep.cont
    simpa using this
  have hkeys : ∀ {m m' : List (K × V)}, (m.Pairwise fun a b => rank a.1 < rank b.1) →
      (∀ k, (get rank m k).isSome → (get rank m' k).isSome) → m.length ≤ m'.length := by
    intro m m' hs hg
    have hnd : (m.map fun e => rank e.1).Nodup := by
      rw [List.Nodup, List.pairwise_map]
      exact hs.imp fun hab => by omega
    have hsub : (m.map fun e => rank e.1) ⊆ m'.map fun e => rank e.1 := by
      intro r hr
      rw [List.mem_map] at hr
      obtain ⟨e, he, rfl⟩ := hr
      have := hg e.1 (by rw [get_mem hs he]; rfl)
      obtain ⟨v, hv⟩ := Option.isSome_iff_exists.1 this
      obtain ⟨e', he', hr, _⟩ := mem_of_get hv
      exact List.mem_map.2 ⟨e', he', hr⟩
    have := (List.subperm_of_subset hnd hsub).length_le
    simpa using this
  refine ⟨s, d, Ld, e1, ?_, abs_nodes a2, ?_, a2.rep.items.symm, ?_, ?_⟩
  · unfold clone; rw [abs_nodes a1, Res.ok_bind, e2]
  · rw [a2.rep.items, a1.rep.items, hlen a2, hlen a1]
    refine congrArg _ (Nat.le_antisymm ?_ ?_)
    · exact hkeys a2.rep.srt fun k hk => by rw [g1, ← g3]; exact hk
    · exact hkeys a1.rep.srt fun k hk => by rw [g3, ← g1]; exact hk
  · intro k v h
    rw [← g3] at h
    obtain ⟨e, he, hr, hv⟩ := mem_of_get h
    have : some e ∈ Ld.map (entry d.heap) := by rw [a2.rep.cont]; exact List.mem_map_of_mem he
    rw [List.mem_map] at this
    obtain ⟨a, ha, hae⟩ := this
    exact ⟨a, ha, e.1, hr, by rw [← hv]; exact entry_some hae⟩
  · intro k hk
    rw [← g3]
    rcases abs_search hc a2 hm hmD hk with ⟨h1, h2⟩ | ⟨a, e, _, h2, h3, h4, h5⟩
    · rw [h1]; exact h2
    · rw [h3]; exact ⟨a, e.1, h4, h2, h5⟩

/-! ### The comparison of integers -/

/-- The keys for which `long_cmp` is correct: a window of less than `2^31`, away from `LONG_MAX`. -/
def Window (b : Int) (k : Int) : Prop := b ≤ k ∧ k < b + 2 ^ 31

theorem longCmp_eq {a b : Int} (h : InI32 (a - b)) : longCmp a b = a - b := by
  unfold longCmp
  have : InI64 (a - b) := by unfold InI32 at h; unfold InI64; omega
  rw [wrap64_of_in this, wrap32_of_in h]

theorem longCmp_on (b : Int) : CmpOn longCmp id (Window b) := by
  intro x y hx hy
  unfold Window at hx hy
  rw [longCmp_eq (by unfold InI32; omega)]
  simp only [id]
  constructor <;> omega

/-- C22 for the lists with `long_cmp`. Missing: keys further apart than `2^31`
(`C22_refuted_long_cmp`), and keys that are `LONG_MAX` modulo `2^32` (`C22_refuted_header`). -/
theorem C22_skiplist_long_partial (b : Int) (hb : b + 2 ^ 31 ≤ longMax)
    {ops : List (Op Int V)} (ho : ∀ o ∈ ops, o.Ok fun k => Window b k ∧ longCmp longMax k ≠ 0) :
    ∃ s L, run longCmp ops (init longMax) = .ok s ∧ nodes s = .ok L ∧ s.items = L.length ∧
      L.Pairwise (fun a b => ∀ k v k' v', IsNode s a k v → IsNode s b k' v' → k < k') ∧
      ∀ k, Window b k → longCmp longMax k ≠ 0 → match spec id ops (fun _ => none) k with
        | none => search longCmp (· = longMax) s k = .ok none
        | some v => ∃ a, search longCmp (· = longMax) s k = .ok (some a) ∧ IsNode s a k v := by
  have hc : CmpOn longCmp id fun k => Window b k ∧ longCmp longMax k ≠ 0 :=
    fun x y hx hy => longCmp_on b x y hx.1 hy.1
  obtain ⟨s, L, h1, h2, h3, h4, h5, h6, h7, _⟩ := C22_skiplist (V := V) hc (fun k hk => hk.2)
    (isMax := fun k => k = longMax) (hd := longMax) (by simp)
    (fun k hk => by have := hk.1; unfold Window at this; simp; omega) ho
  refine ⟨s, L, h1, h2, h3, h6, ?_⟩
  intro k hk hk2
  have := h7 k ⟨hk, hk2⟩
  split <;> rename_i heq <;> rw [heq] at this
  · exact this
  · obtain ⟨a, k', h1, h2, h3⟩ := this
    simp only [id] at h2
    subst h2
    exact ⟨a, h1, h3⟩

example : (0 : Int) + 2 ^ 31 ≤ longMax ∧
    ∀ o ∈ [Op.ins (5 : Int) 'a' 3, .ins 2 'b' 0, .ins 5 'c' 5, .del 2, .ins 9 'd' 2],
      o.Ok fun k => Window 0 k ∧ longCmp longMax k ≠ 0 := by
  refine ⟨by decide, ?_⟩
  simp only [List.mem_cons, List.not_mem_nil, or_false, forall_eq_or_imp, forall_eq, Op.Ok, Window]
  decide

/-- The hypotheses of `C22_skiplist` and `C22_clone`. -/
example : CmpOn longCmp id (fun k => k ∈ [2, 5, 9]) ∧ (∀ k ∈ [2, 5, 9], longCmp longMax k ≠ 0) ∧
    ∀ o ∈ [Op.ins (5 : Int) 'a' 3, .ins 2 'b' 0, .ins 5 'c' 5, .del 2, .ins 9 'd' 2], o.Ok (fun k => k ∈ [2, 5, 9]) := by
  refine ⟨fun x y hx hy => longCmp_on 0 x y ?_ ?_, by decide, ?_⟩
  · simp at hx; unfold Window; omega
  · simp at hy; unfold Window; omega
  · simp only [List.mem_cons, List.not_mem_nil, or_false, forall_eq_or_imp, forall_eq, Op.Ok]
    decide

def testOps : List (Op Int Char) := [.ins 5 'a' 3, .ins 2 'b' 0, .ins 5 'c' 5, .del 2, .ins 9 'd' 2]

/-- The traversed keys and values. -/
def dump (s : SL Int Char) : Res (List (Option (Int × Char))) := do
  let l ← nodes s
  return l.map (entry s.heap)

example : (do let s ← run longCmp testOps (init longMax); dump s) = .ok [some (5, 'c'), some (9, 'd')] := by
  decide +kernel

/-- Keys that differ by `2^32` are the same key, and keys further apart than `2^31` are in the wrong
order: `0` comes behind `2^31 + 1`. -/
theorem C22_refuted_long_cmp :
    (do let s ← run longCmp [Op.ins 0 'a' 0, .ins (2 ^ 32) 'b' 0] (init longMax); dump s) = .ok [some (0, 'b')] ∧
    (do let s ← run longCmp [Op.ins 0 'a' 0, .ins (2 ^ 31 + 1) 'b' 0] (init longMax); dump s) =
      .ok [some (2 ^ 31 + 1, 'b'), some (0, 'a')] := by decide +kernel

/-- The key `LONG_MAX` is never found, and deleting it (or the key `-1`, which is the same modulo
`2^32`) from an empty list frees the header. -/
theorem C22_refuted_header :
    (do let s ← run longCmp [Op.ins longMax 'a' 0] (init longMax); search longCmp (· = longMax) s longMax) = .ok none ∧
    (do let s ← run longCmp [.del (-1), Op.ins 3 'a' 0] (init longMax); dump s) = .ub := by decide +kernel

/-- `skiplist_get_range` fails for every list and range. -/
theorem C22_refuted_range (cmp : K → K → Int) (s : SL K V) (k : K) (r : Int) (h : getRange cmp s k = .ok r) :
    r = -1 := by
  unfold getRange at h
  cases hs : searchHigher cmp s k with
  | ok x =>
    rw [hs, Res.ok_bind] at h
    cases x with
    | none => cases h
    | some a => cases h; rfl
  | raise e => rw [hs] at h; cases h
  | ub => rw [hs] at h; cases h
  | diverge => rw [hs] at h; cases h

end Verif.Skiplist
