import Verif.Txn.Model
import Verif.Db.Props
import Mathlib.Data.List.Induction
/-!
# The write set of a transaction as a sorted list

`code` gives each write a list of integers, such that `txn_write_cmp` is the lexicographic comparison of
the codes as long as no difference overflows. The write set then is the list of writes sorted by code, in which
a later write replaces the earlier one with the same code.
-/
namespace Verif.Txn
open Verif

variable {α ν : Type}

/-! ### Lexicographic comparison -/

def lex : List Int → List Int → Int
  | [], [] => 0
  | [], _ :: _ => -1
  | _ :: _, [] => 1
  | a :: as, b :: bs => if a ≠ b then a - b else lex as bs

theorem lex_cons (a b : Int) (as bs : List Int) : lex (a :: as) (b :: bs) = if a ≠ b then a - b else lex as bs := rfl

theorem lex_zero : ∀ {a b : List Int}, lex a b = 0 ↔ a = b
  | [], [] => by simp [lex]
  | [], _ :: _ => by simp [lex]
  | _ :: _, [] => by simp [lex]
  | a :: as, b :: bs => by
    unfold lex
    by_cases h : a = b
    · rw [if_neg (by simpa using h), lex_zero]; simp [h]
    · rw [if_pos h]; simp only [List.cons.injEq]; constructor
      · intro h'; omega
      · intro h'; exact absurd h'.1 h

theorem lex_self (a : List Int) : lex a a = 0 := lex_zero.2 rfl

theorem lex_symm : ∀ (a b : List Int), lex a b = - lex b a
  | [], [] => by simp [lex]
  | [], _ :: _ => by simp [lex]
  | _ :: _, [] => by simp [lex]
  | a :: as, b :: bs => by
    unfold lex
    by_cases h : a = b
    · rw [if_neg (by simpa using h), if_neg (by simpa using h.symm)]; exact lex_symm as bs
    · rw [if_pos h, if_pos (fun e => h e.symm)]; omega

theorem lex_trans : ∀ {a b c : List Int}, lex a b < 0 → lex b c < 0 → lex a c < 0
  | [], [], c, h, _ => by simp [lex] at h
  | _ :: _, [], c, h, _ => by simp [lex] at h
  | [], _ :: _, [], _, h => by simp [lex] at h
  | [], _ :: _, _ :: _, _, _ => by simp [lex]
  | _ :: _, _ :: _, [], _, h => by simp [lex] at h
  | a :: as, b :: bs, c :: cs, h1, h2 => by
    unfold lex at *
    by_cases hab : a = b
    · subst hab
      rw [if_neg (by simp)] at h1
      by_cases hac : a = c
      · subst hac
        rw [if_neg (by simp)] at h2 ⊢
        exact lex_trans h1 h2
      · rw [if_pos hac] at h2 ⊢
        exact h2
    · rw [if_pos hab] at h1
      by_cases hbc : b = c
      · subst hbc
        rw [if_pos hab]; exact h1
      · rw [if_pos hbc] at h2
        rw [if_pos (by omega)]; omega

/-! ### Codes -/

/-- What identifies a write in the write set. -/
def code (w : Write α ν) : List Int :=
  w.table :: if w.kind.regular then (w.keys.length : Int) :: w.keys
    else w.kind.num :: match w.kind with
      | .readQ => [w.queue, w.app, w.shard, w.consumer]
      | .consumeQ => [w.queue, w.app, w.shard, w.consumer]
      | .enqueue => [w.order]
      | .createQ => [w.order]
      | _ => []

/-- A range in which no difference overflows. -/
def InW (b x : Int) : Prop := b ≤ x ∧ x < b + 2 ^ 31

/-- The writes for which `cmp` is an order: all identifiers in one window, and no table used both as a data table
and as a queue table (`Q` says which). -/
structure Dom (b : Int) (Q : Int → Bool) (w : Write α ν) : Prop where
  table : InW b w.table
  keys : ∀ k ∈ w.keys, InW b k
  queue : InW b w.queue
  app : InW b w.app
  shard : InW b w.shard
  consumer : InW b w.consumer
  sep : Q w.table = !w.kind.regular

theorem diff_eq {b x y : Int} (hx : InW b x) (hy : InW b y) : diff x y = x - y := by
  unfold diff InW at *
  rw [wrap64_of_in (by unfold InI64; omega), wrap32_of_in (by unfold InI32; omega)]

theorem castdiff_eq {b x y : Int} (hx : InW b x) (hy : InW b y) : wrap32 (wrap64 (wrap32 x - y)) = x - y := by
  unfold InW at *
  have h : ∀ z : Int, wrap32 (wrap64 z) = wrap32 z := by
    intro z; unfold wrap32 wrap64 Int.bmod; simp only [Nat.reducePow]; split <;> split <;> split <;> omega
  rw [h]
  have h2 : wrap32 (wrap32 x - y) = wrap32 (x - y) := by
    unfold wrap32 Int.bmod; simp only [Nat.reducePow]; split <;> split <;> split <;> omega
  rw [h2, wrap32_of_in (by unfold InI32; omega)]

theorem keysCmp_eq {b : Int} : ∀ {x y : List Int}, x.length = y.length → (∀ k ∈ x, InW b k) → (∀ k ∈ y, InW b k) →
    keysCmp x y = lex x y
  | [], [], _, _, _ => by simp [keysCmp, lex]
  | [], _ :: _, h, _, _ => by simp at h
  | _ :: _, [], h, _, _ => by simp at h
  | a :: as, c :: cs, h, hx, hy => by
    unfold keysCmp lex
    by_cases hac : a = c
    · rw [if_neg (by simpa using hac), if_neg (by simpa using hac)]
      exact keysCmp_eq (by simpa using h) (fun k hk => hx k (by simp [hk])) (fun k hk => hy k (by simp [hk]))
    · rw [if_pos hac, if_pos hac]
      exact castdiff_eq (hx a (by simp)) (hy c (by simp))

/-- The local order of a write in a transaction with fewer than `2^31` writes. -/
def OrdOk (w : Write α ν) : Prop := InW 0 w.order

theorem cmp_eq {b : Int} {Q : Int → Bool} {x y : Write α ν} (hx : Dom b Q x) (hy : Dom b Q y) (ox : OrdOk x)
    (oy : OrdOk y) : cmp x y = lex (code x) (code y) := by
  have hord : (if x.order ≠ y.order then diff x.order y.order else 0) = lex [x.order] [y.order] := by
    by_cases h : x.order = y.order
    · simp [lex, h]
    · simp only [lex, ne_eq, h, not_false_eq_true, if_true]; exact diff_eq ox oy
  have hcons : consumerCmp x y = lex [x.queue, x.app, x.shard, x.consumer] [y.queue, y.app, y.shard, y.consumer] := by
    unfold consumerCmp
    simp only [lex]
    rw [diff_eq hx.queue hy.queue, diff_eq hx.app hy.app, diff_eq hx.shard hy.shard, diff_eq hx.consumer hy.consumer]
  unfold cmp code
  rw [lex_cons]
  by_cases ht : x.table = y.table
  · have ht' : ¬ x.table ≠ y.table := fun h => h ht
    rw [if_neg ht', if_neg ht']
    have hk : x.kind.regular = y.kind.regular := by
      have h1 := hx.sep
      have h2 := hy.sep
      rw [ht, h2] at h1
      simpa using h1.symm
    by_cases hr : x.kind.regular = true
    · have hy' : y.kind.regular = true := hk ▸ hr
      simp only [hr, hy', if_true]
      rw [lex_cons]
      by_cases hl : x.keys.length = y.keys.length
      · have hl' : ¬ x.keys.length ≠ y.keys.length := fun h => h hl
        rw [if_neg hl', if_neg (fun h => hl' (by omega))]
        exact keysCmp_eq hl hx.keys hy.keys
      · rw [if_pos hl, if_pos (by omega)]
    · have hy' : ¬ y.kind.regular = true := hk ▸ hr
      rw [if_neg hr, if_neg hr, if_neg hy']
      rw [lex_cons]
      by_cases hn : x.kind = y.kind
      · have hn' : ¬ x.kind ≠ y.kind := fun h => h hn
        rw [if_neg hn', if_neg (by rw [hn]; simp)]
        unfold queueCmp
        rw [hn]
        cases hkk : y.kind
        · rfl
        · rfl
        · exact hord
        · exact hcons
        · exact hcons
        · exact hord
        · rfl
      · have hnum : x.kind.num ≠ y.kind.num := by
          intro h
          apply hn
          cases hx' : x.kind <;> cases hy' : y.kind <;> rw [hx', hy'] at h <;> first | rfl | (simp [Kind.num] at h)
        rw [if_pos hn, if_pos hnum]
  · rw [if_pos ht, if_pos ht]
    exact diff_eq hx.table hy.table

/-! ### The sorted list -/

/-- Insertion by code, replacing an element with the same code. -/
def ins (w : Write α ν) : List (Write α ν) → List (Write α ν)
  | [] => [w]
  | l :: r => if lex (code l) (code w) < 0 then l :: ins w r else if code l = code w then w :: r else w :: l :: r

/-- A write issued when the write set is `L`. -/
def add (L : List (Write α ν)) (w : Write α ν) : List (Write α ν) := ins { w with order := L.length } L

/-- The write set after the writes `ws`. -/
def build (ws : List (Write α ν)) : List (Write α ν) := ws.foldl add []

def Srt (L : List (Write α ν)) : Prop := L.Pairwise fun a b => lex (code a) (code b) < 0

theorem mem_ins {L : List (Write α ν)} {w l : Write α ν} (hs : Srt L) :
    l ∈ ins w L ↔ l = w ∨ (l ∈ L ∧ code l ≠ code w) := by
  induction L with
  | nil => simp [ins]
  | cons a r ih =>
    unfold Srt at hs
    rw [List.pairwise_cons] at hs
    obtain ⟨ha, hr⟩ := hs
    unfold ins
    by_cases h1 : lex (code a) (code w) < 0
    · rw [if_pos h1]
      have hne : code a ≠ code w := by intro e; rw [lex_zero.2 e] at h1; omega
      simp only [List.mem_cons, ih hr]
      constructor
      · rintro (rfl | h | h)
        · exact .inr ⟨.inl rfl, hne⟩
        · exact .inl h
        · exact .inr ⟨.inr h.1, h.2⟩
      · rintro (h | ⟨rfl | h, h'⟩)
        · exact .inr (.inl h)
        · exact .inl rfl
        · exact .inr (.inr ⟨h, h'⟩)
    · rw [if_neg h1]
      by_cases h2 : code a = code w
      · rw [if_pos h2]
        simp only [List.mem_cons]
        constructor
        · rintro (h | h)
          · exact .inl h
          · refine .inr ⟨.inr h, ?_⟩
            have := ha l h
            rw [h2] at this
            intro e; rw [e, lex_self] at this; omega
        · rintro (h | ⟨rfl | h, h'⟩)
          · exact .inl h
          · exact absurd h2 h'
          · exact .inr h
      · rw [if_neg h2]
        have h3 : lex (code w) (code a) < 0 := by
          have := lex_symm (code a) (code w)
          have h4 : lex (code a) (code w) ≠ 0 := fun e => h2 (lex_zero.1 e)
          omega
        simp only [List.mem_cons]
        constructor
        · rintro (h | rfl | h)
          · exact .inl h
          · exact .inr ⟨.inl rfl, h2⟩
          · refine .inr ⟨.inr h, ?_⟩
            have := lex_trans h3 (ha l h)
            intro e; rw [e, lex_self] at this; omega
        · rintro (h | ⟨h, _⟩)
          · exact .inl h
          · exact .inr h

theorem srt_ins {L : List (Write α ν)} (w : Write α ν) (hs : Srt L) : Srt (ins w L) := by
  induction L with
  | nil => simp [ins, Srt]
  | cons a r ih =>
    unfold Srt at hs
    rw [List.pairwise_cons] at hs
    obtain ⟨ha, hr⟩ := hs
    unfold ins
    by_cases h1 : lex (code a) (code w) < 0
    · rw [if_pos h1]
      refine List.pairwise_cons.2 ⟨?_, ih hr⟩
      intro l hl
      rcases (mem_ins hr).1 hl with rfl | ⟨h, _⟩
      · exact h1
      · exact ha l h
    · rw [if_neg h1]
      by_cases h2 : code a = code w
      · rw [if_pos h2]
        refine List.pairwise_cons.2 ⟨?_, hr⟩
        intro l hl
        rw [← h2]; exact ha l hl
      · rw [if_neg h2]
        have h3 : lex (code w) (code a) < 0 := by
          have := lex_symm (code a) (code w)
          have h4 : lex (code a) (code w) ≠ 0 := fun e => h2 (lex_zero.1 e)
          omega
        refine List.pairwise_cons.2 ⟨?_, List.pairwise_cons.2 ⟨ha, hr⟩⟩
        intro l hl
        rcases List.mem_cons.1 hl with rfl | hl
        · exact h3
        · exact lex_trans h3 (ha l hl)

theorem length_ins {L : List (Write α ν)} (w : Write α ν) (hs : Srt L) :
    (ins w L).length = if ∃ l ∈ L, code l = code w then L.length else L.length + 1 := by
  induction L with
  | nil => simp [ins]
  | cons a r ih =>
    unfold Srt at hs
    rw [List.pairwise_cons] at hs
    obtain ⟨ha, hr⟩ := hs
    unfold ins
    by_cases h1 : lex (code a) (code w) < 0
    · rw [if_pos h1]
      have hne : code a ≠ code w := by intro e; rw [lex_zero.2 e] at h1; omega
      simp only [List.length_cons, ih hr, List.mem_cons, exists_eq_or_imp, hne, false_or]
      split <;> rfl
    · rw [if_neg h1]
      by_cases h2 : code a = code w
      · rw [if_pos h2, if_pos ⟨a, by simp, h2⟩]; rfl
      · rw [if_neg h2, if_neg]
        · rfl
        · rintro ⟨l, hl, e⟩
          have h3 : lex (code w) (code a) < 0 := by
            have := lex_symm (code a) (code w)
            have h4 : lex (code a) (code w) ≠ 0 := fun e => h2 (lex_zero.1 e)
            omega
          rcases List.mem_cons.1 hl with rfl | hl
          · exact h2 e
          · have := lex_trans h3 (ha l hl)
            rw [e, lex_self] at this; omega

theorem srt_build (ws : List (Write α ν)) : Srt (build ws) := by
  unfold build
  have : ∀ (ws : List (Write α ν)) (L : List (Write α ν)), Srt L → Srt (ws.foldl add L) := by
    intro ws
    induction ws with
    | nil => intro L h; exact h
    | cons w ws ih => intro L h; exact ih _ (srt_ins _ h)
  exact this ws [] List.Pairwise.nil

theorem build_snoc (ws : List (Write α ν)) (w : Write α ν) : build (ws ++ [w]) = add (build ws) w := by
  simp [build]

theorem length_build (ws : List (Write α ν)) : (build ws).length ≤ ws.length := by
  induction ws using List.reverseRecOn with
  | nil => simp [build]
  | append_singleton ws w ih =>
    rw [build_snoc]
    unfold add
    rw [length_ins _ (srt_build ws)]
    simp only [List.length_append, List.length_singleton]
    split <;> omega

/-! ### The write set represents the sorted list -/

/-- A node with the write that is its value: the key, if it has not been freed, has the same code. -/
def Good (b : Int) (Q : Int → Bool) (h : Nat → Option (Write α ν)) (e : (Nat × Nat) × Write α ν) : Prop :=
  h e.1.2 = some e.2 ∧ (Dom b Q e.2 ∧ OrdOk e.2) ∧ ∀ k, h e.1.1 = some k → code k = code e.2 ∧ Dom b Q k ∧ OrdOk k

def Apart (e f : (Nat × Nat) × Write α ν) : Prop :=
  e.1.1 ≠ f.1.1 ∧ e.1.1 ≠ f.1.2 ∧ e.1.2 ≠ f.1.1 ∧ e.1.2 ≠ f.1.2

structure RepP (b : Int) (Q : Int → Bool) (t : Txn α ν) (P : List ((Nat × Nat) × Write α ν)) : Prop where
  nodes : t.nodes = P.map (·.1)
  good : ∀ e ∈ P, Good b Q t.heap e
  apart : P.Pairwise Apart
  bound : ∀ e ∈ P, e.1.1 < t.nxt ∧ e.1.2 < t.nxt
  items : t.items = P.length

/-- The transaction `t` has the write set `L`. -/
def Rep (b : Int) (Q : Int → Bool) (t : Txn α ν) (L : List (Write α ν)) : Prop :=
  Srt L ∧ ∃ P, RepP b Q t P ∧ L = P.map (·.2)

theorem deref_ok {h : Nat → Option (Write α ν)} {p : Nat} {w : Write α ν} : deref h p = .ok w ↔ h p = some w := by
  unfold deref
  cases h p <;> simp

theorem bind_ok {β γ : Type} {x : Res β} {f : β → Res γ} {y : γ} (h : (x >>= f) = .ok y) :
    ∃ a, x = .ok a ∧ f a = .ok y := by
  cases x with
  | ok a => exact ⟨a, rfl, h⟩
  | raise e => cases h
  | ub => cases h
  | diverge => cases h

variable {b : Int} {Q : Int → Bool}

/-- The search in the write set. -/
theorem search_spec {h : Nat → Option (Write α ν)} {w : Write α ν} (hw : Dom b Q w) (ow : OrdOk w) :
    ∀ (P : List ((Nat × Nat) × Write α ν)) (x : Option ((Nat × Nat) × Write α ν)) (r : Option Nat),
    (∀ e ∈ P, Good b Q h e) → (∀ e, x = some e → Good b Q h e ∧ lex (code e.2) (code w) ≤ 0 ∧
      ∀ f ∈ P, lex (code e.2) (code f.2) < 0) → Srt (P.map (·.2)) →
    (walk h w (x.map (·.1)) (P.map (·.1)) >>= checkNode h w) = .ok r →
    (∀ p, r = some p → ∃ e, (x = some e ∨ e ∈ P) ∧ code e.2 = code w ∧ e.1.2 = p) ∧
    (r = none → ∀ e, (x = some e ∨ e ∈ P) → code e.2 ≠ code w)
  | [], x, r, _, hx, _, hr => by
    simp only [List.map_nil, walk, Res.ok_bind] at hr
    cases x with
    | none =>
      simp only [Option.map_none, checkNode] at hr
      cases hr
      exact ⟨fun p h => (by cases h), fun _ e h => (by simp at h)⟩
    | some e =>
      simp only [Option.map_some, checkNode] at hr
      obtain ⟨k, hk, hr⟩ := bind_ok hr
      rw [deref_ok] at hk
      obtain ⟨hg, -, -⟩ := hx e rfl
      obtain ⟨hc, hd, ho⟩ := hg.2.2 k hk
      rw [cmp_eq hw hd ow ho, hc] at hr
      by_cases h0 : lex (code w) (code e.2) = 0
      · rw [if_pos h0] at hr
        cases hr
        refine ⟨fun p hp => ?_, fun h => by cases h⟩
        cases hp
        exact ⟨e, .inl rfl, (lex_zero.1 h0).symm, rfl⟩
      · rw [if_neg h0] at hr
        cases hr
        refine ⟨fun p h => (by cases h), fun _ f hf => ?_⟩
        rcases hf with hf | hf
        · cases hf
          intro e'; exact h0 (lex_zero.2 e'.symm)
        · simp at hf
  | e :: P, x, r, hP, hx, hs, hr => by
    simp only [List.map_cons, walk] at hr
    unfold Srt at hs
    rw [List.map_cons, List.pairwise_cons] at hs
    obtain ⟨hs1, hs2⟩ := hs
    have hs1' : ∀ f ∈ P, lex (code e.2) (code f.2) < 0 := fun f hf => hs1 f.2 (List.mem_map_of_mem hf)
    have hge := hP e (by simp)
    cases hk : deref h e.1.1 with
    | raise e => rw [hk] at hr; cases hr
    | ub => rw [hk] at hr; cases hr
    | diverge => rw [hk] at hr; cases hr
    | ok k =>
    rw [hk, Res.ok_bind] at hr
    rw [deref_ok] at hk
    obtain ⟨hc, hd, ho⟩ := hge.2.2 k hk
    rw [cmp_eq hd hw ho ow, hc] at hr
    by_cases h0 : lex (code e.2) (code w) ≤ 0
    · rw [if_pos h0] at hr
      obtain ⟨i1, i2⟩ := search_spec hw ow P (some e) r (fun f hf => hP f (by simp [hf]))
        (fun f hf => by cases hf; exact ⟨hge, h0, hs1'⟩) hs2 hr
      refine ⟨fun p hp => ?_, fun hn f hf => ?_⟩
      · obtain ⟨f, hf, h1, h2⟩ := i1 p hp
        refine ⟨f, .inr ?_, h1, h2⟩
        rcases hf with hf | hf
        · cases hf; simp
        · simp [hf]
      · rcases hf with hf | hf
        · obtain ⟨-, h1, h2⟩ := hx f hf
          have h3 := h2 e (by simp)
          intro e'
          rw [e'] at h3
          have := lex_symm (code e.2) (code w)
          omega
        · rcases List.mem_cons.1 hf with rfl | hf
          · exact i2 hn f (.inl rfl)
          · exact i2 hn f (.inr hf)
    · rw [if_neg h0] at hr
      have hfree : ∀ f ∈ e :: P, code f.2 ≠ code w := by
        intro f hf
        rcases List.mem_cons.1 hf with rfl | hf
        · intro e'; rw [e', lex_self] at h0; omega
        · intro e'
          have := hs1' f hf
          rw [e'] at this
          omega
      have hx' : ∀ e, x = some e → Good b Q h e ∧ lex (code e.2) (code w) ≤ 0 ∧
          ∀ f ∈ ([] : List ((Nat × Nat) × Write α ν)), lex (code e.2) (code f.2) < 0 :=
        fun e he => ⟨(hx e he).1, (hx e he).2.1, fun f hf => by simp at hf⟩
      obtain ⟨i1, i2⟩ := search_spec hw ow [] x r (fun f hf => by simp at hf) hx' List.Pairwise.nil
        (by simpa only [List.map_nil, walk] using hr)
      refine ⟨fun p hp => ?_, fun hn f hf => ?_⟩
      · obtain ⟨f, hf, h1, h2⟩ := i1 p hp
        rcases hf with hf | hf
        · exact ⟨f, .inl hf, h1, h2⟩
        · simp at hf
      · rcases hf with hf | hf
        · exact i2 hn f (.inl hf)
        · exact hfree f hf
termination_by P => P.length

/-- `wsSearch` finds the write with the same code. -/
theorem wsSearch_spec {t : Txn α ν} {P : List ((Nat × Nat) × Write α ν)} (hr : RepP b Q t P) (hs : Srt (P.map (·.2)))
    {w : Write α ν} (hw : Dom b Q w) (ow : OrdOk w) {r : Option Nat} (h : wsSearch t.heap t.nodes w = .ok r) :
    (∀ p, r = some p → ∃ e ∈ P, code e.2 = code w ∧ e.1.2 = p) ∧ (r = none → ∀ e ∈ P, code e.2 ≠ code w) := by
  unfold wsSearch at h
  rw [hr.nodes] at h
  obtain ⟨i1, i2⟩ := search_spec hw ow P none r hr.good (fun e he => by cases he) hs h
  refine ⟨fun p hp => ?_, fun hn e he => i2 hn e (.inr he)⟩
  obtain ⟨e, he, h1, h2⟩ := i1 p hp
  rcases he with he | he
  · cases he
  · exact ⟨e, he, h1, h2⟩

/-- The insertion into the write set. -/
theorem insert_spec {h : Nat → Option (Write α ν)} {w : Write α ν} (hw : Dom b Q w) (ow : OrdOk w) (p : Nat) :
    ∀ (P : List ((Nat × Nat) × Write α ν)) (r : List (Nat × Nat) × Bool),
    (∀ e ∈ P, Good b Q h e) → P.Pairwise Apart → (∀ e ∈ P, e.1.1 ≠ p ∧ e.1.2 ≠ p) → Srt (P.map (·.2)) →
    wsInsert h w p (P.map (·.1)) = .ok r →
    ∃ P' : List ((Nat × Nat) × Write α ν), r.1 = P'.map (·.1) ∧ P'.map (·.2) = ins w (P.map (·.2)) ∧ P'.Pairwise Apart ∧
      (r.2 = true → P'.length = P.length + 1) ∧ (r.2 = false → P'.length = P.length) ∧
      ∀ e ∈ P', (e ∈ P ∧ code e.2 ≠ code w) ∨ e = ((p, p), w) ∨
        ∃ f ∈ P, code f.2 = code w ∧ e = ((f.1.1, p), w)
  | [], r, _, _, _, _, hr => by
    simp only [List.map_nil, wsInsert] at hr
    cases hr
    exact ⟨[((p, p), w)], rfl, rfl, by simp, fun _ => rfl, fun h => by simp at h, fun e he => by simp at he; simp [he]⟩
  | e :: P, r, hP, ha, hp, hs, hr => by
    simp only [List.map_cons, wsInsert] at hr
    unfold Srt at hs
    rw [List.map_cons, List.pairwise_cons] at hs
    obtain ⟨hs1, hs2⟩ := hs
    have hs1' : ∀ f ∈ P, lex (code e.2) (code f.2) < 0 := fun f hf => hs1 f.2 (List.mem_map_of_mem hf)
    rw [List.pairwise_cons] at ha
    obtain ⟨ha1, ha2⟩ := ha
    obtain ⟨k, hk, hr⟩ := bind_ok hr
    rw [deref_ok] at hk
    have hge := hP e (by simp)
    obtain ⟨hc, hd, ho⟩ := hge.2.2 k hk
    obtain ⟨hpe1, hpe2⟩ := hp e (by simp)
    rw [cmp_eq hd hw ho ow, cmp_eq hw hd ow ho, hc] at hr
    by_cases h1 : lex (code e.2) (code w) < 0
    · rw [if_pos h1] at hr
      have hne : code e.2 ≠ code w := by intro e'; rw [lex_zero.2 e'] at h1; omega
      obtain ⟨x, hx, hr⟩ := bind_ok hr
      cases hr
      obtain ⟨P', i1, i2, i3, i4, i5, i6⟩ := insert_spec hw ow p P x (fun f hf => hP f (by simp [hf])) ha2
        (fun f hf => hp f (by simp [hf])) hs2 hx
      refine ⟨e :: P', by simp [i1], ?_, List.pairwise_cons.2 ⟨?_, i3⟩, ?_, ?_, ?_⟩
      · simp only [List.map_cons, ins, i2]; rw [if_pos h1]
      · intro f hf
        rcases i6 f hf with ⟨h2, _⟩ | rfl | ⟨g, hg, _, rfl⟩
        · exact ha1 f h2
        · exact ⟨hpe1, hpe1, hpe2, hpe2⟩
        · have := ha1 g hg
          exact ⟨this.1, hpe1, this.2.2.1, hpe2⟩
      · intro h2; simp [i4 h2]
      · intro h2; simp [i5 h2]
      · intro f hf
        rcases List.mem_cons.1 hf with rfl | hf
        · exact .inl ⟨by simp, hne⟩
        · rcases i6 f hf with ⟨h2, h3⟩ | h2 | ⟨g, hg, h2, h3⟩
          · exact .inl ⟨by simp [h2], h3⟩
          · exact .inr (.inl h2)
          · exact .inr (.inr ⟨g, by simp [hg], h2, h3⟩)
    · rw [if_neg h1] at hr
      by_cases h2 : code e.2 = code w
      · have h3 : lex (code w) (code e.2) = 0 := lex_zero.2 h2.symm
        rw [if_pos h3] at hr
        cases hr
        refine ⟨((e.1.1, p), w) :: P, rfl, ?_, List.pairwise_cons.2 ⟨?_, ha2⟩, fun h => by simp at h, fun _ => rfl, ?_⟩
        · simp only [List.map_cons, ins]; rw [if_neg h1, if_pos h2]
        · intro f hf
          have := ha1 f hf
          obtain ⟨hf1, hf2⟩ := hp f (by simp [hf])
          exact ⟨this.1, this.2.1, fun e => hf1 e.symm, fun e => hf2 e.symm⟩
        · intro f hf
          rcases List.mem_cons.1 hf with rfl | hf
          · exact .inr (.inr ⟨e, by simp, h2, rfl⟩)
          · refine .inl ⟨by simp [hf], ?_⟩
            have := hs1' f hf
            rw [h2] at this
            intro e'; rw [e', lex_self] at this; omega
      · have h3 : lex (code w) (code e.2) ≠ 0 := fun e' => h2 (lex_zero.1 e').symm
        have h4 : lex (code w) (code e.2) < 0 := by
          have := lex_symm (code e.2) (code w); omega
        rw [if_neg h3] at hr
        cases hr
        refine ⟨((p, p), w) :: e :: P, rfl, ?_, List.pairwise_cons.2 ⟨?_, List.pairwise_cons.2 ⟨ha1, ha2⟩⟩,
          fun _ => rfl, fun h => by simp at h, ?_⟩
        · simp only [List.map_cons, ins]; rw [if_neg h1, if_neg h2]
        · intro f hf
          obtain ⟨hf1, hf2⟩ := hp f hf
          exact ⟨fun e => hf1 e.symm, fun e => hf2 e.symm, fun e => hf1 e.symm, fun e => hf2 e.symm⟩
        · intro f hf
          rcases List.mem_cons.1 hf with rfl | hf
          · exact .inr (.inl rfl)
          · refine .inl ⟨hf, ?_⟩
            rcases List.mem_cons.1 hf with rfl | hf
            · exact h2
            · have := lex_trans h4 (hs1' f hf)
              intro e'; rw [e', lex_self] at this; omega

theorem apart_of {P : List ((Nat × Nat) × Write α ν)} (h : P.Pairwise Apart) {e f : (Nat × Nat) × Write α ν}
    (he : e ∈ P) (hf : f ∈ P) (hn : e ≠ f) : Apart e f := by
  induction P with
  | nil => simp at he
  | cons a P ih =>
    rw [List.pairwise_cons] at h
    rcases List.mem_cons.1 he with e1 | he <;> rcases List.mem_cons.1 hf with e2 | hf
    · exact absurd (e1.trans e2.symm) hn
    · rw [e1]; exact h.1 f hf
    · have := h.1 e he
      rw [e2]
      exact ⟨fun x => this.1 x.symm, fun x => this.2.2.1 x.symm, fun x => this.2.1 x.symm, fun x => this.2.2.2 x.symm⟩
    · exact ih h.2 he hf

/-- Adding a write. -/
theorem addWrite_spec {t t' : Txn α ν} {L : List (Write α ν)} (hr : Rep b Q t L) {w : Write α ν} (hw : Dom b Q w)
    (hl : L.length < 2 ^ 31) (h : addWrite t w = .ok t') :
    Rep b Q t' (add L w) ∧ t'.validated = t.validated := by
  obtain ⟨hs, P, hP, rfl⟩ := hr
  unfold addWrite at h
  simp only at h
  obtain ⟨prev, hprev, h⟩ := bind_ok h
  obtain ⟨x, hx, h⟩ := bind_ok h
  cases h
  have hlen : t.items = ((P.map (·.2)).length : Int) := by rw [hP.items]; simp
  generalize hw' : ({ w with order := t.items } : Write α ν) = w' at *
  have dw : Dom b Q w' := by subst hw'; exact ⟨hw.table, hw.keys, hw.queue, hw.app, hw.shard, hw.consumer, hw.sep⟩
  have ow : OrdOk w' := by
    subst hw'
    show InW 0 t.items
    unfold InW; rw [hlen]; omega
  have hh : ∀ q, q ≠ t.nxt → setF t.heap t.nxt (some w') q = t.heap q := by
    intro q hq; simp [setF, hq]
  have hgood : ∀ e ∈ P, Good b Q (setF t.heap t.nxt (some w')) e := by
    intro e he
    obtain ⟨b1, b2⟩ := hP.bound e he
    obtain ⟨g1, g2, g3⟩ := hP.good e he
    refine ⟨?_, g2, ?_⟩
    · rw [hh _ (by omega)]; exact g1
    · rw [hh _ (by omega)]; exact g3
  have hrep' : RepP b Q ⟨setF t.heap t.nxt (some w'), t.nxt, t.nodes, t.items, t.validated, t.ver⟩ P :=
    ⟨hP.nodes, hgood, hP.apart, hP.bound, hP.items⟩
  rw [hP.nodes] at hx
  obtain ⟨P', i1, i2, i3, i4, i5, i6⟩ := insert_spec dw ow t.nxt P x hgood hP.apart
    (fun e he => by have := hP.bound e he; omega) hs hx
  have hprev' : ∀ p, prev = some p → ∃ e ∈ P, code e.2 = code w' ∧ e.1.2 = p := by
    unfold prevWrite at hprev
    by_cases hk : w'.kind.replaces = true
    · rw [if_pos hk] at hprev
      exact (wsSearch_spec hrep' hs dw ow hprev).1
    · rw [if_neg hk] at hprev
      cases hprev
      intro p hp; cases hp
  have hfree : ∀ q, (∀ p, prev = some p → q ≠ p) →
      freeWrite (setF t.heap t.nxt (some w')) prev q = setF t.heap t.nxt (some w') q := by
    intro q hq
    cases prev with
    | none => rfl
    | some p => simp [freeWrite, setF, hq p rfl]
  have hfree2 : ∀ q k, freeWrite (setF t.heap t.nxt (some w')) prev q = some k →
      setF t.heap t.nxt (some w') q = some k := by
    intro q k hq
    cases prev with
    | none => exact hq
    | some p =>
      simp only [freeWrite] at hq
      unfold setF at hq
      split at hq
      · cases hq
      · exact hq
  refine ⟨⟨?_, P', ⟨i1, ?_, i3, ?_, ?_⟩, ?_⟩, rfl⟩
  · unfold add; exact srt_ins _ hs
  · intro e he
    rcases i6 e he with ⟨h1, h2⟩ | rfl | ⟨f, hf, h1, rfl⟩
    · obtain ⟨g1, g2, g3⟩ := hgood e h1
      refine ⟨?_, g2, fun k hk => g3 k (hfree2 _ _ hk)⟩
      show freeWrite _ prev _ = some _
      rw [hfree _ ?_]
      · exact g1
      · intro p hp
        obtain ⟨g, hg, h3, rfl⟩ := hprev' p hp
        exact (apart_of hP.apart h1 hg (by rintro rfl; exact h2 h3)).2.2.2
    · refine ⟨?_, ⟨dw, ow⟩, fun k hk => ?_⟩
      · show freeWrite _ prev t.nxt = some w'
        rw [hfree _ ?_]
        · simp [setF]
        · intro p hp
          obtain ⟨g, hg, h3, rfl⟩ := hprev' p hp
          have := hP.bound g hg; omega
      · have := hfree2 _ _ hk
        simp only [setF, if_true] at this
        cases this
        exact ⟨rfl, dw, ow⟩
    · refine ⟨?_, ⟨dw, ow⟩, fun k hk => ?_⟩
      · show freeWrite _ prev t.nxt = some w'
        rw [hfree _ ?_]
        · simp [setF]
        · intro p hp
          obtain ⟨g, hg, h3, rfl⟩ := hprev' p hp
          have := hP.bound g hg; omega
      · have := (hgood f hf).2.2 k (hfree2 _ _ hk)
        exact ⟨this.1.trans h1, this.2⟩
  · intro e he
    show _ < t.nxt + 1 ∧ _ < t.nxt + 1
    rcases i6 e he with ⟨h1, _⟩ | rfl | ⟨f, hf, _, rfl⟩
    · have := hP.bound e h1; omega
    · simp
    · have := hP.bound f hf; simp only; omega
  · show (if x.2 then t.items + 1 else t.items) = _
    cases hx2 : x.2 with
    | true => rw [i4 hx2]; simp [hP.items]
    | false => rw [i5 hx2]; simp [hP.items]
  · rw [i2]; unfold add; rw [← hw', hlen]

theorem rep_new (v : Bool) (x : Option ν) : Rep b Q ⟨fun _ => none, 0, [], 0, v, x⟩ ([] : List (Write α ν)) :=
  ⟨List.Pairwise.nil, [], ⟨rfl, by simp, List.Pairwise.nil, by simp, rfl⟩, rfl⟩

end Verif.Txn
