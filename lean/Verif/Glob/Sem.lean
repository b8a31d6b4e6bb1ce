import Verif.Glob.Lemmas
/-!
# What the recursion of `fs.glob` decides
-/
namespace Verif.Glob
open Verif

/-- `**` with a separator matches anything, in the code. -/
def T : Text → Prop := fun _ => True

theorem app_ne (pre t : Text) (c : Nat) : ¬ pre.length = (pre ++ c :: t).length := by
  rw [List.length_append, List.length_cons]; omega

theorem app_lt (pre t : Text) (c : Nat) : pre.length + 1 < (pre ++ c :: t).length ↔ t ≠ [] := by
  cases t <;> simp

theorem twoStars_eq (pre t : Text) (c : Nat) : twoStars (pre ++ c :: t) pre.length = true ↔ c = 42 ∧ t.head? = some 42 := by
  unfold twoStars
  cases t with
  | nil => simp
  | cons d t =>
    have e : ((pre ++ c :: d :: t).take (pre.length + 2)).drop pre.length = [c, d] := by
      rw [List.take_append, List.drop_append]; simp
    rw [e]
    simp

theorem body_cons (call : Call) (sep pre t path : Text) (c s : Nat) : body call sep (pre ++ c :: t) pre.length path s =
    if t ≠ [] ∧ c = 92 then escaped call (pre ++ c :: t) pre.length path s
    else if c = 42 ∧ t.head? = some 42 then dstar call sep (pre ++ c :: t) pre.length path s
    else if c = 42 then star call sep (pre ++ c :: t) pre.length path s
    else if c = 63 then (if s < path.length then call (pre ++ c :: t) (pre.length + 1) (s + 1) else .ok false)
    else if c = 91 ∧ t ≠ [] then bracket call (pre ++ c :: t) pre.length path s
    else if c = 123 ∧ t ≠ [] then brace call (pre ++ c :: t) pre.length path s
    else literal call (pre ++ c :: t) pre.length path s := by
  unfold body
  rw [if_neg (app_ne pre t c), at_app, Res.ok_bind]
  simp only [app_lt, twoStars_eq]
  rfl

theorem path_cases (path : Text) (s : Nat) : (path.drop s = [] ∧ ¬ s < path.length) ∨
    ∃ d r, path.drop s = d :: r ∧ s < path.length ∧ path.drop (s + 1) = r ∧ path.take (s + 1) = path.take s ++ [d] := by
  by_cases h : s < path.length
  · refine Or.inr ⟨path[s], path.drop (s + 1), List.drop_eq_getElem_cons h, h, rfl, ?_⟩
    rw [List.take_add_one, List.getElem?_eq_getElem h]; rfl
  · exact Or.inl ⟨List.drop_eq_nil_iff.2 (by omega), h⟩

theorem literal_nil (call : Call) (pat path : Text) (p s : Nat) (h : ¬ s < path.length) : literal call pat p path s = .ok false := by
  unfold literal; rw [if_neg h]; rfl

theorem literal_cons (call : Call) (pre t path r : Text) (c d s : Nat) (h : s < path.length) (hd : path.drop s = d :: r) :
    literal call (pre ++ c :: t) pre.length path s = if c = d then call (pre ++ c :: t) (pre.length + 1) (s + 1) else .ok false := by
  unfold literal
  rw [if_pos h, at_app, Res.ok_bind, at_drop hd, Res.ok_bind]
  rfl

theorem escaped_nil (call : Call) (pat path : Text) (p s : Nat) (h : ¬ s < path.length) : escaped call pat p path s = .ok false := by
  unfold escaped; rw [if_neg h]; rfl

theorem escaped_cons (call : Call) (pre t path r : Text) (x c d s : Nat) (h : s < path.length) (hd : path.drop s = d :: r) :
    escaped call (pre ++ x :: c :: t) pre.length path s =
    if c = d then call (pre ++ x :: c :: t) (pre.length + 2) (s + 1) else .ok false := by
  have e : at_ (pre ++ x :: c :: t) (pre.length + 1) = .ok c := by
    have := at_app (pre ++ [x]) t c; simpa using this
  unfold escaped
  rw [if_pos h, e, Res.ok_bind, at_drop hd, Res.ok_bind]
  rfl

theorem orElse_true {a : Res Bool} {b : Unit → Res Bool} (h : orElse a b = .ok true) :
    a = .ok true ∨ a = .ok false ∧ b () = .ok true := by
  unfold orElse at h
  cases a with
  | ok x => cases x with
    | true => exact Or.inl rfl
    | false => exact Or.inr ⟨rfl, h⟩
  | raise e => exact absurd h (by simp)
  | ub => exact absurd h (by simp)
  | diverge => exact absurd h (by simp)

theorem orElse_false {a : Res Bool} {b : Unit → Res Bool} (h : orElse a b = .ok false) : a = .ok false ∧ b () = .ok false := by
  unfold orElse at h
  cases a with
  | ok x => cases x with
    | true => exact absurd h (by simp)
    | false => exact ⟨rfl, h⟩
  | raise e => exact absurd h (by simp)
  | ub => exact absurd h (by simp)
  | diverge => exact absurd h (by simp)

theorem dirsLoop_true {call : Call} {pat : Text} {next : Nat} {l : List Nat} (h : dirsLoop call pat next l = .ok true) :
    ∃ i ∈ l, call pat next i = .ok true := by
  induction l with
  | nil => exact absurd h (by simp [dirsLoop])
  | cons i l ih =>
    rcases orElse_true (a := call pat next i) (b := fun _ => dirsLoop call pat next l) h with h | ⟨-, h⟩
    · exact ⟨i, by simp, h⟩
    · obtain ⟨j, hj, e⟩ := ih h
      exact ⟨j, List.mem_cons_of_mem _ hj, e⟩

theorem dirsLoop_false {call : Call} {pat : Text} {next : Nat} {l : List Nat} (h : dirsLoop call pat next l = .ok false) :
    ∀ i ∈ l, call pat next i = .ok false := by
  induction l with
  | nil => intro i hi; simp at hi
  | cons i l ih =>
    obtain ⟨h1, h2⟩ := orElse_false (a := call pat next i) (b := fun _ => dirsLoop call pat next l) h
    intro j hj
    rcases List.mem_cons.1 hj with rfl | hj
    · exact h1
    · exact ih h2 j hj

theorem optLoop_true {call : Call} {pat : Text} {p close : Nat} {l : List Text} (h : optLoop call pat p close l = .ok true) :
    ∃ o ∈ l, call (pat.take p ++ o ++ pat.drop (close + 1)) 0 0 = .ok true := by
  induction l with
  | nil => exact absurd h (by simp [optLoop])
  | cons i l ih =>
    rcases orElse_true (a := call (pat.take p ++ i ++ pat.drop (close + 1)) 0 0) (b := fun _ => optLoop call pat p close l) h
      with h | ⟨-, h⟩
    · exact ⟨i, by simp, h⟩
    · obtain ⟨j, hj, e⟩ := ih h
      exact ⟨j, List.mem_cons_of_mem _ hj, e⟩

theorem optLoop_false {call : Call} {pat : Text} {p close : Nat} {l : List Text} (h : optLoop call pat p close l = .ok false) :
    ∀ o ∈ l, call (pat.take p ++ o ++ pat.drop (close + 1)) 0 0 = .ok false := by
  induction l with
  | nil => intro i hi; simp at hi
  | cons i l ih =>
    obtain ⟨h1, h2⟩ := orElse_false (a := call (pat.take p ++ i ++ pat.drop (close + 1)) 0 0)
      (b := fun _ => optLoop call pat p close l) h
    intro j hj
    rcases List.mem_cons.1 hj with rfl | hj
    · exact h1
    · exact ih h2 j hj

/-- A star may have matched something already. -/
def Gap (sep : Nat) (ts : List Tok) (u : Text) : Prop :=
  u = [] ∨ (∃ ts', ts = .star :: ts' ∧ sep ∉ u) ∨ ∃ ts', ts = .dstar :: ts'

/-- The claim about calls of depth `n`: if it says yes, the path matches; if it says no, the rest does not. -/
def Good (sep : Nat) (path : Text) (n : Nat) : Prop :=
  ∀ (pre : Text) (pts : List Tok) (rest : Text) (ts : List Tok) (prev : Prev) (s : Nat) (b : Bool), s ≤ path.length →
    (∀ rest' ts', (∀ x ∈ rest', x ∈ rest) → Reads true sep prev rest' ts' → Reads true sep .other (pre ++ rest') (pts ++ ts')) →
    Reads true sep prev rest ts →
    (∃ s0, s0 ≤ s ∧ Match T sep pts (path.take s0) ∧ Gap sep ts ((path.take s).drop s0)) →
    rec_ [sep] path n (pre ++ rest) pre.length s = .ok b →
    (b = true → Match T sep (pts ++ ts) path) ∧ (b = false → ¬ Match T sep ts (path.drop s))

theorem adv {sep n : Nat} {path : Text} (g : Good sep path n) {pre pts x t} {prev prev' : Prev} {k : Tok} {ts : List Tok}
    {s : Nat} {b : Bool} (hs : s ≤ path.length)
    (H : ∀ rest' ts', (∀ y ∈ rest', y ∈ x ++ t) → Reads true sep prev rest' ts' →
      Reads true sep .other (pre ++ rest') (pts ++ ts'))
    (hk : ∀ rest' ts', (∀ y ∈ rest', y ∈ t) → Reads true sep prev' rest' ts' → Reads true sep prev (x ++ rest') (k :: ts'))
    (hR : Reads true sep prev' t ts) (hM : Match T sep (pts ++ [k]) (path.take s))
    (h : rec_ [sep] path n (pre ++ (x ++ t)) (pre.length + x.length) s = .ok b) :
    (b = true → Match T sep (pts ++ k :: ts) path) ∧ (b = false → ¬ Match T sep ts (path.drop s)) := by
  have := g (pre ++ x) (pts ++ [k]) t ts prev' s b hs ?_ hR ⟨s, Nat.le_refl _, hM, Or.inl ?_⟩ ?_
  · simpa using this
  · intro rest' ts' hx hr
    have := H (x ++ rest') (k :: ts') ?_ (hk rest' ts' hx hr)
    · simpa using this
    · intro y hy
      rcases List.mem_append.1 hy with hy | hy
      · exact List.mem_append_left _ hy
      · exact List.mem_append_right _ (hx y hy)
  · rw [List.drop_eq_nil_iff, List.length_take]; omega
  · simpa using h

/-- One character for one token. -/
theorem adv1 {sep n : Nat} {path r : Text} (g : Good sep path n) {pre pts x t} {prev : Prev} {k : Tok} {ts : List Tok}
    {s d : Nat} {b : Bool} (hs : s < path.length) (hr : path.drop (s + 1) = r) (ht : path.take (s + 1) = path.take s ++ [d])
    (H : ∀ rest' ts', (∀ y ∈ rest', y ∈ x ++ t) → Reads true sep prev rest' ts' →
      Reads true sep .other (pre ++ rest') (pts ++ ts'))
    (hk : ∀ rest' ts', (∀ y ∈ rest', y ∈ t) → Reads true sep .other rest' ts' → Reads true sep prev (x ++ rest') (k :: ts'))
    (hR : Reads true sep .other t ts) (hM : Match T sep pts (path.take s)) (hd : Match T sep [k] [d])
    (h : rec_ [sep] path n (pre ++ (x ++ t)) (pre.length + x.length) (s + 1) = .ok b) :
    (b = true → Match T sep (pts ++ k :: ts) path) ∧ (b = false → ¬ Match T sep ts r) := by
  have := adv g (by omega) H hk hR (s := s + 1) (by rw [ht]; exact hM.append hd) h
  rwa [hr] at this

theorem gap_none {sep : Nat} {ts : List Tok} {path : Text} {s s0 : Nat} (hs : s ≤ path.length) (h0 : s0 ≤ s)
    (h1 : ∀ ts', ts ≠ .star :: ts') (h2 : ∀ ts', ts ≠ .dstar :: ts') (h : Gap sep ts ((path.take s).drop s0)) : s0 = s := by
  rcases h with h | ⟨ts', e, -⟩ | ⟨ts', e⟩
  · rw [List.drop_eq_nil_iff, List.length_take] at h
    omega
  · exact absurd e (h1 ts')
  · exact absurd e (h2 ts')

theorem match_lit {D : Text → Prop} {sep c : Nat} {ts : List Tok} {d : Nat} {r : Text} :
    Match D sep (.lit c :: ts) (d :: r) ↔ c = d ∧ Match D sep ts r := by
  constructor
  · intro h; cases h; exact ⟨rfl, by assumption⟩
  · rintro ⟨rfl, h⟩; exact .lit _ _ _ h

theorem match_any {D : Text → Prop} {sep : Nat} {ts : List Tok} {d : Nat} {r : Text} :
    Match D sep (.any :: ts) (d :: r) ↔ Match D sep ts r := by
  constructor
  · intro h; cases h; assumption
  · intro h; exact .any _ _ _ h

theorem match_cls {D : Text → Prop} {sep : Nat} {neg : Bool} {is : List Item} {ts : List Tok} {d : Nat} {r : Text} :
    Match D sep (.cls neg is :: ts) (d :: r) ↔ ((∃ i ∈ is, i.Has d) ↔ neg = false) ∧ Match D sep ts r := by
  constructor
  · intro h; cases h; exact ⟨by assumption, by assumption⟩
  · rintro ⟨hc, h⟩; exact .cls _ _ _ _ _ hc h

theorem match_lit_nil {D : Text → Prop} {sep c : Nat} {ts : List Tok} : ¬ Match D sep (.lit c :: ts) [] := by
  intro h; cases h
theorem match_any_nil {D : Text → Prop} {sep : Nat} {ts : List Tok} : ¬ Match D sep (.any :: ts) [] := by
  intro h; cases h
theorem match_cls_nil {D : Text → Prop} {sep : Nat} {neg : Bool} {is : List Item} {ts : List Tok} :
    ¬ Match D sep (.cls neg is :: ts) [] := by
  intro h; cases h

theorem match_star {D : Text → Prop} {sep : Nat} {ts : List Tok} {w : Text} (h : Match D sep (.star :: ts) w) :
    ∃ u v, w = u ++ v ∧ sep ∉ u ∧ Match D sep ts v := by
  cases h with
  | star u _ v hu h => exact ⟨u, v, rfl, hu, h⟩

theorem match_dstar {D : Text → Prop} {sep : Nat} {ts : List Tok} {w : Text} (h : Match D sep (.dstar :: ts) w) :
    ∃ u v, w = u ++ v ∧ Match D sep ts v := by
  cases h with
  | dstar u _ v h => exact ⟨u, v, rfl, h⟩

theorem match_dirs {D : Text → Prop} {sep : Nat} {ts : List Tok} {w : Text} (h : Match D sep (.dirs :: ts) w) :
    ∃ u v, w = u ++ v ∧ D u ∧ Match D sep ts v := by
  cases h with
  | dirs u _ v hu h => exact ⟨u, v, rfl, hu, h⟩

theorem match_alt {D : Text → Prop} {sep : Nat} {os : List (List Tok)} {ts : List Tok} {w : Text} (h : Match D sep (.alt os :: ts) w) :
    ∃ q ∈ os, Match D sep (q ++ ts) w := by
  cases h with
  | alt _ q _ _ hq h => exact ⟨q, hq, h⟩

/-- A literal character of the pattern (plain, or an opening bracket without its end). -/
theorem lit_case {sep n : Nat} {path : Text} (g : Good sep path n) {pre pts t} {prev : Prev} {c : Nat} {ts : List Tok}
    {s : Nat} {b : Bool}
    (H : ∀ rest' ts', (∀ y ∈ rest', y ∈ c :: t) → Reads true sep prev rest' ts' →
      Reads true sep .other (pre ++ rest') (pts ++ ts'))
    (hk : ∀ rest' ts', (∀ y ∈ rest', y ∈ t) → Reads true sep .other rest' ts' → Reads true sep prev (c :: rest') (.lit c :: ts'))
    (hR : Reads true sep .other t ts) (hM : Match T sep pts (path.take s))
    (h : literal (rec_ [sep] path n) (pre ++ c :: t) pre.length path s = .ok b) :
    (b = true → Match T sep (pts ++ .lit c :: ts) path) ∧ (b = false → ¬ Match T sep (.lit c :: ts) (path.drop s)) := by
  rcases path_cases path s with ⟨h1, h2⟩ | ⟨d, r, h1, h2, h3, h4⟩
  · rw [literal_nil _ _ _ _ _ h2] at h
    cases h
    exact ⟨fun h => absurd h (by decide), fun _ => by rw [h1]; exact match_lit_nil⟩
  · rw [literal_cons _ _ _ _ _ _ _ _ h2 h1] at h
    by_cases hc : c = d
    · rw [if_pos hc] at h
      obtain ⟨a1, a2⟩ := adv1 g (x := [c]) (k := .lit c) h2 h3 h4 H hk hR hM (hc ▸ .lit _ _ _ .nil) h
      exact ⟨a1, fun hb => by rw [h1, match_lit]; exact fun h => a2 hb h.2⟩
    · rw [if_neg hc] at h
      cases h
      exact ⟨fun h => absurd h (by decide), fun _ => by rw [h1, match_lit]; exact fun h => hc h.1⟩

theorem take_app (a b : Text) : (a ++ b).take a.length = a := by simp

theorem gap_take {path : Text} {s s0 : Nat} (h0 : s0 ≤ s) : path.take s = path.take s0 ++ (path.take s).drop s0 := by
  have : path.take s0 = (path.take s).take s0 := by rw [List.take_take, Nat.min_eq_left h0]
  rw [this, List.take_append_drop]

theorem fits_of {safe : Bool} {sep : Nat} {b : Prev} {t : Text} {ts : List Tok} (h : Reads safe sep b t ts) : Fits sep b t := by
  cases h
  case nil => cases b <;> simp [Fits]
  all_goals assumption

/-- What the recursion decides. -/
theorem good (sep : Nat) (path : Text) : ∀ n, Good sep path n := by
  intro n
  induction n with
  | zero => intro pre pts rest ts prev s b _ _ _ _ h; exact absurd h (by simp [rec_])
  | succ n g =>
    intro pre pts rest ts prev s b hs H hR hG h
    obtain ⟨s0, hs0, hM, hG⟩ := hG
    change body (rec_ [sep] path n) [sep] (pre ++ rest) pre.length path s = .ok b at h
    cases hR with
    | nil =>
      have := gap_none hs hs0 (by simp) (by simp) hG
      subst this
      rw [List.append_nil, body, if_pos rfl] at h
      cases h
      constructor
      · intro hb
        rw [decide_eq_true_iff] at hb
        rw [List.append_nil]
        rwa [hb, List.take_length] at hM
      · intro hb
        rw [decide_eq_false_iff_not] at hb
        intro hm
        generalize hd : path.drop s0 = w at hm
        cases hm
        rw [List.drop_eq_nil_iff] at hd
        omega
    | esc _ c t ts hf hR =>
      have := gap_none hs hs0 (by simp) (by simp) hG
      subst this
      rw [body_cons, if_pos ⟨by simp, rfl⟩] at h
      rcases path_cases path s0 with ⟨h1, h2⟩ | ⟨d, r, h1, h2, h3, h4⟩
      · rw [escaped_nil _ _ _ _ _ h2] at h
        cases h
        exact ⟨fun h => absurd h (by decide), fun _ => by rw [h1]; exact match_lit_nil⟩
      · rw [escaped_cons _ _ _ _ _ _ _ _ _ h2 h1] at h
        by_cases hc : c = d
        · rw [if_pos hc] at h
          have hk : ∀ rest' ts', (∀ y ∈ rest', y ∈ t) → Reads true sep .other rest' ts' →
              Reads true sep prev ([92, c] ++ rest') (.lit c :: ts') := by
            intro rest' ts' _ hr
            refine .esc _ c rest' ts' ?_ hr
            cases prev <;> simpa [Fits] using hf
          obtain ⟨a1, a2⟩ := adv1 g (x := [92, c]) (k := .lit c) h2 h3 h4 H hk hR hM (hc ▸ .lit _ _ _ .nil) h
          exact ⟨a1, fun hb => by rw [h1, match_lit]; exact fun h => a2 hb h.2⟩
        · rw [if_neg hc] at h
          cases h
          exact ⟨fun h => absurd h (by decide), fun _ => by rw [h1, match_lit]; exact fun h => hc h.1⟩
    | escEnd _ hf =>
      have := gap_none hs hs0 (by simp) (by simp) hG
      subst this
      rw [body_cons, if_neg (by simp), if_neg (by simp), if_neg (by simp), if_neg (by simp), if_neg (by simp), if_neg (by simp)] at h
      refine lit_case g H ?_ (.nil _) hM h
      intro rest' ts' hx hr
      have e : rest' = [] := by
        cases rest' with
        | nil => rfl
        | cons y l => exact absurd (hx y (by simp)) (by simp)
      subst e
      cases hr
      exact .escEnd _ hf
    | star _ t ts hf hR =>
      have hne : t.head? ≠ some 42 := fits_of hR
      rw [body_cons, if_neg (by simp), if_neg (fun e => hne e.2), if_pos rfl] at h
      have hgap : sep ∉ (path.take s).drop s0 := by
        rcases hG with hG | ⟨ts', -, hG⟩ | ⟨ts', e⟩
        · rw [hG]; simp
        · exact hG
        · exact absurd e (by simp)
      have hM' : Match T sep (pts ++ [.star]) (path.take s) := by
        rw [gap_take hs0]
        refine hM.append ?_
        have := Match.star (D := T) (sep := sep) _ [] [] hgap .nil
        simpa using this
      have hk : ∀ rest' ts', (∀ y ∈ rest', y ∈ t) → Reads true sep .star rest' ts' →
          Reads true sep prev ([42] ++ rest') (.star :: ts') := by
        intro rest' ts' _ hr
        refine .star _ rest' ts' ?_ hr
        cases prev <;> simpa [Fits] using hf
      have ha := fun b h => adv g (x := [42]) (k := .star) (b := b) hs H hk hR hM' h
      unfold star at h
      cases b with
      | true =>
        refine ⟨fun _ => ?_, fun h => absurd h (by decide)⟩
        rcases orElse_true h with h | ⟨-, h⟩
        · exact (ha true h).1 rfl
        · by_cases hc : s < path.length ∧ (s : Int) < nextSep [sep] path s
          · simp only [if_pos hc] at h
            rcases path_cases path s with ⟨-, h2⟩ | ⟨d, r, h1, h2, h3, h4⟩
            · exact absurd hc.1 h2
            · have hd := (nextSep_gt path r s d sep h1).1 hc.2
              refine (g pre pts (42 :: t) (.star :: ts) prev (s + 1) true (by omega) H (.star _ t ts hf hR)
                ⟨s0, by omega, hM, Or.inr (Or.inl ⟨ts, rfl, ?_⟩)⟩ h).1 rfl
              rw [h4, List.drop_append]
              intro hx
              rcases List.mem_append.1 hx with hx | hx
              · exact hgap hx
              · have := List.mem_of_mem_drop hx
                simp at this
                exact hd this.symm
          · simp only [if_neg hc] at h
            exact absurd h (by simp)
      | false =>
        refine ⟨fun h => absurd h (by decide), fun _ hm => ?_⟩
        obtain ⟨e1, e2⟩ := orElse_false h
        obtain ⟨u, v, hw, hu, hv⟩ := match_star hm
        cases u with
        | nil =>
          rw [List.nil_append] at hw
          exact (ha false e1).2 rfl (hw ▸ hv)
        | cons d u =>
          have hd : d ≠ sep := fun e => hu (by simp [e])
          rcases path_cases path s with ⟨h1, -⟩ | ⟨d', r, h1, h2, h3, h4⟩
          · rw [h1] at hw; exact absurd hw (by simp)
          · rw [h1, List.cons_append, List.cons_eq_cons] at hw
            obtain ⟨rfl, hw⟩ := hw
            have hc : s < path.length ∧ (s : Int) < nextSep [sep] path s := ⟨h2, (nextSep_gt path r s d' sep h1).2 hd⟩
            simp only [if_pos hc] at e2
            refine (g pre pts (42 :: t) (.star :: ts) prev (s + 1) false (by omega) H (.star _ t ts hf hR)
                ⟨s0, by omega, hM, Or.inr (Or.inl ⟨ts, rfl, ?_⟩)⟩ e2).2 rfl ?_
            · rw [h4, List.drop_append]
              intro hx
              rcases List.mem_append.1 hx with hx | hx
              · exact hgap hx
              · have := List.mem_of_mem_drop hx
                simp at this
                exact hd this.symm
            · rw [h3, hw]
              exact .star _ _ _ (fun hx => hu (List.mem_cons_of_mem _ hx)) hv
    | dstar _ t ts hf hR =>
      have hne : t.head? ≠ some sep := fits_of hR
      rw [body_cons, if_neg (by simp), if_pos ⟨rfl, rfl⟩] at h
      have hi : isAt (pre ++ 42 :: 42 :: t) (pre.length + 2) [sep] = .ok false := by
        unfold isAt
        cases t with
        | nil => rw [if_neg (by simp)]
        | cons x t =>
          have e : at_ (pre ++ 42 :: 42 :: x :: t) (pre.length + 2) = .ok x := by
            have := at_app (pre ++ [42, 42]) t x; simpa using this
          rw [if_pos (by simp), e]
          have : x ≠ sep := fun hx => hne (by simp [hx])
          simp [Res.bind, this]
      unfold dstar at h
      rw [hi, Res.ok_bind, if_neg (by simp)] at h
      have hM' : Match T sep (pts ++ [.dstar]) (path.take s) := by
        rw [gap_take hs0]
        refine hM.append ?_
        have := Match.dstar (D := T) (sep := sep) ((path.take s).drop s0) [] [] .nil
        simpa using this
      have hk : ∀ rest' ts', (∀ y ∈ rest', y ∈ t) → Reads true sep .dstar rest' ts' →
          Reads true sep prev ([42, 42] ++ rest') (.dstar :: ts') := by
        intro rest' ts' _ hr
        refine .dstar _ rest' ts' ?_ hr
        cases prev <;> simpa [Fits] using hf
      have ha := fun b h => adv g (x := [42, 42]) (k := .dstar) (b := b) hs H hk hR hM' h
      cases b with
      | true =>
        refine ⟨fun _ => ?_, fun h => absurd h (by decide)⟩
        rcases orElse_true h with h | ⟨-, h⟩
        · exact (ha true h).1 rfl
        · by_cases hc : s < path.length
          · simp only [if_pos hc] at h
            exact (g pre pts (42 :: 42 :: t) (.dstar :: ts) prev (s + 1) true (by omega) H (.dstar _ t ts hf hR)
                ⟨s0, by omega, hM, Or.inr (Or.inr ⟨ts, rfl⟩)⟩ h).1 rfl
          · simp only [if_neg hc] at h
            exact absurd h (by simp)
      | false =>
        refine ⟨fun h => absurd h (by decide), fun _ hm => ?_⟩
        obtain ⟨e1, e2⟩ := orElse_false h
        obtain ⟨u, v, hw, hv⟩ := match_dstar hm
        cases u with
        | nil =>
          rw [List.nil_append] at hw
          exact (ha false e1).2 rfl (hw ▸ hv)
        | cons d u =>
          rcases path_cases path s with ⟨h1, -⟩ | ⟨d', r, h1, h2, h3, h4⟩
          · rw [h1] at hw; exact absurd hw (by simp)
          · rw [h1, List.cons_append, List.cons_eq_cons] at hw
            obtain ⟨rfl, hw⟩ := hw
            simp only [if_pos h2] at e2
            refine (g pre pts (42 :: 42 :: t) (.dstar :: ts) prev (s + 1) false (by omega) H (.dstar _ t ts hf hR)
                ⟨s0, by omega, hM, Or.inr (Or.inr ⟨ts, rfl⟩)⟩ e2).2 rfl ?_
            rw [h3, hw]
            exact .dstar _ _ _ hv
    | dirs _ t ts hf hR =>
      have := gap_none hs hs0 (by simp) (by simp) hG
      subst this
      rw [body_cons, if_neg (by simp), if_pos ⟨rfl, rfl⟩] at h
      have hi : isAt (pre ++ 42 :: 42 :: sep :: t) (pre.length + 2) [sep] = .ok true := by
        unfold isAt
        have e : at_ (pre ++ 42 :: 42 :: sep :: t) (pre.length + 2) = .ok sep := by
          have := at_app (pre ++ [42, 42]) t sep; simpa using this
        rw [if_pos (by simp), e]
        simp [Res.bind]
      unfold dstar at h
      rw [hi, Res.ok_bind, if_pos rfl] at h
      have hk : ∀ rest' ts', (∀ y ∈ rest', y ∈ t) → Reads true sep .other rest' ts' →
          Reads true sep prev ([42, 42, sep] ++ rest') (.dirs :: ts') := by
        intro rest' ts' _ hr
        refine .dirs _ rest' ts' ?_ hr
        cases prev <;> simpa [Fits] using hf
      have hM' : ∀ i, s0 ≤ i → Match T sep (pts ++ [.dirs]) (path.take i) := by
        intro i hi
        rw [gap_take hi]
        refine hM.append ?_
        have := Match.dirs (D := T) (sep := sep) ((path.take i).drop s0) [] [] trivial .nil
        simpa using this
      cases b with
      | true =>
        refine ⟨fun _ => ?_, fun h => absurd h (by decide)⟩
        obtain ⟨i, hi, e⟩ := dirsLoop_true h
        rw [List.mem_range'_1] at hi
        exact (adv g (x := [42, 42, sep]) (k := .dirs) (by omega) H hk hR (hM' i hi.1) e).1 rfl
      | false =>
        refine ⟨fun h => absurd h (by decide), fun _ hm => ?_⟩
        obtain ⟨u, v, hw, -, hv⟩ := match_dirs hm
        have hl := congrArg List.length hw
        rw [List.length_drop, List.length_append] at hl
        have e := dirsLoop_false h (s0 + u.length) (List.mem_range'_1.2 ⟨by omega, by omega⟩)
        refine (adv g (x := [42, 42, sep]) (k := .dirs) (by omega) H hk hR (hM' _ (by omega)) e).2 rfl ?_
        rw [← List.drop_drop, hw, List.drop_left]
        exact hv
    | any _ t ts hf hR =>
      have := gap_none hs hs0 (by simp) (by simp) hG
      subst this
      rw [body_cons, if_neg (by simp), if_neg (by simp), if_neg (by simp), if_pos rfl] at h
      rcases path_cases path s0 with ⟨h1, h2⟩ | ⟨d, r, h1, h2, h3, h4⟩
      · rw [if_neg h2] at h
        cases h
        exact ⟨fun h => absurd h (by decide), fun _ => by rw [h1]; exact match_any_nil⟩
      · rw [if_pos h2] at h
        have hk : ∀ rest' ts', (∀ y ∈ rest', y ∈ t) → Reads true sep .other rest' ts' →
            Reads true sep prev ([63] ++ rest') (.any :: ts') := by
          intro rest' ts' _ hr
          refine .any _ rest' ts' ?_ hr
          cases prev <;> simpa [Fits] using hf
        obtain ⟨a1, a2⟩ := adv1 g (x := [63]) (k := .any) h2 h3 h4 H hk hR hM (.any d _ _ .nil) h
        exact ⟨a1, fun hb => by rw [h1, match_any]; exact a2 hb⟩
    | cls _ body neg is t ts hf hb hc hR =>
      have := gap_none hs hs0 (by simp) (by simp) hG
      subst this
      rw [body_cons, if_neg (by simp), if_neg (by simp), if_neg (by simp), if_neg (by simp), if_pos ⟨rfl, by simp⟩] at h
      unfold bracket at h
      rw [findFrom_hit _ _ _ _ _ hb, if_neg (by omega), Int.toNat_natCast] at h
      have ecls : ((pre ++ 91 :: (body ++ 93 :: t)).take (pre.length + 1 + body.length)).drop (pre.length + 1) = body := by
        have : pre ++ 91 :: (body ++ 93 :: t) = (pre ++ [91] ++ body) ++ 93 :: t := by simp
        rw [this, show pre.length + 1 + body.length = (pre ++ [91] ++ body).length by simp; omega, take_app,
          show pre.length + 1 = (pre ++ [91]).length by simp, List.drop_left]
      unfold charClass at h
      rcases path_cases path s0 with ⟨h1, h2⟩ | ⟨d, r, h1, h2, h3, h4⟩
      · rw [if_pos (by omega)] at h
        cases h
        exact ⟨fun h => absurd h (by decide), fun _ => by rw [h1]; exact match_cls_nil⟩
      · obtain ⟨e1, e2⟩ := class_marks hc
        obtain ⟨m, em, hm⟩ := classLoop_spec d e2 [] ((unmarked body).length + 1) (by omega)
        rw [List.nil_append, List.length_nil] at em
        rw [if_neg (by omega)] at h
        simp only [ecls] at h
        rw [at_drop h1, Res.ok_bind, em, Res.ok_bind, e1] at h
        by_cases hx : (m != neg) = true
        · rw [if_pos hx] at h
          have hcond : (∃ i ∈ is, i.Has d) ↔ neg = false := by
            rw [← hm]
            cases m <;> cases neg <;> simp at hx ⊢
          have hk : ∀ rest' ts', (∀ y ∈ rest', y ∈ t) → Reads true sep .other rest' ts' →
              Reads true sep prev ((91 :: (body ++ [93])) ++ rest') (.cls neg is :: ts') := by
            intro rest' ts' _ hr
            have := Reads.cls (safe := true) prev body neg is rest' ts' (by cases prev <;> simpa [Fits] using hf) hb hc hr
            simpa using this
          have H' : ∀ rest' ts', (∀ y ∈ rest', y ∈ (91 :: (body ++ [93])) ++ t) → Reads true sep prev rest' ts' →
              Reads true sep .other (pre ++ rest') (pts ++ ts') := by
            intro rest' ts' hx hr
            exact H rest' ts' (by simpa using hx) hr
          obtain ⟨a1, a2⟩ := adv1 g (x := 91 :: (body ++ [93])) (k := .cls neg is) h2 h3 h4 H' hk hR hM
            (.cls _ _ d _ _ hcond .nil) (by
              rw [← h]
              congr 1
              · simp
              · simp; omega)
          exact ⟨a1, fun hb => by rw [h1, match_cls]; exact fun h => a2 hb h.2⟩
        · rw [if_neg hx] at h
          cases h
          refine ⟨fun h => absurd h (by decide), fun _ => ?_⟩
          rw [h1, match_cls]
          intro hcl
          have := hcl.1
          rw [← hm] at this
          cases m <;> cases neg <;> simp at hx this
    | bracket _ t ts hf hb hR =>
      have := gap_none hs hs0 (by simp) (by simp) hG
      subst this
      rw [body_cons, if_neg (by simp), if_neg (by simp), if_neg (by simp), if_neg (by simp)] at h
      have hk : ∀ rest' ts', (∀ y ∈ rest', y ∈ t) → Reads true sep .other rest' ts' →
          Reads true sep prev (91 :: rest') (.lit 91 :: ts') := by
        intro rest' ts' hx hr
        exact .bracket _ rest' ts' (by cases prev <;> simpa [Fits] using hf) (fun hy => hb (hx _ hy)) hr
      refine lit_case g H hk hR hM ?_
      by_cases ht : t = []
      · rwa [if_neg (by simp [ht]), if_neg (by simp)] at h
      · rw [if_pos ⟨rfl, ht⟩] at h
        unfold bracket at h
        rwa [findFrom_miss _ _ _ _ hb, if_pos rfl] at h
    | alt _ body opts alts t ts hf hb hsp hlen ho hsafe hR =>
      have := gap_none hs hs0 (by simp) (by simp) hG
      subst this
      rw [body_cons, if_neg (by simp), if_neg (by simp), if_neg (by simp), if_neg (by simp), if_neg (by simp),
        if_pos ⟨rfl, by simp⟩] at h
      unfold brace at h
      rw [findFrom_hit _ _ _ _ _ hb, if_neg (by omega), Int.toNat_natCast] at h
      have e0 : pre ++ 123 :: (body ++ 125 :: t) = (pre ++ [123] ++ body) ++ 125 :: t := by simp
      have ebody : ((pre ++ 123 :: (body ++ 125 :: t)).take (pre.length + 1 + body.length)).drop (pre.length + 1) = body := by
        rw [e0, show pre.length + 1 + body.length = (pre ++ [123] ++ body).length by simp; omega, take_app,
          show pre.length + 1 = (pre ++ [123]).length by simp, List.drop_left]
      have epre : (pre ++ 123 :: (body ++ 125 :: t)).take pre.length = pre := take_app _ _
      have epost : (pre ++ 123 :: (body ++ 125 :: t)).drop (pre.length + 1 + body.length + 1) = t := by
        rw [show pre ++ 123 :: (body ++ 125 :: t) = (pre ++ [123] ++ body ++ [125]) ++ t by simp,
          show pre.length + 1 + body.length + 1 = (pre ++ [123] ++ body ++ [125]).length by simp; omega, List.drop_left]
      simp only [ebody] at h
      have eo := splitsTo_comma hsp rfl
      rw [← eo] at h
      have whole : ∀ (i : Nat) o q b, opts[i]? = some o → alts[i]? = some q →
          rec_ [sep] path n (pre ++ o ++ t) 0 0 = .ok b →
          (b = true → Match T sep (pts ++ (q ++ ts)) path) ∧ (b = false → ¬ Match T sep (pts ++ (q ++ ts)) path) := by
        intro i o q b hi hq hc
        have hmem : ∀ y ∈ o ++ t, y ∈ 123 :: (body ++ 125 :: t) := by
          intro y hy
          rcases List.mem_append.1 hy with hy | hy
          · have := splitComma_mem body o (by rw [← eo]; exact List.mem_of_getElem? hi) y hy
            simp [this]
          · simp [hy]
        have hr := H (o ++ t) (q ++ ts) hmem (hsafe i o q rfl hi hq)
        have := g [] [] (pre ++ (o ++ t)) (pts ++ (q ++ ts)) .other 0 b (by omega) (fun r ts' _ h => h) hr
          ⟨0, by omega, by simpa using Match.nil, Or.inl (by simp)⟩ (by simpa using hc)
        simpa using this
      have alts_of : ∀ (i : Nat) (o : List Nat), opts[i]? = some o → ∃ q, alts[i]? = some q := by
        intro i o hi
        have := (List.getElem?_eq_some_iff.1 hi).1
        exact ⟨_, List.getElem?_eq_getElem (by omega)⟩
      cases b with
      | true =>
        refine ⟨fun _ => ?_, fun h => absurd h (by decide)⟩
        obtain ⟨o, ho, e⟩ := optLoop_true h
        rw [epre, epost] at e
        obtain ⟨i, hi⟩ := List.getElem?_of_mem ho
        obtain ⟨q, hq⟩ := alts_of i o hi
        obtain ⟨u, v, rfl, hu, hv⟩ := ((whole i o q true hi hq e).1 rfl).split pts (q ++ ts) rfl
        exact hu.append (.alt _ q _ _ (List.mem_of_getElem? hq) hv)
      | false =>
        refine ⟨fun h => absurd h (by decide), fun _ hm => ?_⟩
        obtain ⟨q, hq, hm⟩ := match_alt hm
        obtain ⟨i, hi⟩ := List.getElem?_of_mem hq
        have hil := (List.getElem?_eq_some_iff.1 hi).1
        have hio : opts[i]? = some opts[i] := List.getElem?_eq_getElem (by omega)
        have e := optLoop_false h _ (List.mem_of_getElem? hio)
        rw [epre, epost] at e
        refine (whole i _ q false hio hi e).2 rfl ?_
        have := hM.append hm
        rwa [List.take_append_drop] at this
    | brace _ t ts hf hb hR =>
      have := gap_none hs hs0 (by simp) (by simp) hG
      subst this
      rw [body_cons, if_neg (by simp), if_neg (by simp), if_neg (by simp), if_neg (by simp), if_neg (by simp)] at h
      have hk : ∀ rest' ts', (∀ y ∈ rest', y ∈ t) → Reads true sep .other rest' ts' →
          Reads true sep prev (123 :: rest') (.lit 123 :: ts') := by
        intro rest' ts' hx hr
        exact .brace _ rest' ts' (by cases prev <;> simpa [Fits] using hf) (fun hy => hb (hx _ hy)) hr
      refine lit_case g H hk hR hM ?_
      by_cases ht : t = []
      · rwa [if_neg (by simp [ht])] at h
      · rw [if_pos ⟨rfl, ht⟩] at h
        unfold brace at h
        rwa [findFrom_miss _ _ _ _ hb, if_pos rfl] at h
    | lit _ c t ts hf n1 n2 n3 n4 n5 hR =>
      have := gap_none hs hs0 (by simp) (by simp) hG
      subst this
      rw [body_cons, if_neg (fun e => n1 e.2), if_neg (fun e => n2 e.1), if_neg n2, if_neg n3, if_neg (fun e => n4 e.1),
        if_neg (fun e => n5 e.1)] at h
      have hk : ∀ rest' ts', (∀ y ∈ rest', y ∈ t) → Reads true sep .other rest' ts' →
          Reads true sep prev (c :: rest') (.lit c :: ts') := by
        intro rest' ts' hx hr
        exact .lit _ c rest' ts' (by cases prev <;> simpa [Fits] using hf) n1 n2 n3 n4 n5 hr
      exact lit_case g H hk hR hM h

end Verif.Glob
