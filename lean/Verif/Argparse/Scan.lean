import Verif.Argparse.Lemmas
/-! Lemmas: the loop over the arguments. -/
namespace Verif.Argparse

/-- What a body `n` or `n=v` is cut into. -/
theorem takeWhile_key {n : Txt} (h : 61 ∉ n) : n.takeWhile (· ≠ 61) = n := by
  have := List.takeWhile_append_of_pos (p := (· ≠ 61)) (l₁ := n) (l₂ := []) (by
    intro x hx
    simp only [ne_eq, decide_not, Bool.not_eq_eq_eq_not, Bool.not_true, decide_eq_false_iff_not]
    exact fun e => h (e ▸ hx))
  simpa using this

theorem takeWhile_key_eq {n v : Txt} (h : 61 ∉ n) : (n ++ 61 :: v).takeWhile (· ≠ 61) = n := by
  rw [List.takeWhile_append_of_pos]
  · simp
  · intro x hx
    simp only [ne_eq, decide_not, Bool.not_eq_eq_eq_not, Bool.not_true, decide_eq_false_iff_not]
    exact fun e => h (e ▸ hx)

theorem dropWhile_key_eq {n v : Txt} (h : 61 ∉ n) : (n ++ 61 :: v).dropWhile (· ≠ 61) = 61 :: v := by
  rw [List.dropWhile_append_of_pos]
  · simp
  · intro x hx
    simp only [ne_eq, decide_not, Bool.not_eq_eq_eq_not, Bool.not_true, decide_eq_false_iff_not]
    exact fun e => h (e ▸ hx)

theorem takeWhile_of_key {b n : Txt} (h : Key b n) : b.takeWhile (· ≠ 61) = n := by
  obtain ⟨h1, rfl | ⟨v, rfl⟩⟩ := h
  · exact takeWhile_key h1
  · exact takeWhile_key_eq h1

variable {pi : Txt → Option Int} {opts : List (Txt × Spec)} {shorts : List (Nat × Txt)} {cmds : Cmds}

/-- Flags at the beginning of a group. -/
theorem group_flags (nxt : Option Txt) {cs : Txt} {gs : List Given} (h : Flags opts shorts cs gs) (ds unk : Txt) {a : Args}
    (hs : Sep a) : ∃ a' m, assignAll pi (view a) gs = some m ∧ Next a a' m ∧
      group pi opts shorts nxt (cs ++ ds) a unk = group pi opts shorts nxt ds a' unk := by
  induction h generalizing a with
  | nil => exact ⟨a, _, rfl, Next.refl hs, rfl⟩
  | @cons c cs n d gs h1 h2 _ ih =>
    have n1 := next_set hs n .bool (v := .bool true) (by intro r h; cases h)
    obtain ⟨a', m, e, n2, e2⟩ := ih n1.sep
    refine ⟨a', m, ?_, n1.trans n2, ?_⟩
    · simp only [assignAll, assign]
      rw [n1.view] at e
      exact e
    · rw [← e2]
      simp only [List.cons_append, group, h1, h2]
      rw [if_pos trivial]

theorem flags_head {c : Nat} {cs : Txt} {gs : List Given} (h : Flags opts shorts (c :: cs) gs) :
    ∃ n d, get shorts c = some n ∧ get opts n = some ⟨.bool, d⟩ := by
  cases h with
  | cons h1 h2 _ => exact ⟨_, _, h1, h2⟩

/-- Flags go through the loop over the characters. -/
theorem short_grouped {cs : Txt} (nxt : Option Txt) (s : St)
    (h : ∀ c d more, cs = c :: d :: more → get shorts c = none ∨ ∃ n dd, get shorts c = some n ∧ get opts n = some ⟨.bool, dd⟩) :
    short pi opts shorts cs nxt s = grouped pi opts shorts cs nxt s := by
  match cs with
  | [] => rfl
  | [c] => rfl
  | c :: d :: more =>
    simp only [short]
    rcases h c d more rfl with h1 | ⟨n, dd, h1, h2⟩
    · rw [h1]
    · rw [h1]
      simp only [h2]
      rw [if_neg (fun h => h rfl)]

/-- Unknown characters. -/
theorem group_unknown (nxt : Option Txt) {cs : Txt} (h : ∀ x ∈ cs, get shorts x = none) (a : Args) (unk : Txt) :
    group pi opts shorts nxt cs a unk = .ok (a, unk ++ cs, 0) := by
  induction cs generalizing unk with
  | nil => simp [group]
  | cons c cs ih =>
    simp only [group, h c (by simp)]
    rw [ih (fun x hx => h x (by simp [hx]))]
    simp

theorem step_long {b : Txt} (nxt : Option Txt) (s : St) :
    step pi opts shorts cmds (45 :: 45 :: b) nxt s = long pi opts (45 :: 45 :: b) nxt s := rfl

theorem step_short {c : Nat} {cs : Txt} (h : c ≠ 45) (nxt : Option Txt) (s : St) :
    step pi opts shorts cmds (45 :: c :: cs) nxt s = short pi opts shorts (c :: cs) nxt s := by
  simp only [step]

theorem step_word {t : Txt} (h : t.head? ≠ some 45) (nxt : Option Txt) (s : St) :
    step pi opts shorts cmds t nxt s = .ok (word cmds t s, 0) := by
  match t with
  | [] => rfl
  | c :: cs =>
    have hc : c ≠ 45 := fun e => h (by rw [e]; rfl)
    unfold step
    split
    · rename_i e
      exact absurd (List.cons.inj e).1 hc
    · rename_i e
      exact absurd (List.cons.inj e).1 hc
    · rfl

theorem word_unknown {t : Txt} {s : St} (h : s.sel.isSome = false → cmds.get t = none) :
    word cmds t s = { s with rest := s.rest ++ [t] } := by
  simp only [word]
  cases e : cmds.get t with
  | none => rfl
  | some fp =>
    cases e2 : s.sel with
    | none => rw [h (by rw [e2]; rfl)] at e; cases e
    | some n => simp

/-- An argument that is not known is passed on. -/
theorem step_unknown {t : Txt} {s : St} (h : Unknown opts shorts cmds s.sel.isSome t) (nxt : Option Txt) :
    t ≠ [45, 45] ∧ step pi opts shorts cmds t nxt s = .ok ({ s with rest := s.rest ++ [t] }, 0) := by
  cases h with
  | @long b n hb hk ho =>
    refine ⟨fun e => hb (by simpa using e), ?_⟩
    rw [step_long]
    simp only [long, List.drop_succ_cons, List.drop_zero, takeWhile_of_key hk, ho]
  | @short c cs hc hu =>
    refine ⟨fun e => hc (by simpa using (List.cons.inj (List.cons.inj e).2).1), ?_⟩
    rw [step_short hc, short_grouped]
    · simp only [grouped, group_unknown nxt hu, List.nil_append]
      rfl
    · intro c' d more e
      exact .inl (hu c' (by rw [e]; simp))
  | dash hd =>
    refine ⟨by simp, ?_⟩
    have : step pi opts shorts cmds [45] nxt s = .ok (word cmds [45] s, 0) := by simp only [step]
    rw [this, word_unknown hd]
  | word ht hw =>
    refine ⟨fun e => ht (by rw [e]; rfl), ?_⟩
    rw [step_word ht, word_unknown hw]

/-- A part of the command line. -/
theorem step_item (hd : get shorts 45 = none) {s : St} {i : Item} {g : List Given} {w : List Txt}
    (hi : Means opts shorts cmds s.sel.isSome i g w) (hs : Sep s.res) :
    ∃ t nx, (i.args = [t] ∧ nx = 0 ∨ (∃ v, i.args = [t, v]) ∧ nx = 1) ∧ t ≠ [45, 45] ∧
      ∀ nxt, (nx = 1 → nxt = i.args[1]?) →
      match assignAll pi (view s.res) g with
      | none => step pi opts shorts cmds t nxt s = .error .argument
      | some m => ∃ a', Next s.res a' m ∧
          step pi opts shorts cmds t nxt s = .ok ({ s with res := a', rest := s.rest ++ w }, nx) := by
  have one : ∀ (n : Txt) (t : OTy) (v : Txt), assignAll pi (view s.res) [⟨n, t, v⟩] = assign pi (view s.res) n t v := by
    intro n t v
    simp only [assignAll]
    cases assign pi (view s.res) n t v <;> rfl
  have noDash : ∀ {c : Nat} {n : Txt}, get shorts c = some n → c ≠ 45 := by
    intro c n h e
    rw [e, hd] at h
    cases h
  cases hi with
  | @long n d hn h61 ho =>
    refine ⟨_, 0, .inl ⟨rfl, rfl⟩, fun e => hn (by simpa using e), fun nxt _ => ?_⟩
    rw [one]
    refine ⟨_, next_set hs n .bool (v := .bool true) (by intro r h; cases h), ?_⟩
    rw [step_long]
    simp only [long, List.drop_succ_cons, List.drop_zero, takeWhile_key h61, ho, List.append_nil]
    rw [if_pos trivial]
  | @longEq n v t d h61 ho ht =>
    refine ⟨_, 0, .inl ⟨rfl, rfl⟩, fun e => ?_, fun nxt _ => ?_⟩
    · have := congrArg List.length e
      simp at this
    rw [one]
    have st := store_next pi hs n t v
    have : step pi opts shorts cmds (45 :: 45 :: (n ++ 61 :: v)) nxt s =
        (do let a ← store pi s.res n t v; .ok ({ s with res := a }, 0)) := by
      rw [step_long]
      simp only [long, List.drop_succ_cons, List.drop_zero, takeWhile_key_eq h61, dropWhile_key_eq h61, ho]
      rw [if_neg ht, if_pos (by simp)]
    rw [this]
    cases e : assign pi (view s.res) n t v with
    | none =>
      rw [e] at st
      simp only at st ⊢
      rw [st]
      rfl
    | some m =>
      rw [e] at st
      obtain ⟨a', e1, n1⟩ := st
      refine ⟨a', n1, ?_⟩
      rw [e1, List.append_nil]
      rfl
  | @longSep n v t d hn h61 ho ht =>
    refine ⟨_, 1, .inr ⟨⟨v, rfl⟩, rfl⟩, fun e => hn (by simpa using e), fun nxt hx => ?_⟩
    rw [one]
    have hx := hx rfl
    have st := store_next pi hs n t v
    have : step pi opts shorts cmds (45 :: 45 :: n) nxt s =
        (do let a ← store pi s.res n t v; .ok ({ s with res := a }, 1)) := by
      rw [step_long]
      simp only [long, List.drop_succ_cons, List.drop_zero, takeWhile_key h61, ho]
      rw [if_neg ht, if_neg h61, hx]
      rfl
    rw [this]
    cases e : assign pi (view s.res) n t v with
    | none =>
      rw [e] at st
      simp only at st ⊢
      rw [st]
      rfl
    | some m =>
      rw [e] at st
      obtain ⟨a', e1, n1⟩ := st
      refine ⟨a', n1, ?_⟩
      rw [e1, List.append_nil]
      rfl
  | @flags cs gs hn hf =>
    refine ⟨_, 0, .inl ⟨rfl, rfl⟩, ?_, fun nxt _ => ?_⟩
    · intro e
      have : cs = [45] := by simpa using e
      subst this
      obtain ⟨n, d, h1, _⟩ := flags_head hf
      exact noDash h1 rfl
    · obtain ⟨c, cs', rfl⟩ := List.exists_cons_of_ne_nil hn
      obtain ⟨n, d, h1, h2⟩ := flags_head hf
      obtain ⟨a', m, e, n1, e2⟩ := group_flags (pi := pi) nxt hf [] [] hs
      rw [e]
      refine ⟨a', n1, ?_⟩
      rw [step_short (noDash h1), short_grouped]
      · simp only [grouped]
        rw [List.append_nil] at e2
        rw [e2]
        simp only [group, List.append_nil]
        rfl
      · intro c' d' more e'
        cases e'
        exact .inr ⟨n, d, h1, h2⟩
  | @inl c n v t d hv h1 ho ht =>
    refine ⟨_, 0, .inl ⟨rfl, rfl⟩, ?_, fun nxt _ => ?_⟩
    · intro e
      exact noDash h1 (by simpa using (List.cons.inj (List.cons.inj e).2).1)
    · obtain ⟨x, v', rfl⟩ := List.exists_cons_of_ne_nil hv
      rw [one]
      have st := store_next pi hs n t (x :: v')
      have : step pi opts shorts cmds (45 :: c :: x :: v') nxt s =
          (do let a ← store pi s.res n t (x :: v'); .ok ({ s with res := a }, 0)) := by
        rw [step_short (noDash h1)]
        simp only [short, h1, ho]
        rw [if_pos ht]
      rw [this]
      cases e : assign pi (view s.res) n t (x :: v') with
      | none =>
        rw [e] at st
        simp only at st ⊢
        rw [st]
        rfl
      | some m =>
        rw [e] at st
        obtain ⟨a', e1, n1⟩ := st
        refine ⟨a', n1, ?_⟩
        rw [e1, List.append_nil]
        rfl
  | @sep cs gs c n v t d hf h1 ho ht =>
    have hx : ∃ x xs, cs ++ [c] = x :: xs ∧ x ≠ 45 ∧ ∀ c' d' more, cs ++ [c] = c' :: d' :: more →
        get shorts c' = none ∨ ∃ n dd, get shorts c' = some n ∧ get opts n = some ⟨.bool, dd⟩ := by
      cases cs with
      | nil => exact ⟨c, [], rfl, noDash h1, fun c' d' more e => by simp at e⟩
      | cons y ys =>
        obtain ⟨n', d', h1', h2'⟩ := flags_head hf
        refine ⟨y, ys ++ [c], rfl, noDash h1', fun c' d'' more e => ?_⟩
        rw [List.cons_append] at e
        obtain rfl := (List.cons.inj e).1
        exact .inr ⟨n', d', h1', h2'⟩
    obtain ⟨x, xs, ex, hx1, hx2⟩ := hx
    refine ⟨_, 1, .inr ⟨⟨v, rfl⟩, rfl⟩, ?_, fun nxt hn => ?_⟩
    · intro e
      rw [ex] at e
      exact hx1 (by simpa using (List.cons.inj (List.cons.inj e).2).1)
    · have hn := hn rfl
      simp only [Item.args, List.getElem?_cons_succ, List.getElem?_cons_zero] at hn
      subst hn
      obtain ⟨a1, m, e, n1, e2⟩ := group_flags (pi := pi) (some v) hf [c] [] hs
      rw [assignAll_append, e]
      simp only [Option.bind_some]
      have one' : assignAll pi m [⟨n, t, v⟩] = assign pi (view a1) n t v := by
        simp only [assignAll, n1.view]
        cases assign pi m n t v <;> rfl
      rw [one']
      have st := store_next pi n1.sep n t v
      have : step pi opts shorts cmds (45 :: (cs ++ [c])) (some v) s =
          (do let a ← store pi a1 n t v; .ok ({ s with res := a }, 1)) := by
        have e3 : step pi opts shorts cmds (45 :: (cs ++ [c])) (some v) s =
            short pi opts shorts (cs ++ [c]) (some v) s := by
          rw [ex]
          exact step_short hx1 _ _
        rw [e3, short_grouped _ _ hx2]
        simp only [grouped]
        rw [e2]
        simp only [group, h1, ho]
        rw [if_neg ht, if_neg (by simp)]
        cases store pi a1 n t v <;> rfl
      rw [this]
      cases e4 : assign pi (view a1) n t v with
      | none =>
        rw [e4] at st
        simp only at st ⊢
        rw [st]
        rfl
      | some m =>
        rw [e4] at st
        obtain ⟨a', e1, n2⟩ := st
        refine ⟨a', n1.trans n2, ?_⟩
        rw [e1, List.append_nil]
        rfl
  | @raw t hu =>
    refine ⟨t, 0, .inl ⟨rfl, rfl⟩, (step_unknown (pi := pi) hu none).1, fun nxt _ => ?_⟩
    exact ⟨s.res, Next.refl hs, (step_unknown hu nxt).2⟩

/-- The loop over well formed parts. -/
theorem loop_items (hd : get shorts 45 = none) {sel : Bool} {is : List Item} {gs : List Given} {ws : List Txt}
    (h : MeansAll opts shorts cmds sel is gs ws) (argv tl : List Txt) :
    ∀ (n p : Nat) (s : St), s.sel.isSome = sel → Sep s.res → argv.drop p = line is ++ tl → argv.length ≤ n + p →
    match assignAll pi (view s.res) gs with
    | none => loop pi opts shorts cmds argv n p s = .error .argument
    | some m => ∃ a' n' p', Next s.res a' m ∧ argv.drop p' = tl ∧ argv.length ≤ n' + p' ∧
        loop pi opts shorts cmds argv n p s = loop pi opts shorts cmds argv n' p' { s with res := a', rest := s.rest ++ ws } := by
  induction h with
  | nil =>
    intro n p s _ hs hdr hn
    exact ⟨s.res, n, p, Next.refl hs, hdr, hn, by rw [List.append_nil]⟩
  | @cons i is g gs w ws hi _ ih =>
    intro n p s hsel hs hdr hn
    subst hsel
    obtain ⟨t, nx, hshape, ht, hstep⟩ := step_item (pi := pi) hd hi hs
    have hargs : i.args.head? = some t ∧ i.args.length = nx + 1 := by
      rcases hshape with ⟨e, rfl⟩ | ⟨⟨v, e⟩, rfl⟩ <;> rw [e] <;> exact ⟨rfl, rfl⟩
    have hline : line (i :: is) ++ tl = i.args ++ (line is ++ tl) := by
      simp only [line, List.flatMap_cons, List.append_assoc]
    rw [hline] at hdr
    have hp : argv[p]? = some t := by
      have : (argv.drop p)[0]? = some t := by
        rw [hdr]
        rcases hshape with ⟨e, _⟩ | ⟨⟨v, e⟩, _⟩ <;> rw [e] <;> rfl
      rw [List.getElem?_drop] at this
      simpa using this
    have hlt : p < argv.length := by
      rw [List.getElem?_eq_some_iff] at hp
      exact hp.1
    obtain ⟨n, rfl⟩ : ∃ k, n = k + 1 := ⟨n - 1, by omega⟩
    have hnx : nx = 1 → argv[p + 1]? = i.args[1]? := by
      intro e
      have : (argv.drop p)[1]? = i.args[1]? := by
        rw [hdr]
        rcases hshape with ⟨_, e'⟩ | ⟨⟨v, e'⟩, _⟩
        · omega
        · rw [e']; rfl
      rw [List.getElem?_drop] at this
      exact this
    have hst := hstep argv[p + 1]? hnx
    have hdr' : argv.drop (p + nx + 1) = line is ++ tl := by
      have : argv.drop (p + nx + 1) = (argv.drop p).drop (nx + 1) := by
        rw [List.drop_drop]
        rfl
      rw [this, hdr, ← hargs.2, List.drop_left]
    rw [assignAll_append]
    simp only [loop, hp]
    rw [if_neg ht]
    cases e : assignAll pi (view s.res) g with
    | none =>
      rw [e] at hst
      simp only at hst
      simp only [Option.bind_none]
      rw [hst]
    | some m =>
      rw [e] at hst
      obtain ⟨a', n1, e1⟩ := hst
      rw [e1]
      simp only [Option.bind_some]
      have ih' := ih n (p + nx + 1) { s with res := a', rest := s.rest ++ w } rfl n1.sep hdr' (by omega)
      simp only [n1.view] at ih'
      cases e2 : assignAll pi m gs with
      | none =>
        rw [e2] at ih'
        simp only at ih' ⊢
        exact ih'
      | some m' =>
        rw [e2] at ih'
        obtain ⟨a2, n', p', n2, h2, h3, h4⟩ := ih'
        refine ⟨a2, n', p', n1.trans n2, h2, h3, ?_⟩
        rw [h4, List.append_assoc]

/-- The end of the loop. -/
theorem loop_ending (argv : List Txt) (e : Option (List Txt)) (n p : Nat) (s : St) (hdr : argv.drop p = ending e)
    (hn : argv.length ≤ n + p) : loop pi opts shorts cmds argv n p s = .ok { s with rest := s.rest ++ e.getD [] } := by
  cases e with
  | none =>
    have hl : argv.length ≤ p := by
      have := congrArg List.length hdr
      simp [ending] at this
      omega
    cases n with
    | zero => simp [loop]
    | succ n =>
      have : argv[p]? = none := List.getElem?_eq_none_iff.2 hl
      simp [loop, this]
  | some ws =>
    have hl : p < argv.length := by
      have := congrArg List.length hdr
      simp [ending] at this
      omega
    have hp : argv[p]? = some [45, 45] := by
      have : (argv.drop p)[0]? = some [45, 45] := by rw [hdr]; rfl
      rw [List.getElem?_drop] at this
      simpa using this
    have hd2 : argv.drop (p + 1) = ws := by
      have : argv.drop (p + 1) = (argv.drop p).drop 1 := by rw [List.drop_drop]
      rw [this, hdr]
      rfl
    obtain ⟨n, rfl⟩ : ∃ k, n = k + 1 := ⟨n - 1, by omega⟩
    simp [loop, hp, hd2]

/-- A command. -/
theorem loop_cmd (argv tl : List Txt) (n p : Nat) (s : St) {c : Txt} {f : Nat} {q : Parser} (hc : cmds.get c = some (f, q))
    (h45 : c.head? ≠ some 45) (hs : s.sel = none) (hdr : argv.drop p = c :: tl) (hn : argv.length ≤ n + p) :
    ∃ n', argv.drop (p + 1) = tl ∧ argv.length ≤ n' + (p + 1) ∧ loop pi opts shorts cmds argv n p s =
      loop pi opts shorts cmds argv n' (p + 1) { s with res := { s.res with cmd := some f }, sel := some c } := by
  have hl : p < argv.length := by
    have := congrArg List.length hdr
    simp at this
    omega
  have hp : argv[p]? = some c := by
    have : (argv.drop p)[0]? = some c := by rw [hdr]; rfl
    rw [List.getElem?_drop] at this
    simpa using this
  have hd2 : argv.drop (p + 1) = tl := by
    have : argv.drop (p + 1) = (argv.drop p).drop 1 := by rw [List.drop_drop]
    rw [this, hdr]
    rfl
  obtain ⟨n, rfl⟩ : ∃ k, n = k + 1 := ⟨n - 1, by omega⟩
  refine ⟨n, hd2, by omega, ?_⟩
  simp only [loop, hp]
  rw [if_neg (fun e => h45 (by rw [e]; rfl)), step_word h45]
  simp only [word, hc, hs, Nat.add_zero]

end Verif.Argparse
