import Verif.Argparse.Cmd
/-!
# C92, C93, C95: exceptions, the end of the options, parsing twice
-/
namespace Verif.Argparse

variable {pi : Txt → Option Int}

/-- Two outcomes of a step: both fail in the same way, or both succeed with related results. -/
def Both {α : Type} (R : α → α → Prop) : Except Err α → Except Err α → Prop
  | .ok x, .ok y => R x y
  | .error e, .error e' => e = e'
  | _, _ => False

/-- Related results of a step of the loop. -/
def RSt (R : Args → Args → Prop) (s s' : St) : Prop := R s.res s'.res ∧ s.rest = s'.rest ∧ s.sel = s'.sel

section sim
variable {R : Args → Args → Prop} {opts : List (Txt × Spec)} {shorts : List (Nat × Txt)} {cmds : Cmds}
  (hstore : ∀ a b key spec v, get opts key = some spec → R a b → Both R (store pi a key spec.ty v) (store pi b key spec.ty v))
include hstore

theorem group_sim (nxt : Option Txt) : ∀ (cs : Txt) (a b : Args) (unk : Txt), R a b →
    Both (fun x y => R x.1 y.1 ∧ x.2 = y.2) (group pi opts shorts nxt cs a unk) (group pi opts shorts nxt cs b unk)
  | [], a, b, unk, h => ⟨h, rfl⟩
  | c :: cs, a, b, unk, h => by
    simp only [group]
    cases hc : get shorts c with
    | none => exact group_sim nxt cs a b _ h
    | some key =>
      simp only
      cases hk : get opts key with
      | none => rfl
      | some spec =>
        simp only
        by_cases ht : spec.ty = .bool
        · rw [if_pos ht, if_pos ht]
          have := hstore a b key spec [] hk h
          rw [ht] at this
          exact group_sim nxt cs _ _ _ this
        · rw [if_neg ht, if_neg ht]
          by_cases hcs : cs ≠ []
          · rw [if_pos hcs, if_pos hcs]
            rfl
          · rw [if_neg hcs, if_neg hcs]
            cases nxt with
            | none => rfl
            | some v =>
              have := hstore a b key spec v hk h
              simp only
              cases e1 : store pi a key spec.ty v <;> cases e2 : store pi b key spec.ty v <;> rw [e1, e2] at this
              · exact this
              · exact False.elim this
              · exact False.elim this
              · exact ⟨this, rfl⟩

theorem grouped_sim (cs : Txt) (nxt : Option Txt) (s t : St) (h : RSt R s t) :
    Both (fun x y => RSt R x.1 y.1 ∧ x.2 = y.2) (grouped pi opts shorts cs nxt s) (grouped pi opts shorts cs nxt t) := by
  have := group_sim (shorts := shorts) hstore nxt cs s.res t.res [] h.1
  simp only [grouped]
  cases e1 : group pi opts shorts nxt cs s.res [] <;> cases e2 : group pi opts shorts nxt cs t.res [] <;>
    rw [e1, e2] at this
  · exact this
  · exact this
  · exact this
  · rename_i x y
    obtain ⟨h1, h2⟩ := this
    refine ⟨?_, by simp only [passOn, h2]⟩
    simp only [passOn]
    rw [h2]
    split
    · exact ⟨h1, h.2.1, h.2.2⟩
    · exact ⟨h1, by simp only [h.2.1], h.2.2⟩

theorem step_sim (hcmd : ∀ a b c, R a b → R { a with cmd := c } { b with cmd := c }) (arg : Txt) (nxt : Option Txt) (s t : St)
    (h : RSt R s t) :
    Both (fun x y => RSt R x.1 y.1 ∧ x.2 = y.2) (step pi opts shorts cmds arg nxt s) (step pi opts shorts cmds arg nxt t) := by
  have st : ∀ (key : Txt) (spec : Spec) (v : Txt) (k : Nat), get opts key = some spec →
      Both (fun x y => RSt R x.1 y.1 ∧ x.2 = y.2) (do let a ← store pi s.res key spec.ty v; .ok ({ s with res := a }, k))
        (do let a ← store pi t.res key spec.ty v; .ok ({ t with res := a }, k)) := by
    intro key spec v k hk
    have := hstore s.res t.res key spec v hk h.1
    cases e1 : store pi s.res key spec.ty v <;> cases e2 : store pi t.res key spec.ty v <;> rw [e1, e2] at this
    · exact this
    · exact False.elim this
    · exact False.elim this
    · exact ⟨⟨this, h.2.1, h.2.2⟩, rfl⟩
  have wd : ∀ w, Both (fun x y => RSt R x.1 y.1 ∧ x.2 = y.2) (.ok (word cmds w s, 0)) (.ok (word cmds w t, 0)) := by
    intro w
    refine ⟨?_, rfl⟩
    simp only [word]
    cases hc : cmds.get w with
    | none => exact ⟨h.1, by simp only [h.2.1], h.2.2⟩
    | some fp =>
      simp only
      rw [← h.2.2]
      cases hs : s.sel with
      | none => exact ⟨hcmd _ _ _ h.1, h.2.1, rfl⟩
      | some n => exact ⟨h.1, by simp only [h.2.1], by simp only [hs]⟩
  unfold step
  split
  · rename_i b
    simp only [long]
    cases hk : get opts ((List.drop 2 (45 :: 45 :: b)).takeWhile (· ≠ 61)) with
    | none => exact ⟨⟨h.1, by simp only [h.2.1], h.2.2⟩, rfl⟩
    | some spec =>
      simp only
      by_cases ht : spec.ty = .bool
      · rw [if_pos ht, if_pos ht]
        have := hstore s.res t.res _ spec [] hk h.1
        rw [ht] at this
        exact ⟨⟨this, h.2.1, h.2.2⟩, rfl⟩
      · rw [if_neg ht, if_neg ht]
        by_cases h61 : 61 ∈ List.drop 2 (45 :: 45 :: b)
        · rw [if_pos h61, if_pos h61]
          exact st _ spec _ 0 hk
        · rw [if_neg h61, if_neg h61]
          cases nxt with
          | none => rfl
          | some v => exact st _ spec v 1 hk
  · rename_i c cs _
    cases cs with
    | nil => exact grouped_sim hstore _ nxt s t h
    | cons d more =>
      simp only [short]
      cases hc : get shorts c with
      | none => exact grouped_sim hstore _ nxt s t h
      | some key =>
        simp only
        cases hk : get opts key with
        | none => rfl
        | some spec =>
          simp only
          by_cases ht : spec.ty ≠ .bool
          · rw [if_pos ht, if_pos ht]
            exact st key spec _ 0 hk
          · rw [if_neg ht, if_neg ht]
            exact grouped_sim hstore _ nxt s t h
  · exact wd _

theorem loop_sim (hcmd : ∀ a b c, R a b → R { a with cmd := c } { b with cmd := c }) (argv : List Txt) :
    ∀ (n p : Nat) (s t : St), RSt R s t → Both (RSt R) (loop pi opts shorts cmds argv n p s) (loop pi opts shorts cmds argv n p t)
  | 0, _, s, t, h => h
  | n + 1, p, s, t, h => by
    simp only [loop]
    cases argv[p]? with
    | none => exact h
    | some arg =>
      simp only
      by_cases ha : arg = [45, 45]
      · rw [if_pos ha, if_pos ha]
        exact ⟨h.1, by simp only [h.2.1], h.2.2⟩
      · rw [if_neg ha, if_neg ha]
        have := step_sim (shorts := shorts) (cmds := cmds) hstore hcmd arg argv[p + 1]? s t h
        cases e1 : step pi opts shorts cmds arg argv[p + 1]? s <;> cases e2 : step pi opts shorts cmds arg argv[p + 1]? t <;>
          rw [e1, e2] at this
        · exact this
        · exact False.elim this
        · exact False.elim this
        · rename_i x y
          obtain ⟨x1, x2⟩ := x
          obtain ⟨y1, y2⟩ := y
          obtain ⟨h1, h2⟩ := this
          simp only at h1 h2 ⊢
          subst h2
          exact loop_sim hcmd argv n _ x1 y1 h1

end sim

/-! ## C95 -/

/-- No positional arguments and no lists as defaults, in the parser and those of its commands. -/
inductive Simple : Parser → Prop
  | mk {opts shorts cmds} : (opts.map Prod.fst).Nodup → (∀ k t r, get opts k ≠ some ⟨t, some (.list r)⟩) →
      (∀ n f c, cmds.get n = some (f, c) → Simple c) → Simple (.mk opts shorts [] cmds)

/-- The same options, by contents. -/
def Same (a b : Args) : Prop := view a = view b ∧ Sep a ∧ Sep b ∧ a.cmd = b.cmd

theorem store_same (a b : Args) (key : Txt) (ty : OTy) (v : Txt) (h : Same a b) :
    Both Same (store pi a key ty v) (store pi b key ty v) := by
  obtain ⟨h1, h2, h3, h4⟩ := h
  have x := store_next pi h2 key ty v
  have y := store_next pi h3 key ty v
  rw [← h1] at y
  cases e : assign pi (view a) key ty v with
  | none =>
    rw [e] at x y
    simp only at x y
    rw [x, y]
    rfl
  | some m =>
    rw [e] at x y
    obtain ⟨a', e1, n1⟩ := x
    obtain ⟨b', e2, n2⟩ := y
    rw [e1, e2]
    exact ⟨n1.view.trans n2.view.symm, n1.sep, n2.sep, by rw [n1.cmd, n2.cmd, h4]⟩

theorem defaults_same {opts : List (Txt × Spec)} (hn : (opts.map Prod.fst).Nodup)
    (hl : ∀ k t r, get opts k ≠ some ⟨t, some (.list r)⟩) {a b : Args} (h : Same a b) :
    Same (optDefaults opts a) (optDefaults opts b) := by
  obtain ⟨h1, h2, h3, h4⟩ := h
  obtain ⟨a1, a2, _, a4, _⟩ := optDefaults_next opts a hn h2 (fun k t r hk => absurd hk (hl k t r))
  obtain ⟨b1, b2, _, b4, _⟩ := optDefaults_next opts b hn h3 (fun k t r hk => absurd hk (hl k t r))
  refine ⟨?_, a2, b2, by rw [a4, b4, h4]⟩
  rw [a1, b1, h1]
  funext k
  simp only [defaults]
  cases hk : get opts k with
  | none => rfl
  | some s =>
    obtain ⟨t, d⟩ := s
    cases d with
    | none => rfl
    | some v =>
      cases v with
      | list r => exact absurd hk (hl k t r)
      | _ => rfl

mutual
theorem consume_same : ∀ (p : Parser) (argv : List Txt) (a b : Args), Simple p → Same a b →
    Both (fun x y => Same x.res y.res ∧ x.rest = y.rest ∧ x.after = p ∧ y.after = p) (consume pi p argv a) (consume pi p argv b)
  | .mk opts shorts args cmds, argv, a, b, hp, h => by
    obtain ⟨hn, hl, hc⟩ : (opts.map Prod.fst).Nodup ∧ (∀ k t r, get opts k ≠ some ⟨t, some (.list r)⟩) ∧
        (∀ n f c, cmds.get n = some (f, c) → Simple c) := by
      cases hp with
      | mk h1 h2 h3 => exact ⟨h1, h2, h3⟩
    have ha : args = [] := by cases hp; rfl
    subst ha
    have sim := loop_sim (R := Same) (pi := pi) (opts := opts) (shorts := shorts) (cmds := cmds)
      (fun a b key spec v _ h => store_same a b key spec.ty v h)
      (fun a b c h => ⟨h.1, h.2.1, h.2.2.1, rfl⟩) argv argv.length 0
      ⟨optDefaults opts a, [], none⟩ ⟨optDefaults opts b, [], none⟩ ⟨defaults_same hn hl h, rfl, rfl⟩
    rw [consume, consume]
    simp only [scan, argDefaults]
    cases e1 : loop pi opts shorts cmds argv argv.length 0 ⟨optDefaults opts a, [], none⟩ <;>
      cases e2 : loop pi opts shorts cmds argv argv.length 0 ⟨optDefaults opts b, [], none⟩ <;> rw [e1, e2] at sim
    · exact sim
    · exact False.elim sim
    · exact False.elim sim
    · rename_i s t
      obtain ⟨s1, s2, s3⟩ := sim
      simp only
      rw [← s3]
      cases hsel : s.sel with
      | none =>
        simp only [finish, place_left]
        exact ⟨s1, by rw [s2], rfl, rfl⟩
      | some n =>
        simp only
        have hr := runCmd_same cmds n s.rest s.res t.res (fun f c h => hc n f c h) s1
        rw [← s2]
        cases e3 : runCmd pi cmds n s.rest s.res <;> cases e4 : runCmd pi cmds n s.rest t.res <;> rw [e3, e4] at hr
        · exact hr
        · exact False.elim hr
        · exact False.elim hr
        · rename_i x y
          obtain ⟨r1, r2, r3, r4⟩ := hr
          simp only [finish, place_left]
          exact ⟨r1, by rw [r2], by rw [r3], by rw [r4]⟩

theorem runCmd_same : ∀ (cmds : Cmds) (n : Txt) (argv : List Txt) (a b : Args), (∀ f c, cmds.get n = some (f, c) → Simple c) →
    Same a b → Both (fun x y => Same x.res y.res ∧ x.rest = y.rest ∧ x.after = cmds ∧ y.after = cmds)
      (runCmd pi cmds n argv a) (runCmd pi cmds n argv b)
  | .nil, n, argv, a, b, _, _ => rfl
  | .cons n0 f0 p0 r, n, argv, a, b, hc, h => by
    rw [runCmd, runCmd]
    by_cases e : n0 = n
    · rw [if_pos e, if_pos e]
      have hs : Simple p0 := hc f0 p0 (by simp only [Cmds.get]; rw [if_pos e])
      have := consume_same p0 argv a b hs h
      cases e3 : consume pi p0 argv a <;> cases e4 : consume pi p0 argv b <;> rw [e3, e4] at this
      · exact this
      · exact False.elim this
      · exact False.elim this
      · obtain ⟨r1, r2, r3, r4⟩ := this
        exact ⟨r1, r2, by rw [r3], by rw [r4]⟩
    · rw [if_neg e, if_neg e]
      have := runCmd_same r n argv a b (fun f c h => hc f c (by simp only [Cmds.get]; rw [if_neg e]; exact h)) h
      cases e3 : runCmd pi r n argv a <;> cases e4 : runCmd pi r n argv b <;> rw [e3, e4] at this
      · exact this
      · exact False.elim this
      · exact False.elim this
      · obtain ⟨r1, r2, r3, r4⟩ := this
        exact ⟨r1, r2, by rw [r3], by rw [r4]⟩
end

/-- **C95** (partial: `C95_refuted_args`, `C95_refuted_list`, `C95_refuted_help`). A parser that has `--help` itself, no
positional arguments and no lists as defaults (nor the parsers of its commands) is not changed by parsing, and parsing the same
arguments again, with whatever lists there are by then, gives the same result. -/
theorem C95_again_partial {p : Parser} (hp : Simple p) (hh : get p.opts help ≠ none) (heap heap' : List (List Txt))
    (argv : List Txt) :
    match parse pi p heap argv, parse pi p heap' argv with
    | .ok (a, q), .ok (b, r) => view a = view b ∧ a.cmd = b.cmd ∧ q = p ∧ r = p
    | .error e, .error e' => e = e'
    | _, _ => False := by
  cases argv with
  | nil => rfl
  | cons prog argv =>
    obtain ⟨opts, shorts, args, cmds⟩ := p
    have ha : args = [] := by cases hp; rfl
    subst ha
    simp only [parse]
    have hw : withHelp (.mk opts shorts [] cmds) = (.mk opts shorts [] cmds, false) := by
      simp only [withHelp]
      cases e : get opts help with
      | none => exact absurd e hh
      | some _ => rfl
    rw [hw]
    have := consume_same (pi := pi) (.mk opts shorts [] cmds) argv ⟨[], heap, none⟩ ⟨[], heap', none⟩ hp
      ⟨by rw [view_empty, view_empty], sep_empty _ _, sep_empty _ _, rfl⟩
    simp only
    cases e3 : consume pi (.mk opts shorts [] cmds) argv ⟨[], heap, none⟩ <;>
      cases e4 : consume pi (.mk opts shorts [] cmds) argv ⟨[], heap', none⟩ <;> rw [e3, e4] at this
    · exact this
    · exact False.elim this
    · exact False.elim this
    · rename_i x y
      obtain ⟨r1, r2, r3, r4⟩ := this
      have hx : ∀ (o : Outcome), o.after = .mk opts shorts [] cmds → checkArgs o = .ok () := by
        intro o ho
        simp [checkArgs, ho, Parser.args]
      have key : ∀ (o : Outcome), o.after = .mk opts shorts [] cmds →
          ((do let o ← (Except.ok o : Except Err Outcome); checkHelp false o; checkArgs o; Except.ok (o.res, o.after)) :
            Except Err (Args × Parser)) = .ok (o.res, o.after) := by
        intro o ho
        have := hx o ho
        show (do checkArgs o; Except.ok (o.res, o.after)) = _
        rw [this]
        rfl
      rw [key x r3, key y r4]
      exact ⟨r1.1, r1.2.2.2, r3, r4⟩

/-! ## C92 -/

/-- Steps that fail fail with ArgumentError. -/
def Arg1 {α : Type} (I : α → Prop) : Except Err α → Prop
  | .ok x => I x
  | .error e => e = .argument

section inv
variable {I : Args → Prop} {opts : List (Txt × Spec)} {shorts : List (Nat × Txt)} {cmds : Cmds}
  (hstore : ∀ a key spec v, get opts key = some spec → I a → Arg1 I (store pi a key spec.ty v))
  (hknown : ∀ c n, get shorts c = some n → ∃ s, get opts n = some s)
include hstore hknown

theorem group_inv (nxt : Option Txt) : ∀ (cs : Txt) (a : Args) (unk : Txt), I a →
    Arg1 (fun x => I x.1) (group pi opts shorts nxt cs a unk)
  | [], a, unk, h => h
  | c :: cs, a, unk, h => by
    simp only [group]
    cases hc : get shorts c with
    | none => exact group_inv nxt cs a _ h
    | some key =>
      simp only
      cases hk : get opts key with
      | none =>
        obtain ⟨s, hs⟩ := hknown c key hc
        rw [hs] at hk
        cases hk
      | some spec =>
        simp only
        by_cases ht : spec.ty = .bool
        · rw [if_pos ht]
          have := hstore a key spec [] hk h
          rw [ht] at this
          exact group_inv nxt cs _ _ this
        · rw [if_neg ht]
          by_cases hcs : cs ≠ []
          · rw [if_pos hcs]
            rfl
          · rw [if_neg hcs]
            cases nxt with
            | none => rfl
            | some v =>
              have := hstore a key spec v hk h
              simp only
              cases e1 : store pi a key spec.ty v <;> rw [e1] at this
              · exact this
              · exact this

theorem grouped_inv (cs : Txt) (nxt : Option Txt) (s : St) (h : I s.res) :
    Arg1 (fun x => I x.1.res) (grouped pi opts shorts cs nxt s) := by
  have := group_inv hstore hknown nxt cs s.res [] h
  simp only [grouped]
  cases e1 : group pi opts shorts nxt cs s.res [] <;> rw [e1] at this
  · exact this
  · rename_i x
    show I (passOn s x).1.res
    simp only [passOn]
    split
    · exact this
    · exact this

theorem step_inv (hcmd : ∀ a c, I a → I { a with cmd := c }) (arg : Txt) (nxt : Option Txt) (s : St) (h : I s.res) :
    Arg1 (fun x => I x.1.res) (step pi opts shorts cmds arg nxt s) := by
  have st : ∀ (key : Txt) (spec : Spec) (v : Txt) (k : Nat), get opts key = some spec →
      Arg1 (fun x => I x.1.res) (do let a ← store pi s.res key spec.ty v; .ok (({ s with res := a } : St), k)) := by
    intro key spec v k hk
    have := hstore s.res key spec v hk h
    cases e1 : store pi s.res key spec.ty v <;> rw [e1] at this
    · exact this
    · exact this
  unfold step
  split
  · rename_i b
    simp only [long]
    cases hk : get opts ((List.drop 2 (45 :: 45 :: b)).takeWhile (· ≠ 61)) with
    | none => exact h
    | some spec =>
      simp only
      by_cases ht : spec.ty = .bool
      · rw [if_pos ht]
        have := hstore s.res _ spec [] hk h
        rw [ht] at this
        exact this
      · rw [if_neg ht]
        by_cases h61 : 61 ∈ List.drop 2 (45 :: 45 :: b)
        · rw [if_pos h61]
          exact st _ spec _ 0 hk
        · rw [if_neg h61]
          cases nxt with
          | none => rfl
          | some v => exact st _ spec v 1 hk
  · rename_i c cs _
    cases cs with
    | nil => exact grouped_inv hstore hknown _ nxt s h
    | cons d more =>
      simp only [short]
      cases hc : get shorts c with
      | none => exact grouped_inv hstore hknown _ nxt s h
      | some key =>
        simp only
        cases hk : get opts key with
        | none =>
          obtain ⟨s, hs⟩ := hknown c key hc
          rw [hs] at hk
          cases hk
        | some spec =>
          simp only
          by_cases ht : spec.ty ≠ .bool
          · rw [if_pos ht]
            exact st key spec _ 0 hk
          · rw [if_neg ht]
            exact grouped_inv hstore hknown _ nxt s h
  · show I (word cmds _ s).res
    simp only [word]
    split
    · split
      · exact hcmd _ _ h
      · exact h
    · exact h

theorem loop_inv (hcmd : ∀ a c, I a → I { a with cmd := c }) (argv : List Txt) :
    ∀ (n p : Nat) (s : St), I s.res →
      Arg1 (fun x => I x.res ∧ ∀ m, x.sel = some m → s.sel = some m ∨ ∃ f c, cmds.get m = some (f, c))
        (loop pi opts shorts cmds argv n p s)
  | 0, _, s, h => ⟨h, fun m hm => .inl hm⟩
  | n + 1, p, s, h => by
    simp only [loop]
    cases argv[p]? with
    | none => exact ⟨h, fun m hm => .inl hm⟩
    | some arg =>
      simp only
      by_cases ha : arg = [45, 45]
      · rw [if_pos ha]
        exact ⟨h, fun m hm => .inl hm⟩
      · rw [if_neg ha]
        have := step_inv (cmds := cmds) hstore hknown hcmd arg argv[p + 1]? s h
        have hsel : ∀ x, step pi opts shorts cmds arg argv[p + 1]? s = .ok x → ∀ m, x.1.sel = some m →
            s.sel = some m ∨ ∃ f c, cmds.get m = some (f, c) := by
          intro x hx m hm
          have grp : ∀ cs, grouped pi opts shorts cs argv[p + 1]? s = .ok x → x.1.sel = s.sel := by
            intro cs hg
            simp only [grouped] at hg
            cases e : group pi opts shorts argv[p + 1]? cs s.res [] with
            | error _ => rw [e] at hg; cases hg
            | ok r =>
              rw [e] at hg
              have hg : Except.ok (passOn s r) = (Except.ok x : Except Err _) := hg
              cases hg
              simp only [passOn]
              split <;> rfl
          have sto : ∀ key ty v (k : Nat), (do let a ← store pi s.res key ty v; Except.ok (({ s with res := a } : St), k)) =
              Except.ok x → x.1.sel = s.sel := by
            intro key ty v k hg
            cases e : store pi s.res key ty v with
            | error _ => rw [e] at hg; cases hg
            | ok r =>
              rw [e] at hg
              have hg : Except.ok (({ s with res := r } : St), k) = (Except.ok x : Except Err _) := hg
              cases hg
              rfl
          unfold step at hx
          split at hx
          · left
            rw [← hm]
            symm
            simp only [long] at hx
            split at hx
            · cases hx; rfl
            · split at hx
              · cases hx; rfl
              · split at hx
                · exact sto _ _ _ _ hx
                · split at hx
                  · cases hx
                  · exact sto _ _ _ _ hx
          · left
            rw [← hm]
            symm
            unfold short at hx
            split at hx
            · split at hx
              · exact grp _ hx
              · split at hx
                · cases hx
                · split at hx
                  · exact sto _ _ _ _ hx
                  · exact grp _ hx
            · exact grp _ hx
          · cases hx
            simp only [word] at hm
            cases hc : cmds.get arg with
            | none => rw [hc] at hm; exact .inl hm
            | some fp =>
              rw [hc] at hm
              simp only at hm
              cases hs : s.sel with
              | none =>
                rw [hs] at hm
                simp only [Option.some.injEq] at hm
                exact .inr ⟨fp.1, fp.2, hm ▸ hc⟩
              | some k =>
                rw [hs] at hm
                exact .inl hm
        cases e1 : step pi opts shorts cmds arg argv[p + 1]? s with
        | error x => rw [e1] at this; exact this
        | ok x =>
          rw [e1] at this
          obtain ⟨x1, x2⟩ := x
          simp only
          have ih := loop_inv hcmd argv n (p + x2 + 1) x1 this
          cases e2 : loop pi opts shorts cmds argv n (p + x2 + 1) x1 with
          | error y => rw [e2] at ih; exact ih
          | ok y =>
            rw [e2] at ih
            refine ⟨ih.1, fun m hm => ?_⟩
            rcases ih.2 m hm with h1 | h1
            · exact hsel _ e1 m h1
            · exact .inr h1

end inv

theorem store_any (a : Args) (key : Txt) (ty : OTy) (v : Txt) : Arg1 (fun _ => True) (store pi a key ty v) := by
  cases ty with
  | bool => trivial
  | int =>
    simp only [store]
    cases pi v with
    | none => rfl
    | some n => trivial
  | str => trivial
  | strlist => trivial

mutual
theorem consume_error {alnum : Nat → Bool} (h45 : alnum 45 = false) : ∀ (p : Parser) (argv : List Txt) (a : Args),
    Ok p → (∀ n f c, p.cmds.get n = some (f, c) → Built alnum c) → Arg1 (fun _ => True) (consume pi p argv a)
  | .mk opts shorts args cmds, argv, a, hok, hc => by
    have inv := loop_inv (I := fun _ => True) (pi := pi) (opts := opts) (shorts := shorts) (cmds := cmds)
      (fun a key spec v _ _ => store_any a key spec.ty v) hok.known (fun _ _ _ => trivial) argv argv.length 0
      ⟨argDefaults args (optDefaults opts a), [], none⟩ trivial
    rw [consume]
    simp only [scan]
    cases e1 : loop pi opts shorts cmds argv argv.length 0 ⟨argDefaults args (optDefaults opts a), [], none⟩ with
    | error x => rw [e1] at inv; exact inv
    | ok s =>
      rw [e1] at inv
      simp only
      cases hs : s.sel with
      | none => trivial
      | some n =>
        simp only
        have hn := (inv.2 n hs).resolve_left (by simp)
        have := runCmd_error h45 cmds n s.rest s.res hn (fun f c h => hc n f c h)
        cases e2 : runCmd pi cmds n s.rest s.res with
        | error x => rw [e2] at this; exact this
        | ok c => trivial

theorem runCmd_error {alnum : Nat → Bool} (h45 : alnum 45 = false) : ∀ (cmds : Cmds) (n : Txt) (argv : List Txt) (a : Args),
    (∃ f c, cmds.get n = some (f, c)) → (∀ f c, cmds.get n = some (f, c) → Built alnum c) →
    Arg1 (fun _ => True) (runCmd pi cmds n argv a)
  | .nil, n, argv, a, h, _ => by
    obtain ⟨f, c, h⟩ := h
    simp [Cmds.get] at h
  | .cons n0 f0 p0 r, n, argv, a, h, hc => by
    rw [runCmd]
    by_cases e : n0 = n
    · rw [if_pos e]
      have hb : Built alnum p0 := hc f0 p0 (by simp only [Cmds.get]; rw [if_pos e])
      have := consume_error h45 p0 argv a (built_ok h45 hb) (fun n f c h => built_cmd hb h)
      cases e2 : consume pi p0 argv a with
      | error x => rw [e2] at this; exact this
      | ok c => trivial
    · rw [if_neg e]
      simp only [Cmds.get] at h hc
      rw [if_neg e] at h
      rw [if_neg e] at hc
      have := runCmd_error h45 r n argv a h hc
      cases e2 : runCmd pi r n argv a with
      | error x => rw [e2] at this; exact this
      | ok c => trivial
end

/-- **C92** (partial: `C92_refuted_unknown`, `C92_refuted_flag`, `C92_refuted_value`, `C92_refuted_index`). Whatever the command line,
if there is a program name, parsing raises nothing but ArgumentError and its subclass PrintUsage, unless `help` is
a positional argument or belongs to a command. -/
theorem C92_exceptions_partial {alnum : Nat → Bool} (h45 : alnum 45 = false) {p : Parser} (hb : Built alnum p)
    {heap : List (List Txt)} {prog : Txt} {argv : List Txt} {e : Err} (h : parse pi p heap (prog :: argv) = .error e) :
    e = .argument ∨ e = .usage ∨ (e = .value ∧ get p.opts help = none) := by
  simp only [parse, withHelp_eq] at h
  have := consume_error (pi := pi) h45 (.mk (optsH p) p.shorts p.args p.cmds) argv ⟨[], heap, none⟩
    (optsH_ok (built_ok h45 hb) _ _) (fun n f c h => built_cmd hb h)
  cases e1 : consume pi (.mk (optsH p) p.shorts p.args p.cmds) argv ⟨[], heap, none⟩ with
  | error x =>
    rw [e1] at this h
    cases h
    exact .inl this
  | ok o =>
    rw [e1] at h
    have h : (do
        checkHelp (get p.opts help).isNone o
        checkArgs o
        Except.ok (o.res, o.after)) = .error e := h
    cases hk : checkHelp (get p.opts help).isNone o with
    | error x =>
      rw [hk] at h
      cases h
      cases hn : get p.opts help with
      | some s => rw [hn] at hk; cases hk
      | none =>
        rw [hn] at hk
        simp only [checkHelp, Option.isNone_none, if_pos] at hk
        simp only [Args.getBool] at hk
        split at hk
        · cases hk; exact .inl rfl
        · rename_i b _
          cases b
          · cases hk
          · cases hk; exact .inr (.inl rfl)
        · cases hk; exact .inr (.inr ⟨rfl, rfl⟩)
    | ok u =>
      rw [hk] at h
      have h : (do checkArgs o; Except.ok (o.res, o.after)) = .error e := h
      by_cases hx : ∃ g ∈ o.after.args, g.required = true ∧ get o.res.options g.name = none
      · rw [checkArgs, if_pos hx] at h
        cases h
        exact .inl rfl
      · rw [checkArgs, if_neg hx] at h
        cases h

/-- **C92** (partial). Without commands, and with no positional argument `help`, parsing raises only ArgumentError and
PrintUsage. -/
theorem C92_plain_partial {alnum : Nat → Bool} (h45 : alnum 45 = false) {p : Parser} (hb : Built alnum p)
    (hc : p.cmds = .nil) (hg : ∀ g ∈ p.args, g.name ≠ help) {heap : List (List Txt)} (ho : OwnLists p.opts heap) {prog : Txt}
    {argv : List Txt} {e : Err} (h : parse pi p heap (prog :: argv) = .error e) : e = .argument ∨ e = .usage := by
  rcases C92_exceptions_partial h45 hb h with h1 | h1 | ⟨h1, hn⟩
  · exact .inl h1
  · exact .inr h1
  · exfalso
    subst h1
    have hH : get (optsH p) help = some ⟨.bool, some (.bool false)⟩ := by simp [optsH, hn, get_put_self]
    simp only [parse, withHelp_eq] at h
    have hok := optsH_ok (built_ok h45 hb) p.args p.cmds
    obtain ⟨s1, s2, _, _⟩ := start_next (opts := optsH p) (a := ⟨[], heap, none⟩) p.args hok.nodup (sep_empty _ _) (ownH ho)
      (fun k t r hk => ⟨(ownH ho k t r hk).1, fun k' t' h' => by simp [get] at h'⟩)
    have inv := loop_inv (I := fun a => Sep a ∧ ∃ b, view a help = some (.bool, .bool b)) (pi := pi) (opts := optsH p)
      (shorts := p.shorts) (cmds := p.cmds) (by
        intro a key spec v hk ha
        have sn := store_next pi ha.1 key spec.ty v
        cases e1 : assign pi (view a) key spec.ty v with
        | none =>
          rw [e1] at sn
          simp only at sn
          rw [sn]
          rfl
        | some m =>
          rw [e1] at sn
          obtain ⟨a', e2, n2⟩ := sn
          rw [e2]
          refine ⟨n2.sep, ?_⟩
          rw [n2.view]
          refine assignAll_flag (pi := pi) help [⟨key, spec.ty, v⟩] (view a) m ?_ ha.2 (by simp only [assignAll, e1])
          intro g hg' en
          rw [List.mem_singleton.1 hg'] at en ⊢
          simp only at en
          rw [en, hH] at hk
          cases hk
          rfl) hok.known (fun a c ha => ha) argv argv.length 0
      ⟨argDefaults p.args (optDefaults (optsH p) ⟨[], heap, none⟩), [], none⟩ (by
        refine ⟨s2, false, ?_⟩
        rw [s1]
        simp only [argDefs, defaults, hH]
        rw [if_neg]
        · rfl
        · rintro ⟨g, h1, h2, _⟩
          exact hg g h1 h2)
    have h : (do
        let o ← consume pi (.mk (optsH p) p.shorts p.args p.cmds) argv ⟨[], heap, none⟩
        checkHelp (get p.opts help).isNone o
        checkArgs o
        Except.ok (o.res, o.after)) = .error Err.value := h
    rw [consume] at h
    simp only [scan] at h
    cases e1 : loop pi (optsH p) p.shorts p.cmds argv argv.length 0
        ⟨argDefaults p.args (optDefaults (optsH p) ⟨[], heap, none⟩), [], none⟩ with
    | error x =>
      rw [e1] at inv h
      cases h
      cases inv
    | ok s =>
      rw [e1] at inv h
      have hs : s.sel = none := by
        cases hs : s.sel with
        | none => rfl
        | some m =>
          rcases inv.2 m hs with h2 | ⟨f, c, h2⟩
          · simp at h2
          · rw [hc] at h2
            simp [Cmds.get] at h2
      simp only at h
      rw [hs] at h
      obtain ⟨⟨i1, b, i2⟩, _⟩ := inv
      have hv : view (place s.rest p.args s.res []).1 help = some (.bool, .bool b) := by
        rw [(place_other help _ p.args _ [] hg i1).1, i2]
      have hk : checkHelp (get p.opts help).isNone (finish (optsH p) p.shorts p.args ⟨s.res, s.rest, p.cmds⟩) =
          if b then .error .usage else .ok () := by
        simp only [checkHelp, finish, hn, Option.isNone_none, if_pos, getBool_view hv]
        rfl
      have h : (do
          checkHelp (get p.opts help).isNone (finish (optsH p) p.shorts p.args ⟨s.res, s.rest, p.cmds⟩)
          checkArgs (finish (optsH p) p.shorts p.args ⟨s.res, s.rest, p.cmds⟩)
          Except.ok ((finish (optsH p) p.shorts p.args ⟨s.res, s.rest, p.cmds⟩).res,
            (finish (optsH p) p.shorts p.args ⟨s.res, s.rest, p.cmds⟩).after)) = .error Err.value := h
      rw [hk] at h
      cases b with
      | true => cases h
      | false =>
        have h : (do
          checkArgs (finish (optsH p) p.shorts p.args ⟨s.res, s.rest, p.cmds⟩)
          Except.ok ((finish (optsH p) p.shorts p.args ⟨s.res, s.rest, p.cmds⟩).res,
            (finish (optsH p) p.shorts p.args ⟨s.res, s.rest, p.cmds⟩).after)) = .error Err.value := h
        unfold checkArgs at h
        split at h
        · cases h
        · cases h

end Verif.Argparse
