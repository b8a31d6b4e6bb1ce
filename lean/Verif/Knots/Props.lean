import Verif.Knots.Cyc
import Mathlib.Data.List.Perm.Subperm
/-!
# C169, C170: witnesses in cycles are created, and each cycle is tied
-/
namespace Verif.Knots

/-- The stack of calls of `__init__`, and the parameters of the innermost one. -/
structure Ctx (deps : Deps) (stack : List (Nat × Nat)) (me : Nat) (env : Nat → Option Nat) : Prop where
  nodup : (me :: stack.map Prod.fst).Nodup
  keys : ∀ x ∈ me :: stack.map Prod.fst, x ∈ keys deps
  calls : Calls deps (me :: stack.map Prod.fst).reverse
  env1 : ∀ x o, env x = some o → (x, o) ∈ stack
  env2 : ∀ pre x o post, stack = pre ++ (x, o) :: post → x ∈ depsof (cycledeps deps) me →
    (∀ y ∈ pre, x ∈ depsof (cycledeps deps) y.1) → env x = some o

theorem calls_append {deps : Deps} {b : Nat} : ∀ {l : List Nat} {a : Nat}, Calls deps (l ++ [a]) → b ∈ next deps a →
    Calls deps (l ++ [a] ++ [b])
  | [], _, _, hb => ⟨hb, trivial⟩
  | [_], _, h, hb => ⟨h.1, hb, trivial⟩
  | x :: y :: l, a, h, hb => ⟨h.1, calls_append (l := y :: l) h.2 hb⟩

theorem calls_drop {deps : Deps} : ∀ {a b : List Nat}, Calls deps (a ++ b) → Calls deps b
  | [], _, h => h
  | _ :: _, _, h => calls_drop (calls_tail h)

/-- A class whose `__init__` runs already is not created again. -/
theorem given_of_mem {deps : Deps} {stack me env self d o} (h : Ctx deps stack me env) (hd : d ∈ next deps me)
    (hm : (d, o) ∈ (me, self) :: stack) : given (cycledeps deps) me self env d = some o := by
  rcases List.mem_cons.1 hm with hm | hm
  · injection hm with h1 h2
    subst h1; subst h2
    unfold given
    rw [if_pos ⟨rfl, mem_dom hd⟩]
  · obtain ⟨pre, post, hs⟩ := List.append_of_mem hm
    have hn := h.nodup
    have hc := h.calls
    have hk := h.keys
    rw [hs] at hn hc hk
    have hne : d ≠ me := by
      intro he
      have := (List.nodup_cons.1 hn).1
      simp [he] at this
    -- the cycle
    have hcyc : Calls deps (d :: ((pre.map Prod.fst).reverse ++ [me]) ++ [d]) := by
      have e : (me :: (pre ++ (d, o) :: post).map Prod.fst).reverse =
          (post.map Prod.fst).reverse ++ (d :: (pre.map Prod.fst).reverse ++ [me]) := by simp
      rw [e] at hc
      have := calls_append (calls_drop hc) hd
      simpa using this
    have hnd : (d :: ((pre.map Prod.fst).reverse ++ [me])).Nodup := by
      have : (me :: (pre.map Prod.fst ++ [d])).Nodup := by
        refine hn.sublist ?_
        rw [List.map_append, List.map_cons]
        apply List.Sublist.cons_cons
        apply List.Sublist.append_left
        exact List.Sublist.cons_cons _ (List.nil_sublist _)
      have h2 := List.nodup_reverse.2 this
      simpa using h2
    have hall : ∀ z ∈ (pre.map Prod.fst).reverse ++ [me], d ∈ depsof (cycledeps deps) z := by
      intro z hz
      refine mem_depsof hcyc hnd hz (hk z ?_)
      rcases List.mem_append.1 hz with hz | hz
      · rw [List.mem_reverse] at hz
        rw [List.map_append]
        exact List.mem_cons_of_mem _ (List.mem_append_left _ hz)
      · rw [List.mem_singleton.1 hz]; exact List.mem_cons_self
    have hme := hall me (by simp)
    unfold given
    rw [if_neg (fun hh => hne hh.1), if_pos hme]
    refine h.env2 pre d o post hs hme ?_
    intro y hy
    exact hall y.1 (List.mem_append_left _ (List.mem_reverse.2 (List.mem_map_of_mem hy)))

/-- What an attribute is set to without a call is an object whose `__init__` runs. -/
theorem given_mem {deps : Deps} {stack me env self d o} (h : Ctx deps stack me env)
    (hg : given (cycledeps deps) me self env d = some o) : (d, o) ∈ (me, self) :: stack := by
  unfold given at hg
  split at hg
  · rename_i hc
    have hg := Option.some.inj hg
    subst hg
    rw [hc.1]; exact List.mem_cons_self
  · split at hg
    · exact List.mem_cons_of_mem _ (h.env1 _ _ hg)
    · cases hg

/-- The stack and the parameters of a call. -/
theorem ctx_call {deps : Deps} {stack me env self d} (h : Ctx deps stack me env) (hd : d ∈ next deps me)
    (hk : d ∈ keys deps) (hg : given (cycledeps deps) me self env d = none) :
    Ctx deps ((me, self) :: stack) d (args (cycledeps deps) me self env d) := by
  have hnew : d ∉ me :: stack.map Prod.fst := by
    intro hm
    have : ∃ o, (d, o) ∈ (me, self) :: stack := by
      rcases List.mem_cons.1 hm with rfl | hm
      · exact ⟨self, List.mem_cons_self⟩
      · obtain ⟨⟨x, o⟩, hx, rfl⟩ := List.mem_map.1 hm
        exact ⟨o, List.mem_cons_of_mem _ hx⟩
    obtain ⟨o, ho⟩ := this
    rw [given_of_mem h hd ho] at hg; cases hg
  refine ⟨List.nodup_cons.2 ⟨hnew, h.nodup⟩, ?_, ?_, ?_, ?_⟩
  · intro x hx
    rcases List.mem_cons.1 hx with rfl | hx
    · exact hk
    · exact h.keys x hx
  · have := h.calls
    rw [List.map_cons, List.reverse_cons, List.reverse_cons]
    rw [List.reverse_cons] at this
    exact calls_append this hd
  · intro x o ha
    unfold args at ha
    split at ha
    · split at ha
      · rename_i hx
        have ha := Option.some.inj ha
        rw [hx, ha]; exact List.mem_cons_self
      · split at ha
        · exact List.mem_cons_of_mem _ (h.env1 _ _ ha)
        · cases ha
    · cases ha
  · intro pre x o post hs hx hy
    unfold args
    rw [if_pos hx]
    cases pre with
    | nil =>
      injection hs with h1 h2
      injection h1 with h3 h4
      rw [if_pos h3.symm, h4]
    | cons z pre =>
      injection hs with h1 h2
      have hne : x ≠ me := by
        intro he
        have := (List.nodup_cons.1 h.nodup).1
        rw [h2] at this
        simp [he] at this
      have hxm : x ∈ depsof (cycledeps deps) me := by
        have := hy z List.mem_cons_self
        rw [← h1] at this; exact this
      rw [if_neg hne, if_pos hxm]
      exact h.env2 pre x o post h2 hxm (fun y hm => hy y (List.mem_cons_of_mem _ hm))

/-- An attribute is right: it has an object of its class, and that whose `__init__` runs if there
is one; no two of these have one class. -/
def Right (st : St) (l : Link) : Prop :=
  st.objs[l.obj]? = some l.cls ∧ st.objs[l.owner]? = l.stack.head?.map Prod.fst ∧ (l.stack.map Prod.fst).Nodup ∧
    ∀ o, (l.cls, o) ∈ l.stack → l.obj = o

/-- All attributes of an object are set. -/
def Full (deps : Deps) (st : St) (i : Nat) : Prop :=
  ∀ c, st.objs[i]? = some c → ∀ d ∈ next deps c, ∃ l ∈ st.links, l.owner = i ∧ l.cls = d

/-- `b` has what `a` has. -/
def Ext (a b : St) : Prop := a.objs <+: b.objs ∧ ∀ l ∈ a.links, l ∈ b.links

theorem get_ext {a b : St} (h : Ext a b) {i c : Nat} (hi : a.objs[i]? = some c) : b.objs[i]? = some c := by
  obtain ⟨t, ht⟩ := h.1
  have hlt := (List.getElem?_eq_some_iff.1 hi).1
  rw [← ht, List.getElem?_append_left hlt]; exact hi

theorem get_ext' {a b : St} (h : Ext a b) {i : Nat} (hi : i < a.objs.length) : b.objs[i]? = a.objs[i]? := by
  obtain ⟨t, ht⟩ := h.1
  rw [← ht, List.getElem?_append_left hi]

theorem right_ext {a b : St} (h : Ext a b) {l : Link} (hr : Right a l) (hs : l.stack ≠ []) : Right b l := by
  refine ⟨get_ext h hr.1, ?_, hr.2.2⟩
  obtain ⟨p, q, hp⟩ := List.exists_cons_of_ne_nil hs
  have := hr.2.1
  rw [hp] at this ⊢
  exact get_ext h this

theorem full_ext {deps : Deps} {a b : St} (h : Ext a b) {i : Nat} (hi : i < a.objs.length) (hf : Full deps a i) : Full deps b i := by
  intro c hc d hd
  rw [get_ext' h hi] at hc
  obtain ⟨l, hl, h1⟩ := hf c hc d hd
  exact ⟨l, h.2 l hl, h1⟩

theorem Ext.refl (a : St) : Ext a a := ⟨List.prefix_rfl, fun _ h => h⟩
theorem Ext.trans {a b c : St} (h : Ext a b) (h' : Ext b c) : Ext a c :=
  ⟨h.1.trans h'.1, fun l hl => h'.2 l (h.2 l hl)⟩

/-- The attributes so far are right. -/
structure Good (deps : Deps) (st : St) : Prop where
  right : ∀ l ∈ st.links, Right st l
  stack : ∀ l ∈ st.links, l.stack ≠ []

theorem good_add {deps : Deps} {st : St} (h : Good deps st) {l : Link} (hr : Right st l) (hs : l.stack ≠ []) :
    Good deps { st with links := st.links ++ [l] } := by
  constructor
  · intro x hx
    rcases List.mem_append.1 hx with hx | hx
    · exact h.right x hx
    · rw [List.mem_singleton.1 hx]; exact hr
  · intro x hx
    rcases List.mem_append.1 hx with hx | hx
    · exact h.stack x hx
    · rw [List.mem_singleton.1 hx]; exact hs

/-- What a creation has to fulfil. -/
def Post (deps : Deps) (st : St) (me : Nat) (r : Nat × St) : Prop :=
  Good deps r.2 ∧ Ext st r.2 ∧ r.2.objs[r.1]? = some me ∧
    ∀ i, st.objs.length ≤ i → i < r.2.objs.length → Full deps r.2 i

/-- The attributes of an object. -/
theorem fields_ok {deps : Deps} {stack me env self cr} (hctx : Ctx deps stack me env)
    (hcl : ∀ x ∈ keys deps, ∀ y ∈ next deps x, y ∈ keys deps)
    (hcr : ∀ d st, d ∈ next deps me → given (cycledeps deps) me self env d = none → Good deps st →
      (∀ x ∈ (me, self) :: stack, st.objs[x.2]? = some x.1) →
      ∃ r, cr d (args (cycledeps deps) me self env d) st = some r ∧ Post deps st d r) :
    ∀ ds st, (∀ d ∈ ds, d ∈ next deps me) → Good deps st → (∀ x ∈ (me, self) :: stack, st.objs[x.2]? = some x.1) →
      ∃ st', fields (cycledeps deps) me self env ((me, self) :: stack) cr ds st = some st' ∧ Good deps st' ∧ Ext st st' ∧
        (∀ d ∈ ds, ∃ l ∈ st'.links, l.owner = self ∧ l.cls = d) ∧
        ∀ i, st.objs.length ≤ i → i < st'.objs.length → Full deps st' i := by
  intro ds
  induction ds with
  | nil =>
    intro st _ hg _
    exact ⟨st, rfl, hg, Ext.refl st, by simp, fun i h1 h2 => by omega⟩
  | cons d ds ih =>
    intro st hd hg hst
    have hdn := hd d List.mem_cons_self
    -- a state with the attribute set
    have key : ∀ (st1 : St) (o : Nat), Ext st st1 → Good deps st1 → st1.objs[o]? = some d →
        (∀ o', (d, o') ∈ (me, self) :: stack → o = o') →
        (∀ i, st.objs.length ≤ i → i < st1.objs.length → Full deps st1 i) →
        ∃ st', fields (cycledeps deps) me self env ((me, self) :: stack) cr ds
            { st1 with links := st1.links ++ [⟨self, d, o, (me, self) :: stack⟩] } = some st' ∧ Good deps st' ∧ Ext st st' ∧
          (∀ d' ∈ d :: ds, ∃ l ∈ st'.links, l.owner = self ∧ l.cls = d') ∧
          ∀ i, st.objs.length ≤ i → i < st'.objs.length → Full deps st' i := by
      intro st1 o he hg1 ho hu hf
      have hst1 : ∀ x ∈ (me, self) :: stack, st1.objs[x.2]? = some x.1 := fun x hx => get_ext he (hst x hx)
      have hadd : Ext st1 { st1 with links := st1.links ++ [⟨self, d, o, (me, self) :: stack⟩] } :=
        ⟨List.prefix_rfl, fun l hl => List.mem_append_left _ hl⟩
      have hg2 := good_add hg1 (l := ⟨self, d, o, (me, self) :: stack⟩)
        ⟨ho, hst1 (me, self) List.mem_cons_self, hctx.nodup, hu⟩ (by simp)
      obtain ⟨st', h1, h2, h3, h4, h5⟩ := ih _ (fun d' hd' => hd d' (List.mem_cons_of_mem _ hd')) hg2 hst1
      refine ⟨st', h1, h2, he.trans (hadd.trans h3), ?_, ?_⟩
      · intro d' hd'
        rcases List.mem_cons.1 hd' with rfl | hd'
        · exact ⟨_, h3.2 _ (List.mem_append_right _ List.mem_cons_self), rfl, rfl⟩
        · exact h4 d' hd'
      · intro i hi1 hi2
        by_cases hlt : i < st1.objs.length
        · exact full_ext (hadd.trans h3) hlt (hf i hi1 hlt)
        · exact h5 i (by simpa using hlt) hi2
    simp only [fields]
    cases hgv : given (cycledeps deps) me self env d with
    | some o =>
      have hm := given_mem hctx hgv
      refine key st o (Ext.refl st) hg (hst (d, o) hm) ?_ (fun i h1 h2 => by omega)
      intro o' ho'
      have := given_of_mem hctx hdn ho'
      rw [hgv] at this
      exact Option.some.inj this
    | none =>
      obtain ⟨⟨o, st1⟩, hr, hg1, he, ho, hf⟩ := hcr d st hdn hgv hg hst
      rw [hr]
      refine key st1 o he hg1 ho ?_ hf
      intro o' ho'
      have := given_of_mem hctx hdn ho'
      rw [hgv] at this; cases this

/-- The creation of an object ends, whatever is on the stack. -/
theorem create_ok {deps : Deps} (hcl : ∀ x ∈ keys deps, ∀ y ∈ next deps x, y ∈ keys deps) :
    ∀ fuel stack me env st, Ctx deps stack me env → deps.length ≤ fuel + stack.length → Good deps st →
      (∀ x ∈ stack, st.objs[x.2]? = some x.1) →
      ∃ r, create deps (cycledeps deps) fuel stack me env st = some r ∧ Post deps st me r := by
  intro fuel
  induction fuel with
  | zero =>
    intro stack me env st hctx hlen _ _
    exfalso
    have h1 : (me :: stack.map Prod.fst).length ≤ (keys deps).length :=
      (List.subperm_of_subset hctx.nodup hctx.keys).length_le
    simp [keys] at h1
    omega
  | succ fuel ih =>
    intro stack me env st hctx hlen hg hst
    have hself : ∀ x ∈ (me, st.objs.length) :: stack, (st.objs ++ [me])[x.2]? = some x.1 := by
      intro x hx
      rcases List.mem_cons.1 hx with rfl | hx
      · simp
      · have := hst x hx
        have hlt := (List.getElem?_eq_some_iff.1 this).1
        rw [List.getElem?_append_left hlt]; exact this
    have hext : Ext st { st with objs := st.objs ++ [me] } := ⟨List.prefix_append _ _, fun _ h => h⟩
    have hg0 : Good deps { st with objs := st.objs ++ [me] } :=
      ⟨fun l hl => right_ext hext (hg.right l hl) (hg.stack l hl), hg.stack⟩
    have hmk : me ∈ keys deps := hctx.keys me List.mem_cons_self
    obtain ⟨st', h1, h2, h3, h4, h5⟩ := fields_ok (self := st.objs.length)
      (cr := create deps (cycledeps deps) fuel ((me, st.objs.length) :: stack)) hctx hcl
      (fun d st1 hd hgv hg1 hst1 => ih _ _ _ _ (ctx_call hctx hd (hcl me hmk d hd) hgv)
        (by simp only [List.length_cons]; omega) hg1 hst1)
      (next deps me) { st with objs := st.objs ++ [me] } (fun _ h => h) hg0 hself
    refine ⟨(st.objs.length, st'), ?_, h2, hext.trans h3, get_ext h3 (hself (me, st.objs.length) List.mem_cons_self), ?_⟩
    · simp only [create]
      rw [h1]
    · intro i hi1 hi2
      by_cases he : i = st.objs.length
      · subst he
        intro c hc d hd
        have hc' := get_ext h3 (hself (me, st.objs.length) List.mem_cons_self)
        rw [hc'] at hc
        have := Option.some.inj hc
        subst this
        exact h4 d hd
      · exact h5 i (by simp only [List.length_append, List.length_singleton]; omega) hi2

/-- A group of witness classes: a class calls only classes of the group, see `Deps`. -/
structure Group (deps : Deps) : Prop where
  closed : ∀ x ∈ keys deps, ∀ y ∈ next deps x, y ∈ keys deps

theorem ctx_nil {deps : Deps} {w : Nat} (hw : w ∈ keys deps) : Ctx deps [] w (fun _ => none) where
  nodup := by simp
  keys := by simpa using hw
  calls := trivial
  env1 := by simp
  env2 := by simp

theorem make_ok {deps : Deps} (hg : Group deps) {w : Nat} (hw : w ∈ keys deps) {st : St} (h : Good deps st) :
    ∃ r, make deps deps.length w st = some r ∧ Post deps st w r :=
  create_ok hg.closed deps.length [] w (fun _ => none) st (ctx_nil hw) (by simp) h (by simp)

/-- Nothing is created yet. -/
def st0 : St := ⟨[], []⟩

theorem good_st0 (deps : Deps) : Good deps st0 := ⟨by simp [st0], by simp [st0]⟩

/-- **C169** Every witness can be created: there are never more calls of `__init__` in one another
than classes, whatever the cycles. -/
theorem C169 {deps : Deps} (hg : Group deps) {w : Nat} (hw : w ∈ keys deps) :
    (make deps deps.length w st0).isSome := by
  obtain ⟨r, hr, -⟩ := make_ok hg hw (good_st0 deps)
  rw [hr]; rfl

/-- **C169**, result: it is an object of the class, and every object created has all its
attributes set. -/
theorem C169_full {deps : Deps} (hg : Group deps) {w : Nat} (hw : w ∈ keys deps) {o : Nat} {st : St}
    (h : make deps deps.length w st0 = some (o, st)) : st.objs[o]? = some w ∧
      ∀ i c, st.objs[i]? = some c → ∀ d ∈ next deps c, ∃ l ∈ st.links, l.owner = i ∧ l.cls = d := by
  obtain ⟨r, hr, -, -, h3, h4⟩ := make_ok hg hw (good_st0 deps)
  rw [h] at hr
  have hr := Option.some.inj hr
  subst hr
  refine ⟨h3, fun i c hc => h4 i (Nat.zero_le _) (List.getElem?_eq_some_iff.1 hc).1 c hc⟩

/-- **C170** Each cycle is tied: an attribute has an object of its class; if an object of that class
is being created, the attribute is that object, and there is only one. -/
theorem C170 {deps : Deps} (hg : Group deps) {w : Nat} (hw : w ∈ keys deps) {o : Nat} {st : St}
    (h : make deps deps.length w st0 = some (o, st)) {l : Link} (hl : l ∈ st.links) :
    st.objs[l.obj]? = some l.cls ∧ st.objs[l.owner]? = l.stack.head?.map Prod.fst ∧ (l.stack.map Prod.fst).Nodup ∧
      ∀ o, (l.cls, o) ∈ l.stack → l.obj = o := by
  obtain ⟨r, hr, h1, -⟩ := make_ok hg hw (good_st0 deps)
  rw [h] at hr
  have hr := Option.some.inj hr
  subst hr
  exact h1.right l hl

/-- A group with two cycles that share a class: 1 and 3 are in no common cycle without
repetition. -/
def twoCycles : Deps := [(1, [2, 1]), (2, [1, 3]), (3, [2])]

example : Group twoCycles := ⟨by decide⟩
example : (2 : Nat) ∈ keys twoCycles := by decide
/-- Three objects are created, and every attribute is one of them. -/
example : (make twoCycles 3 1 st0).map (fun r => (r.2.objs, r.2.links.map (fun l => (l.owner, l.obj)))) =
    some ([1, 2, 3], [(1, 0), (2, 1), (1, 2), (0, 1), (0, 0)]) := by decide +kernel

end Verif.Knots
