import Verif.Cast.Order

/-! Classes without arguments: castability is inheritance, and the ancestors of a class are a chain. -/
namespace Verif.Cast
open Verif.Ty Verif.Mro

/-- A class and the names of its ancestors, in order. -/
def chain (E : Env) (n : Nat) : List Nat := n :: (ancOf E n).map Con.name

/-- A declared class or actor without parameters. -/
def Known (E : Env) (n : Nat) : Prop :=
  E.als n = none ∧ ∃ i, findInfo E.cls n = some i ∧ i.tvs = [] ∧ i.sort ≠ .proto

theorem known_wf {E : Env} {n : Nat} (h : Known E n) : Wf E (.con n []) := by
  obtain ⟨ha, i, hi, ht, _⟩ := h
  simp only [Wf, Wfs, and_true]
  exact ⟨ha, i, hi, by simp [ht]⟩

theorem anc_plain {E : Env} {n : Nat} (h : Known E n) : anc E ⟨n, []⟩ = ancOf E n := by
  obtain ⟨ha, i, hi, ht, _⟩ := h
  simp [anc, ancOf, findCon, hi, conAnc, ht]

theorem ancOf_args {E : Env} (hP : Plain E) {n : Nat} : ∀ c ∈ ancOf E n, c.args = [] := by
  intro c hc
  unfold ancOf at hc
  cases hi : findInfo E.cls n with
  | none => rw [hi] at hc; simp at hc
  | some i =>
    rw [hi] at hc
    obtain ⟨e, he, rfl⟩ := List.mem_map.1 hc
    exact hP.anc n i hi e he

theorem mem_plain {E : Env} (hP : Plain E) {a b : Nat} (h : Known E a) :
    (⟨b, []⟩ : Con) ∈ (⟨a, []⟩ : Con) :: anc E ⟨a, []⟩ ↔ b ∈ chain E a := by
  rw [anc_plain h, chain, List.mem_cons, List.mem_cons, List.mem_map]
  constructor
  · rintro (heq | hb)
    · cases heq; exact Or.inl rfl
    · exact Or.inr ⟨_, hb, rfl⟩
  · rintro (rfl | ⟨c, hc, rfl⟩)
    · exact Or.inl rfl
    · right
      have := ancOf_args hP c hc
      obtain ⟨cn, ca⟩ := c
      simp only at this
      subst this
      exact hc

theorem chain_nodup {E : Env} (hE : EnvOk E) {a : Nat} (h : Known E a) : (chain E a).Nodup := by
  have := (anc_facts hE (known_wf h)).1
  rw [anc_plain h] at this
  exact this

theorem cast_plain {E : Env} (hE : EnvOk E) (hP : Plain E) {a b : Nat} (ha : Known E a) (hb : Known E b) :
    Castable E (.con a []) (.con b []) ↔ b ∈ chain E a := by
  rw [cast_con hE (known_wf ha) (known_wf hb), mem_plain hP ha]
  constructor
  · rintro (⟨rfl, _, _⟩ | ⟨_, h⟩)
    · exact List.mem_cons_self
    · exact h
  · intro h
    by_cases hc : a = b ∧ a ∈ E.cov
    · exact Or.inl ⟨hc.1, hc.2, .nil⟩
    · exact Or.inr ⟨hc, h⟩

/-- The ancestors of a class are classes. -/
theorem built_cls {env : Mro.Env} (h : Built env) : ∀ n i, findInfo env n = some i → i.sort ≠ .proto →
    ∀ e ∈ i.anc, sortOf env e.con.name = some .cls := by
  have mono : ∀ {env : Mro.Env} {j : Info} {m : Nat}, findInfo env j.name = none →
      sortOf env m = some .cls → sortOf (j :: env) m = some .cls := by
    intro env j m hf hs
    unfold sortOf at hs ⊢
    cases hm : findInfo env m with
    | none => rw [hm] at hs; cases hs
    | some i => rw [findInfo_cons hf hm]; rw [hm] at hs; exact hs
  have step : ∀ {env : Mro.Env} {j : Info}, findInfo env j.name = none →
      (∀ n i, findInfo env n = some i → i.sort ≠ .proto → ∀ e ∈ i.anc, sortOf env e.con.name = some .cls) →
      (j.sort ≠ .proto → ∀ e ∈ j.anc, sortOf env e.con.name = some .cls) →
      ∀ n i, findInfo (j :: env) n = some i → i.sort ≠ .proto → ∀ e ∈ i.anc,
        sortOf (j :: env) e.con.name = some .cls := by
    intro env j hf ih hj n i hi hs e he
    unfold findInfo at hi
    split at hi
    · cases hi
      exact mono hf (hj hs e he)
    · exact mono hf (ih n i hi hs e he)
  induction h with
  | nil => intro n i hi; simp [findInfo] at hi
  | @proto env env' n tvs us te _ hf hnv hus hd ih =>
    unfold declProto at hd
    cases hm : mro env us with
    | error x => rw [hm] at hd; cases hd
    | ok r =>
      rw [hm] at hd
      cases hd
      exact step hf ih (fun h => absurd rfl h)
  | @cls env env' n tvs us te hb hf hnv hus hval hd ih =>
    unfold declClass at hd
    cases hm : mro2 env us with
    | error x => rw [hm] at hd; cases hd
    | ok ap =>
      obtain ⟨a, p⟩ := ap
      rw [hm] at hd
      simp only at hd
      by_cases hp : p = []
      · rw [if_pos hp] at hd
        cases hd
        subst hp
        refine step hf ih ?_
        intro _ e he
        simp only at he
        have hv : sortOf env valueName = some .cls := by
          obtain ⟨i, hi, _⟩ := hval.known
          simp only at hi
          clear ih he hm hus hf
          unfold sortOf
          rw [hi]
          -- the name `value` is declared by a class declaration
          have : ∀ {env : Mro.Env}, Built env → ∀ i, findInfo env valueName = some i → i.sort = .cls := by
            intro env hb
            induction hb with
            | nil => intro i hi; simp [findInfo] at hi
            | @proto env env' n tvs us te _ hf hnv _ hd ih =>
              unfold declProto at hd
              cases hm : mro env us with
              | error x => rw [hm] at hd; cases hd
              | ok r =>
                rw [hm] at hd
                cases hd
                intro i hi
                simp only [findInfo, hnv, if_false] at hi
                exact ih i hi
            | @cls env env' n tvs us te _ hf hnv _ _ hd ih =>
              unfold declClass at hd
              cases hm : mro2 env us with
              | error x => rw [hm] at hd; cases hd
              | ok ap =>
                rw [hm] at hd
                simp only at hd
                split at hd
                · cases hd
                  intro i hi
                  simp only [findInfo, hnv, if_false] at hi
                  exact ih i hi
                · cases hd
            | @value env env' te _ hf hd ih =>
              simp only [declClass, mro2, if_true] at hd
              cases hd
              intro i hi
              simp only [findInfo, if_true] at hi
              cases hi
              rfl
            | @actor env n tvs te _ hf hnv ih =>
              intro i hi
              simp only [declActor, findInfo, hnv, if_false] at hi
              exact ih i hi
          exact congrArg some (this hb i hi)
        rcases mro2_empty hm with ⟨rfl, rfl⟩ | ⟨u, rfl, hm1⟩
        · simp only [classAnc, hnv, ne_eq, not_false_eq_true, and_self, if_true, List.mem_singleton] at he
          subst he
          exact hv
        · have hmem : e ∈ a := by
            unfold classAnc at he
            split at he
            · rename_i h0
              obtain ⟨ls, hls, hlin⟩ := mro_linear hm1
              have := hlin.keeps (tags [u]) (by simp)
              rw [cons_tags, h0.1] at this
              simp [Mro.cons] at this
            · exact he
          -- the base is a class
          have hu : sortOf env u.name = some .cls := by
            simp only [mro2] at hm
            by_cases h1 : sortOf env u.name = some .actor
            · rw [if_pos h1] at hm; cases hm
            · by_cases h2 : sortOf env u.name = some .proto
              · rw [if_neg h1, if_pos h2] at hm
                rw [hm1] at hm
                simp only at hm
                cases hm
                simp at hmem
              · obtain ⟨i, hi, _⟩ := (hus u (by simp)).known
                unfold sortOf at h1 h2 ⊢
                rw [hi] at h1 h2 ⊢
                cases hs : i.sort with
                | actor => simp [hs] at h1
                | cls => simp [hs]
                | proto => simp [hs] at h2
          obtain ⟨_, _, _, honly⟩ := C80_order hm1
          obtain ⟨u', hu', hmem'⟩ := honly e.con (List.mem_map.2 ⟨e, hmem, rfl⟩)
          rw [List.mem_singleton] at hu'
          subst hu'
          unfold orderOf at hmem'
          obtain ⟨i, hi, hl, gi, hfc⟩ := findCon_known (built_good hb) (hus u' (by simp))
          rw [hfc] at hmem'
          rcases List.mem_cons.1 hmem' with heq | hmem'
          · rw [heq]; exact hu
          · rw [cons_substEntry] at hmem'
            obtain ⟨c0, hc0, hc1⟩ := List.mem_map.1 hmem'
            obtain ⟨e0, he0, rfl⟩ := List.mem_map.1 hc0
            have : e.con.name = e0.con.name := by rw [← hc1]; rfl
            rw [this]
            refine ih _ i hi ?_ e0 he0
            unfold sortOf at hu
            rw [hi] at hu
            intro h
            simp [h] at hu
      · rw [if_neg hp] at hd; cases hd
  | @value env env' te _ hf hd ih =>
    simp only [declClass, mro2, if_true] at hd
    cases hd
    refine step hf ih ?_
    intro _ e he
    simp [classAnc] at he
  | @actor env n tvs te _ hf hnv ih =>
    refine step hf ih ?_
    intro _ e he
    simp at he

theorem known_anc {E : Env} (hE : EnvOk E) (hP : Plain E) {a b : Nat} (ha : Known E a) (hb : b ∈ chain E a) :
    Known E b := by
  rcases List.mem_cons.1 hb with rfl | hb
  · exact ha
  · obtain ⟨c, hc, rfl⟩ := List.mem_map.1 hb
    obtain ⟨_, i, hi, ht, hs⟩ := ha
    unfold ancOf at hc
    rw [hi] at hc
    obtain ⟨e, he, rfl⟩ := List.mem_map.1 hc
    have hcls := built_cls hE.built a i hi hs e he
    obtain ⟨j, hj, hl⟩ := ((built_good hE.built a i hi).anc e he).known
    refine ⟨hP.als _ j hj, j, hj, ?_, ?_⟩
    · rw [hP.anc a i hi e he] at hl
      exact List.length_eq_zero_iff.1 hl
    · unfold sortOf at hcls
      rw [hj] at hcls
      intro h
      simp [h] at hcls

/-- The chain of an ancestor is the end of the chain. -/
theorem chain_suffix {E : Env} (hE : EnvOk E) (hP : Plain E) : ∀ (k : Nat) {a b : Nat}, (chain E a).length ≤ k →
    Known E a → b ∈ chain E a → chain E b <:+ chain E a := by
  intro k
  induction k with
  | zero => intro a b hk; simp [chain] at hk
  | succ k ih =>
    intro a b hk ha hb
    rcases List.mem_cons.1 hb with rfl | hb'
    · exact List.suffix_refl _
    · have hka := ha
      obtain ⟨_, i, hi, ht, hs⟩ := ha
      have gi := built_good hE.built a i hi
      have hanc : ancOf E a = Mro.cons i.anc := by simp [ancOf, hi, Mro.cons]
      cases hsort : i.sort with
      | proto => exact absurd hsort hs
      | actor =>
        exfalso
        -- an actor has no ancestors
        have : ∀ {env : Mro.Env}, Built env → ∀ n i, findInfo env n = some i → i.sort = .actor → i.anc = [] := by
          intro env hb
          have step : ∀ {env : Mro.Env} {j : Info}, (j.sort = .actor → j.anc = []) →
              (∀ n i, findInfo env n = some i → i.sort = .actor → i.anc = []) →
              ∀ n i, findInfo (j :: env) n = some i → i.sort = .actor → i.anc = [] := by
            intro env j hj ih n i hi hs
            unfold findInfo at hi
            split at hi
            · cases hi; exact hj hs
            · exact ih n i hi hs
          induction hb with
          | nil => intro n i hi; simp [findInfo] at hi
          | @proto env env' n tvs us te _ hf hnv _ hd ih =>
            unfold declProto at hd
            cases hm : mro env us with
            | error x => rw [hm] at hd; cases hd
            | ok r => rw [hm] at hd; cases hd; exact step (fun h => by cases h) ih
          | @cls env env' n tvs us te _ hf hnv _ _ hd ih =>
            unfold declClass at hd
            cases hm : mro2 env us with
            | error x => rw [hm] at hd; cases hd
            | ok ap =>
              rw [hm] at hd
              simp only at hd
              split at hd
              · cases hd; exact step (fun h => by cases h) ih
              · cases hd
          | @value env env' te _ hf hd ih =>
            simp only [declClass, mro2, if_true] at hd
            cases hd
            exact step (fun h => by cases h) ih
          | @actor env n tvs te _ hf hnv ih => exact step (fun _ => rfl) ih
        rw [hanc, this hE.built a i hi hsort] at hb'
        simp [Mro.cons] at hb'
      | cls =>
        rcases gi.single hsort with ⟨_, h0⟩ | ⟨u, es, hbs, hfc, hcs⟩
        · rw [hanc, h0] at hb'
          simp [Mro.cons] at hb'
        · have hua : u ∈ ancOf E a := by rw [hanc, hcs]; exact List.mem_cons_self
          have huargs := ancOf_args hP u hua
          have hku : Known E u.name := known_anc hE hP hka (List.mem_cons_of_mem _ (List.mem_map.2 ⟨u, hua, rfl⟩))
          have hue : u = ⟨u.name, []⟩ := by
            obtain ⟨un, ua⟩ := u
            simp only at huargs
            rw [huargs]
          have hce : Mro.cons es = ancOf E u.name := by
            rw [← anc_plain hku, ← hue]
            simp only [anc, hfc]
            rfl
          have hchain : chain E a = a :: chain E u.name := by
            unfold chain
            rw [hanc, hcs, hce]
            rfl
          have hb'' : b ∈ chain E u.name := by
            rw [hchain] at hb
            rcases List.mem_cons.1 hb with rfl | h
            · have hnd := chain_nodup hE hka
              exact absurd hb' (by
                unfold chain at hnd
                simp only [List.nodup_cons] at hnd
                exact hnd.1)
            · exact h
          have := ih (a := u.name) (b := b) (by rw [hchain] at hk; simpa using hk) hku hb''
          rw [hchain]
          exact this.trans (List.suffix_cons _ _)

end Verif.Cast
