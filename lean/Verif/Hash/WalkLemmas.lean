import Verif.Hash.WalkSpec
import Mathlib.Tactic.Tauto

/-
The collection of dependencies: what the walk adds to the accumulator.
-/

namespace Verif.Hash

theorem mem_namesInto {x : Name} (ns acc : List Name) :
    x ∈ namesInto ns acc ↔ x ∈ ns ∨ x ∈ acc := by
  unfold namesInto
  induction ns generalizing acc with
  | nil => simp
  | cons n ns ih => rw [List.foldl_cons, ih]; simp; tauto

theorem Except.mem_bnd {x : Name} (e : Except) (acc : List Name) :
    x ∈ e.bnd acc ↔ x ∈ e.bound ∨ x ∈ acc := by
  cases e <;> simp [Except.bnd, Except.bound]

theorem Syn.mem_bnd {x : Name} {s : SS} (t : Syn s) (acc : List Name) :
    x ∈ t.bnd acc ↔ x ∈ t.bound ∨ x ∈ acc := by
  induction t generalizing acc <;>
    simp! only [List.mem_append, List.mem_cons, List.not_mem_nil, mem_namesInto, false_or, or_false,
      Except.mem_bnd, or_assoc, or_comm, or_left_comm, *]

theorem Syn.mem_asg {x : Name} {s : SS} (t : Syn s) (acc : List Name) :
    x ∈ t.asg acc ↔ x ∈ t.assigned ∨ x ∈ acc := by
  induction t generalizing acc <;>
    simp! only [List.mem_append, List.mem_cons, List.not_mem_nil, mem_namesInto, false_or, or_false,
      Except.mem_bnd, Syn.mem_bnd, or_assoc, or_comm, or_left_comm, *]

/-- `q` is not an unqualified name of `Γ`. -/
def Vis (Γ : List Name) (q : QName) : Prop :=
  ∀ x ∈ Γ, q ≠ .noQ x

theorem mem_diffQ {q : QName} {qs : List QName} {ns : List Name} :
    q ∈ diffQ qs ns ↔ q ∈ qs ∧ Vis ns q := by
  unfold diffQ Vis
  rw [List.mem_filter]
  cases q <;> simp
  intro _
  constructor
  · rintro h x hx rfl; exact h hx
  · intro h hx; exact h _ hx rfl

theorem Dep.in_append {d : Dep} {a b : List Name} {a' b' : List QName} :
    d.In (a ++ b, a' ++ b') ↔ d.In (a, a') ∨ d.In (b, b') := by
  cases d <;> simp [Dep.In]

theorem Ctx.in_sort {c : Ctx} {d : Dep} {a : Split} {n : Name} {m : List Name} :
    d.In (c.sort a n m) ↔ d.In a ∨
      (d = .loc n ∧ n ∈ c.locals ∧ m = c.mn ∧ m ≠ c.prim) ∨
      (d = .ext (.gname m n) ∧ m ≠ c.mn ∧ m ≠ c.prim) := by
  unfold Ctx.sort
  split
  · simp_all
  · split
    · rename_i h1 h2
      cases d <;> simp [Dep.In, h2.1, h2.2] <;> grind
    · split
      · grind
      · cases d <;> simp [Dep.In] <;> grind

theorem Ctx.in_add {c : Ctx} {d : Dep} {a : Split} {q : QName} :
    d.In (c.add a q) ↔ d.In a ∨ c.Means q d := by
  have hloc : ∀ n, n ∈ c.locals → (d.In (n :: a.1, a.2) ↔ d.In a ∨ d = .loc n) := by
    intro n _
    cases d <;> simp [Dep.In, or_comm]
  have hrest : (∀ x, q = .noQ x → x ∉ c.locals) →
      (d.In (match c.unalias q with
        | .gname m n => c.sort a n m
        | .qname m n => c.sort a n m
        | .noQ n => if n ∈ c.locals then (n :: a.1, a.2) else a) ↔ d.In a ∨ c.Means q d) := by
    intro hq
    cases hu : c.unalias q with
    | gname m n =>
      simp only [Ctx.in_sort]
      constructor
      · rintro (h | ⟨rfl, h1, h2, h3⟩ | ⟨rfl, h2, h3⟩)
        · exact .inl h
        · exact .inr (.own hq h1 (.inl hu) h2 h3)
        · exact .inr (.other hq (.inl hu) h2 h3)
      · rintro (h | h)
        · exact .inl h
        · cases h <;> simp_all
    | qname m n =>
      simp only [Ctx.in_sort]
      constructor
      · rintro (h | ⟨rfl, h1, h2, h3⟩ | ⟨rfl, h2, h3⟩)
        · exact .inl h
        · exact .inr (.own hq h1 (.inr hu) h2 h3)
        · exact .inr (.other hq (.inr hu) h2 h3)
      · rintro (h | h)
        · exact .inl h
        · cases h <;> simp_all
    | noQ n =>
      by_cases hn : n ∈ c.locals
      · simp only [hn, if_true, hloc n hn]
        constructor
        · rintro (h | rfl)
          · exact .inl h
          · exact .inr (.aliased hq hn hu)
        · rintro (h | h)
          · exact .inl h
          · cases h <;> simp_all
      · simp only [hn, if_false]
        constructor
        · exact .inl
        · rintro (h | h)
          · exact h
          · cases h <;> simp_all
  unfold Ctx.add
  cases q with
  | noQ n =>
    by_cases hn : n ∈ c.locals
    · simp only [hn, if_true, hloc n hn]
      constructor
      · rintro (h | rfl)
        · exact .inl h
        · exact .inr (.plain hn)
      · rintro (h | h)
        · exact .inl h
        · cases h with
          | plain => exact .inr rfl
          | aliased hq => exact absurd hn (hq _ rfl)
          | own hq => exact absurd hn (hq _ rfl)
          | other hq => exact absurd hn (hq _ rfl)
    · simp only [hn, if_false]
      exact hrest (by rintro x ⟨⟩; exact hn)
  | qname m n => exact hrest (by rintro x ⟨⟩)
  | gname m n => exact hrest (by rintro x ⟨⟩)

/-- Some name of `qs` that is not hidden is the dependency `d`. -/
def Ctx.Got (c : Ctx) (d : Dep) (hid : Name → Prop) (qs : List QName) : Prop :=
  ∃ q ∈ qs, (∀ x, hid x → q ≠ .noQ x) ∧ c.Means q d

theorem Ctx.got_nil {c : Ctx} {d : Dep} {hid : Name → Prop} : c.Got d hid [] ↔ False := by
  simp [Ctx.Got]

theorem Ctx.got_append {c : Ctx} {d : Dep} {hid : Name → Prop} {xs ys : List QName} :
    c.Got d hid (xs ++ ys) ↔ c.Got d hid xs ∨ c.Got d hid ys := by
  simp only [Ctx.Got, List.mem_append, or_and_right, exists_or]

theorem Ctx.got_diffQ {c : Ctx} {d : Dep} {hid : Name → Prop} {xs : List QName} {ns : List Name} :
    c.Got d hid (diffQ xs ns) ↔ c.Got d (fun x => x ∈ ns ∨ hid x) xs := by
  simp only [Ctx.Got, mem_diffQ, Vis, or_imp, forall_and, and_assoc]

theorem Ctx.in_ins {c : Ctx} {d : Dep} {Γ : List Name} {q : QName} {a : Split} :
    d.In (c.ins Γ q a) ↔ d.In a ∨ c.Got d (fun x => x ∈ Γ) [q] := by
  unfold Ctx.ins Ctx.Got
  cases q with
  | noQ n =>
    by_cases hn : n ∈ Γ
    · simp only [hn, if_true, List.mem_singleton]
      constructor
      · exact .inl
      · rintro (h | ⟨_, rfl, h, _⟩)
        · exact h
        · exact absurd rfl (h n hn)
    · simp only [hn, if_false, Ctx.in_add, List.mem_singleton, exists_eq_left]
      constructor
      · rintro (h | h)
        · exact .inl h
        · exact .inr ⟨by rintro x hx ⟨⟩; exact hn hx, h⟩
      · rintro (h | ⟨_, h⟩)
        · exact .inl h
        · exact .inr h
  | qname m n => simp [Ctx.in_add]
  | gname m n => simp [Ctx.in_add]

theorem Ctx.in_walkTy {c : Ctx} {d : Dep} {Γ : List Name} {s : TS} (t : Ty s) (a : Split) :
    d.In (c.walkTy Γ t a) ↔ d.In a ∨ c.Got d (fun x => x ∈ Γ) t.freeQ := by
  induction t generalizing a <;>
    simp! only [Ctx.got_nil, Ctx.got_append, Ctx.in_ins, false_or, or_false,
      or_assoc, or_comm, or_left_comm, *]

theorem Ctx.in_walkAnn {c : Ctx} {d : Dep} {Γ : List Name} (t : Option (Ty .type)) (a : Split) :
    d.In (c.walkAnn Γ t a) ↔ d.In a ∨ c.Got d (fun x => x ∈ Γ) (freeAnn t) := by
  cases t <;> simp [Ctx.walkAnn, freeAnn, Ctx.in_walkTy, Ctx.got_nil]

theorem Ctx.in_walkExcept {c : Ctx} {d : Dep} {Γ : List Name} (e : Except) (a : Split) :
    d.In (c.walkExcept Γ e a) ↔ d.In a ∨ c.Got d (fun x => x ∈ Γ) e.freeQ := by
  cases e <;> simp [Ctx.walkExcept, Except.freeQ, Ctx.in_ins, Ctx.got_nil]

/-- `freeQ` without the removal of the names of a group of declarations, and
with the removal of its own name from each declaration: what the walk looks
at. -/
def Syn.freeD : {s : SS} → Syn s → List QName
  | _, .expr e => e.freeD
  | _, .assign ps e => ps.freeD ++ e.freeD
  | _, .mutAssign t e => t.freeD ++ e.freeD
  | _, .augAssign t _ e => t.freeD ++ e.freeD
  | _, .assert e m => e.freeD ++ m.freeD
  | _, .pass => []
  | _, .delete t => t.freeD
  | _, .ret m => m.freeD
  | _, .raise e => e.freeD
  | _, .brk => []
  | _, .cont => []
  | _, .ifs bs els => bs.freeD ++ els.freeD
  | _, .whl e b els => e.freeD ++ b.freeD ++ els.freeD
  | _, .for_ p e b els => p.freeD ++ e.freeD ++ diffQ b.freeD p.bound ++ els.freeD
  | _, .try_ b hs els fin => b.freeD ++ hs.freeD ++ els.freeD ++ fin.freeD
  | _, .with_ ws b => ws.freeD ++ diffQ b.freeD ws.bound
  | _, .data m b => m.freeD ++ b.freeD
  | _, .varAssign ps e => ps.freeD ++ e.freeD
  | _, .after e e' => e.freeD ++ e'.freeD
  | _, .sig _ t _ => t.freeQ
  | _, .decls ds => ds.freeD
  | _, .def_ n _ p k _ b _ fx _ =>
    diffQ (p.freeD ++ k.freeD ++ b.freeD ++ fx.freeQ) (n :: (p.bound ++ k.bound ++ b.assigned))
  | _, .actor n _ p k b _ =>
    diffQ (p.freeD ++ k.freeD ++ b.freeD) (n :: selfName :: (p.bound ++ k.bound ++ b.assigned))
  | _, .cls n _ cs b _ => diffQ (cs.freeQ ++ b.freeD) (n :: b.assigned)
  | _, .proto n _ cs b _ => diffQ (cs.freeQ ++ b.freeD) (n :: b.assigned)
  | _, .typedef n _ t _ => diffQ t.freeQ [n]
  | _, .ext _ c ps b _ => diffQ (c.freeQ ++ ps.freeQ ++ b.freeD) b.assigned
  | _, .var q => [q]
  | _, .int _ _ => []
  | _, .float _ _ => []
  | _, .imag _ _ => []
  | _, .bool _ => []
  | _, .noneE => []
  | _, .notImpl => []
  | _, .ellipsis => []
  | _, .strings _ => []
  | _, .bstrings _ => []
  | _, .call f ps ks => f.freeD ++ ps.freeD ++ ks.freeD
  | _, .let_ ss e => ss.freeD ++ diffQ e.freeD ss.bound
  | _, .tapp f ts => f.freeD ++ ts.freeQ
  | _, .async e => e.freeD
  | _, .await e => e.freeD
  | _, .index e ix => e.freeD ++ ix.freeD
  | _, .slice e sl => e.freeD ++ sl.freeD
  | _, .cond e c e' => e.freeD ++ c.freeD ++ e'.freeD
  | _, .isInst e c => e.freeD ++ [c]
  | _, .binop e _ e' => e.freeD ++ e'.freeD
  | _, .compop e ops => e.freeD ++ ops.freeD
  | _, .unop _ e => e.freeD
  | _, .dot e _ => e.freeD
  | _, .rest e _ => e.freeD
  | _, .dotI e _ => e.freeD
  | _, .restI e _ => e.freeD
  | _, .opt e _ => e.freeD
  | _, .optChain e => e.freeD
  | _, .lambda p k e _ => p.freeD ++ k.freeD ++ diffQ e.freeD (p.bound ++ k.bound)
  | _, .yield m => m.freeD
  | _, .yieldFrom e => e.freeD
  | _, .tuple ps ks => ps.freeD ++ ks.freeD
  | _, .list es => es.freeD
  | _, .listComp e c => diffQ e.freeD c.bound ++ c.freeD
  | _, .dict as => as.freeD
  | _, .dictComp a c => diffQ a.freeD c.bound ++ c.freeD
  | _, .set es => es.freeD
  | _, .setComp e c => diffQ e.freeD c.bound ++ c.freeD
  | _, .paren e => e.freeD
  | _, .box _ e => e.freeD
  | _, .unbox _ e => e.freeD
  | _, .pWild _ => []
  | _, .pVar _ _ => []
  | _, .pParen p => p.freeD
  | _, .pTuple ps ks => ps.freeD ++ ks.freeD
  | _, .pList ps p => ps.freeD ++ p.freeD
  | _, .pData _ ixs => ixs.freeD
  | _, .posPar _ t e r => freeAnn t ++ e.freeD ++ r.freeD
  | _, .posSTAR _ t => freeAnn t
  | _, .posNIL => []
  | _, .kwdPar _ t e r => freeAnn t ++ e.freeD ++ r.freeD
  | _, .kwdSTAR _ t => freeAnn t
  | _, .kwdNIL => []
  | _, .posArg e r => e.freeD ++ r.freeD
  | _, .posStar e => e.freeD
  | _, .posNil => []
  | _, .kwdArg _ e r => e.freeD ++ r.freeD
  | _, .kwdStar e => e.freeD
  | _, .kwdNil => []
  | _, .posPat p r => p.freeD ++ r.freeD
  | _, .posPatStar p => p.freeD
  | _, .posPatNil => []
  | _, .kwdPat _ p r => p.freeD ++ r.freeD
  | _, .kwdPatStar p => p.freeD
  | _, .kwdPatNil => []
  | _, .branch e ss => e.freeD ++ ss.freeD
  | _, .handler ex ss => ex.freeQ ++ diffQ ss.freeD ex.bound
  | _, .elem e => e.freeD
  | _, .star e => e.freeD
  | _, .assoc k v => k.freeD ++ v.freeD
  | _, .starStar e => e.freeD
  | _, .opArg _ e => e.freeD
  | _, .sliz a b c => a.freeD ++ b.freeD ++ c.freeD
  | _, .compFor p e c => diffQ (e.freeD ++ c.freeD) p.bound
  | _, .compIf e c => e.freeD ++ c.freeD
  | _, .noComp => []
  | _, .withItem e p => e.freeD ++ p.freeD
  | _, .nil => []
  | _, .cons x xs => x.freeD ++ xs.freeD
  | _, .none => []
  | _, .some x => x.freeD

theorem Ctx.in_walk {c : Ctx} {d : Dep} {s : SS} (t : Syn s) (Γ : List Name) (a : Split) :
    d.In (c.walk Γ t a) ↔ d.In a ∨ c.Got d (fun x => x ∈ Γ) t.freeD := by
  induction t generalizing Γ a <;>
    simp! only [Ctx.got_nil, Ctx.got_append, Ctx.in_ins, false_or, or_false, Ctx.in_walkTy,
      Ctx.in_walkAnn, Ctx.in_walkExcept, Ctx.got_diffQ, List.mem_append, List.mem_cons,
      Except.mem_bnd, Syn.mem_bnd, Syn.mem_asg, List.not_mem_nil,
      or_assoc, or_comm, or_left_comm, *]

end Verif.Hash
