import Verif.Hash.WalkLemmas

/-
The names the walk looks at, `freeQ`, and the plain lists of references and
introductions, compared.
-/

namespace Verif.Hash

theorem Ty.freeQ_refs {q : QName} {s : TS} (t : Ty s) : q ∈ t.freeQ ↔ q ∈ t.refs := by
  induction t <;> simp! only [List.mem_append, List.mem_cons, List.not_mem_nil, or_false, *]

theorem freeAnn_refs {q : QName} (t : Option (Ty .type)) : q ∈ freeAnn t ↔ q ∈ annRefs t := by
  cases t
  · exact Iff.rfl
  · exact Ty.freeQ_refs _

theorem Except.freeQ_refs {q : QName} (e : Except) : q ∈ e.freeQ ↔ q ∈ e.refs := by
  cases e <;> exact Iff.rfl

theorem Except.bound_intro {n : Name} (e : Except) : n ∈ e.bound ↔ n ∈ e.intro := by
  cases e <;> exact Iff.rfl

/-- Names among plain ones. -/
def Plain (ns : List Name) (q : QName) : Prop :=
  ∃ n ∈ ns, q = .noQ n

theorem plain_append {q : QName} {xs ys : List Name} :
    Plain (xs ++ ys) q ↔ Plain xs q ∨ Plain ys q := by
  simp only [Plain, List.mem_append, or_and_right, exists_or]

theorem plain_nil {q : QName} : Plain [] q ↔ False := by
  simp [Plain]

theorem plain_cons {q : QName} {n : Name} {ys : List Name} :
    Plain (n :: ys) q ↔ q = .noQ n ∨ Plain ys q := by
  simp [Plain]

theorem vis_iff {q : QName} {ns : List Name} : Vis ns q ↔ ¬ Plain ns q := by
  simp only [Vis, Plain, not_exists, not_and]

theorem Syn.freeQ_refs {q : QName} {s : SS} (t : Syn s) (h : q ∈ t.freeQ) : q ∈ t.refs := by
  induction t <;> revert h <;>
    simp! only [List.mem_append, List.mem_cons, List.not_mem_nil, or_false, mem_diffQ,
      Ty.freeQ_refs, freeAnn_refs, Except.freeQ_refs, imp_self, *] <;> grind

theorem Syn.freeD_refs {q : QName} {s : SS} (t : Syn s) (h : q ∈ t.freeD) : q ∈ t.refs := by
  induction t <;> revert h <;>
    simp! only [List.mem_append, List.mem_cons, List.not_mem_nil, or_false, mem_diffQ,
      Ty.freeQ_refs, freeAnn_refs, Except.freeQ_refs, imp_self, *] <;> grind

theorem mem_flatFree {n : Name} {s : SS} {t : Syn s} (h : n ∈ t.freeQ.flatMap QName.free) :
    n ∈ t.refs.flatMap QName.free := by
  rw [List.mem_flatMap] at h ⊢
  obtain ⟨q, hq, hn⟩ := h
  exact ⟨q, t.freeQ_refs hq, hn⟩

theorem Syn.bound_intro {n : Name} {s : SS} (t : Syn s) (h : n ∈ t.bound) : n ∈ t.intro := by
  induction t <;> revert h <;>
    simp! only [List.mem_append, List.mem_cons, List.not_mem_nil, or_false,
      Except.bound_intro, imp_self, *] <;> grind [mem_flatFree]

theorem Syn.assigned_intro {n : Name} {s : SS} (t : Syn s) (h : n ∈ t.assigned) : n ∈ t.intro := by
  induction t <;> revert h <;>
    simp! only [List.mem_append, List.mem_cons, List.not_mem_nil, or_false,
      Except.bound_intro, imp_self, *] <;> grind [mem_flatFree, Syn.bound_intro]

theorem Plain.mono {q : QName} {xs ys : List Name} (h : Plain xs q) (hs : ∀ n ∈ xs, n ∈ ys) :
    Plain ys q := by
  obtain ⟨n, hn, rfl⟩ := h
  exact ⟨n, hs n hn, rfl⟩

theorem Syn.plain_bound {q : QName} {s : SS} {t : Syn s} (h : Plain t.bound q) :
    Plain t.intro q :=
  h.mono fun _ => t.bound_intro

theorem Syn.plain_assigned {q : QName} {s : SS} {t : Syn s} (h : Plain t.assigned q) :
    Plain t.intro q :=
  h.mono fun _ => t.assigned_intro

theorem Except.plain_bound {q : QName} {e : Except} :
    Plain e.bound q ↔ Plain e.intro q := by
  simp only [Plain, Except.bound_intro]

theorem Syn.refs_freeQ {q : QName} {s : SS} (t : Syn s) (h : q ∈ t.refs) :
    q ∈ t.freeQ ∨ Plain t.intro q := by
  induction t <;> revert h <;>
    simp! only [List.mem_append, List.mem_cons, List.not_mem_nil, or_false, mem_diffQ,
      Ty.freeQ_refs, freeAnn_refs, Except.freeQ_refs, imp_self, vis_iff, plain_append, plain_nil,
      plain_cons, Except.plain_bound, *] <;>
    grind [Syn.plain_bound, Syn.plain_assigned]

/-- The names declared by a declaration, or by a list of them, are the bound
ones. -/
theorem Syn.bound_heads {s : SS} (t : Syn s) :
    (s = .decl ∨ s = .list .decl) → t.bound = t.heads := by
  induction t <;> simp! <;> grind

/-- Declarations, and lists of them, and so on. -/
def SS.isDecl : SS → Bool
  | .decl => true
  | .list s => s.isDecl
  | .opt s => s.isDecl
  | _ => false

theorem Syn.freeQ_freeD' {q : QName} {s : SS} (t : Syn s) (h : q ∈ t.freeQ) :
    q ∈ t.freeD ∨ s.isDecl = true ∧ Plain t.heads q := by
  induction t <;> revert h <;>
    simp! only [List.mem_append, List.mem_cons, List.not_mem_nil, or_false, mem_diffQ,
      imp_self, vis_iff, plain_append, plain_nil, false_and, and_false, reduceCtorEq, true_and,
      plain_cons, *] at * <;>
    grind [Syn.bound_heads]

theorem Syn.freeQ_freeD {q : QName} {s : SS} (t : Syn s) (h : q ∈ t.freeQ) :
    q ∈ t.freeD ∨ Plain t.heads q :=
  (t.freeQ_freeD' h).imp_right And.right

theorem Syn.freeD_freeQ {q : QName} {s : SS} (t : Syn s) (h : q ∈ t.freeD) :
    q ∈ t.freeQ ∨ Plain t.declared q := by
  induction t <;> revert h <;>
    simp! only [List.mem_append, List.mem_cons, List.not_mem_nil, or_false, mem_diffQ,
      imp_self, vis_iff, plain_append, plain_nil,
      plain_cons, *] <;>
    grind [Syn.bound_heads]

end Verif.Hash
