import Verif.Hash.Walk

/-
What is asked of the collection of dependencies.  Nothing here looks at how
the collection works: the places where a program refers to a name, the places
where it introduces one, and the names of the groups of declarations are
listed without any account of scopes.
-/

namespace Verif.Hash

/-- The names a type refers to. -/
def Ty.refs : {s : TS} → Ty s → List QName
  | _, .tFun fx p k r => fx.refs ++ p.refs ++ k.refs ++ r.refs
  | _, .tTuple p k => p.refs ++ k.refs
  | _, .tOpt t => t.refs
  | _, .tCon c => c.refs
  | _, .tRow _ _ t r => t.refs ++ r.refs
  | _, .tStar _ r => r.refs
  | _, .tUnboxed t => t.refs
  | _, .tc q ts => q :: ts.refs
  | _, .qBind _ _ cs => cs.refs
  | _, .tSchema q t => q.refs ++ t.refs
  | _, .cons x xs => x.refs ++ xs.refs
  | _, .kType | _, .kProto | _, .kFX | _, .pRow | _, .kRow | _, .kFun _ _ | _, .kUni _
  | _, .kWild | _, .tUni _ _ _ | _, .tVar _ _ | _, .tNone | _, .tWild | _, .tNil _ | _, .tFX _
  | _, .nVar _ | _, .nSVar _ | _, .nDef _ _ | _, .nSig _ _ | _, .nAct _ _ _ _
  | _, .nClass _ _ _ | _, .nProto _ _ _ | _, .nType _ _ | _, .nExt _ _ _ _ _ | _, .nTVar _ _ _
  | _, .nAlias _ | _, .nReserved | _, .bind _ _ | _, .wtcon _ _ | _, .nil => []

/-- The names the annotation of a parameter refers to. -/
def annRefs : Option (Ty .type) → List QName
  | none => []
  | some t => t.refs

/-- The class an `except` clause refers to. -/
def Except.refs : Except → List QName
  | .all => []
  | .except q => [q]
  | .exceptAs q _ => [q]

/-- The name an `except` clause introduces. -/
def Except.intro : Except → List Name
  | .exceptAs _ n => [n]
  | _ => []

/-- The names a piece of program refers to, anywhere in it.  Left out are the
types written in patterns, the indices in the patterns of comprehensions, the
result type and the constraints of a declaration, and the types in boxing marks
and lambda effects. -/
def Syn.refs : {s : SS} → Syn s → List QName
  | _, .expr e => e.refs
  | _, .assign ps e => ps.refs ++ e.refs
  | _, .mutAssign t e => t.refs ++ e.refs
  | _, .augAssign t _ e => t.refs ++ e.refs
  | _, .assert e m => e.refs ++ m.refs
  | _, .delete t => t.refs
  | _, .ret m => m.refs
  | _, .raise e => e.refs
  | _, .ifs bs els => bs.refs ++ els.refs
  | _, .whl e b els => e.refs ++ b.refs ++ els.refs
  | _, .for_ p e b els => p.refs ++ e.refs ++ b.refs ++ els.refs
  | _, .try_ b hs els fin => b.refs ++ hs.refs ++ els.refs ++ fin.refs
  | _, .with_ ws b => ws.refs ++ b.refs
  | _, .data m b => m.refs ++ b.refs
  | _, .varAssign ps e => ps.refs ++ e.refs
  | _, .after e e' => e.refs ++ e'.refs
  | _, .sig _ t _ => t.refs
  | _, .decls ds => ds.refs
  | _, .def_ _ _ p k _ b _ fx _ => p.refs ++ k.refs ++ b.refs ++ fx.refs
  | _, .actor _ _ p k b _ => p.refs ++ k.refs ++ b.refs
  | _, .cls _ _ cs b _ => cs.refs ++ b.refs
  | _, .proto _ _ cs b _ => cs.refs ++ b.refs
  | _, .typedef _ _ t _ => t.refs
  | _, .ext _ c ps b _ => c.refs ++ ps.refs ++ b.refs
  | _, .var q => [q]
  | _, .call f ps ks => f.refs ++ ps.refs ++ ks.refs
  | _, .let_ ss e => ss.refs ++ e.refs
  | _, .tapp f ts => f.refs ++ ts.refs
  | _, .async e => e.refs
  | _, .await e => e.refs
  | _, .index e ix => e.refs ++ ix.refs
  | _, .slice e sl => e.refs ++ sl.refs
  | _, .cond e c e' => e.refs ++ c.refs ++ e'.refs
  | _, .isInst e c => c :: e.refs
  | _, .binop e _ e' => e.refs ++ e'.refs
  | _, .compop e ops => e.refs ++ ops.refs
  | _, .unop _ e => e.refs
  | _, .dot e _ => e.refs
  | _, .rest e _ => e.refs
  | _, .dotI e _ => e.refs
  | _, .restI e _ => e.refs
  | _, .opt e _ => e.refs
  | _, .optChain e => e.refs
  | _, .lambda p k e _ => p.refs ++ k.refs ++ e.refs
  | _, .yield m => m.refs
  | _, .yieldFrom e => e.refs
  | _, .tuple ps ks => ps.refs ++ ks.refs
  | _, .list es => es.refs
  | _, .listComp e c => e.refs ++ c.refs
  | _, .dict as => as.refs
  | _, .dictComp a c => a.refs ++ c.refs
  | _, .set es => es.refs
  | _, .setComp e c => e.refs ++ c.refs
  | _, .paren e => e.refs
  | _, .box _ e => e.refs
  | _, .unbox _ e => e.refs
  | _, .pParen p => p.refs
  | _, .pTuple ps ks => ps.refs ++ ks.refs
  | _, .pList ps p => ps.refs ++ p.refs
  | _, .pData _ ixs => ixs.refs
  | _, .posPar _ t e r => annRefs t ++ e.refs ++ r.refs
  | _, .posSTAR _ t => annRefs t
  | _, .kwdPar _ t e r => annRefs t ++ e.refs ++ r.refs
  | _, .kwdSTAR _ t => annRefs t
  | _, .posArg e r => e.refs ++ r.refs
  | _, .posStar e => e.refs
  | _, .kwdArg _ e r => e.refs ++ r.refs
  | _, .kwdStar e => e.refs
  | _, .posPat p r => p.refs ++ r.refs
  | _, .posPatStar p => p.refs
  | _, .kwdPat _ p r => p.refs ++ r.refs
  | _, .kwdPatStar p => p.refs
  | _, .branch e ss => e.refs ++ ss.refs
  | _, .handler ex ss => ex.refs ++ ss.refs
  | _, .elem e => e.refs
  | _, .star e => e.refs
  | _, .assoc k v => k.refs ++ v.refs
  | _, .starStar e => e.refs
  | _, .opArg _ e => e.refs
  | _, .sliz a b c => a.refs ++ b.refs ++ c.refs
  | _, .compFor _ e c => e.refs ++ c.refs
  | _, .compIf e c => e.refs ++ c.refs
  | _, .withItem e p => e.refs ++ p.refs
  | _, .cons x xs => x.refs ++ xs.refs
  | _, .some x => x.refs
  | _, .pass | _, .brk | _, .cont | _, .int _ _ | _, .float _ _ | _, .imag _ _ | _, .bool _
  | _, .noneE | _, .notImpl | _, .ellipsis | _, .strings _ | _, .bstrings _ | _, .pWild _
  | _, .pVar _ _ | _, .posNIL | _, .kwdNIL | _, .posNil | _, .kwdNil | _, .posPatNil
  | _, .kwdPatNil | _, .noComp | _, .nil | _, .none => []

/-- The names a piece of program introduces, anywhere in it: by patterns,
parameters, signatures, declarations, `except` clauses, and `self` by actors.
An augmented assignment counts as introducing the names its target refers
to. -/
def Syn.intro : {s : SS} → Syn s → List Name
  | _, .expr e => e.intro
  | _, .assign ps e => ps.intro ++ e.intro
  | _, .mutAssign t e => t.intro ++ e.intro
  | _, .augAssign t _ e => t.refs.flatMap QName.free ++ t.intro ++ e.intro
  | _, .assert e m => e.intro ++ m.intro
  | _, .delete t => t.intro
  | _, .ret m => m.intro
  | _, .raise e => e.intro
  | _, .ifs bs els => bs.intro ++ els.intro
  | _, .whl e b els => e.intro ++ b.intro ++ els.intro
  | _, .for_ p e b els => p.intro ++ e.intro ++ b.intro ++ els.intro
  | _, .try_ b hs els fin => b.intro ++ hs.intro ++ els.intro ++ fin.intro
  | _, .with_ ws b => ws.intro ++ b.intro
  | _, .data m b => m.intro ++ b.intro
  | _, .varAssign ps e => ps.intro ++ e.intro
  | _, .after e e' => e.intro ++ e'.intro
  | _, .sig ns _ _ => ns
  | _, .decls ds => ds.intro
  | _, .def_ n _ p k _ b _ _ _ => n :: (p.intro ++ k.intro ++ b.intro)
  | _, .actor n _ p k b _ => n :: selfName :: (p.intro ++ k.intro ++ b.intro)
  | _, .cls n _ _ b _ => n :: b.intro
  | _, .proto n _ _ b _ => n :: b.intro
  | _, .typedef n _ _ _ => [n]
  | _, .ext _ _ _ b _ => b.intro
  | _, .call f ps ks => f.intro ++ ps.intro ++ ks.intro
  | _, .let_ ss e => ss.intro ++ e.intro
  | _, .tapp f _ => f.intro
  | _, .async e => e.intro
  | _, .await e => e.intro
  | _, .index e ix => e.intro ++ ix.intro
  | _, .slice e sl => e.intro ++ sl.intro
  | _, .cond e c e' => e.intro ++ c.intro ++ e'.intro
  | _, .isInst e _ => e.intro
  | _, .binop e _ e' => e.intro ++ e'.intro
  | _, .compop e ops => e.intro ++ ops.intro
  | _, .unop _ e => e.intro
  | _, .dot e _ => e.intro
  | _, .rest e _ => e.intro
  | _, .dotI e _ => e.intro
  | _, .restI e _ => e.intro
  | _, .opt e _ => e.intro
  | _, .optChain e => e.intro
  | _, .lambda p k e _ => p.intro ++ k.intro ++ e.intro
  | _, .yield m => m.intro
  | _, .yieldFrom e => e.intro
  | _, .tuple ps ks => ps.intro ++ ks.intro
  | _, .list es => es.intro
  | _, .listComp e c => e.intro ++ c.intro
  | _, .dict as => as.intro
  | _, .dictComp a c => a.intro ++ c.intro
  | _, .set es => es.intro
  | _, .setComp e c => e.intro ++ c.intro
  | _, .paren e => e.intro
  | _, .box _ e => e.intro
  | _, .unbox _ e => e.intro
  | _, .pVar n _ => [n]
  | _, .pParen p => p.intro
  | _, .pTuple ps ks => ps.intro ++ ks.intro
  | _, .pList ps p => ps.intro ++ p.intro
  | _, .pData n ixs => n :: ixs.intro
  | _, .posPar n _ e r => n :: (e.intro ++ r.intro)
  | _, .posSTAR n _ => [n]
  | _, .kwdPar n _ e r => n :: (e.intro ++ r.intro)
  | _, .kwdSTAR n _ => [n]
  | _, .posArg e r => e.intro ++ r.intro
  | _, .posStar e => e.intro
  | _, .kwdArg _ e r => e.intro ++ r.intro
  | _, .kwdStar e => e.intro
  | _, .posPat p r => p.intro ++ r.intro
  | _, .posPatStar p => p.intro
  | _, .kwdPat _ p r => p.intro ++ r.intro
  | _, .kwdPatStar p => p.intro
  | _, .branch e ss => e.intro ++ ss.intro
  | _, .handler ex ss => ex.intro ++ ss.intro
  | _, .elem e => e.intro
  | _, .star e => e.intro
  | _, .assoc k v => k.intro ++ v.intro
  | _, .starStar e => e.intro
  | _, .opArg _ e => e.intro
  | _, .sliz a b c => a.intro ++ b.intro ++ c.intro
  | _, .compFor p e c => p.intro ++ e.intro ++ c.intro
  | _, .compIf e c => e.intro ++ c.intro
  | _, .withItem e p => e.intro ++ p.intro
  | _, .cons x xs => x.intro ++ xs.intro
  | _, .some x => x.intro
  | _, .pass | _, .brk | _, .cont | _, .var _ | _, .int _ _ | _, .float _ _ | _, .imag _ _
  | _, .bool _ | _, .noneE | _, .notImpl | _, .ellipsis | _, .strings _ | _, .bstrings _
  | _, .pWild _ | _, .posNIL | _, .kwdNIL | _, .posNil | _, .kwdNil | _, .posPatNil
  | _, .kwdPatNil | _, .noComp | _, .nil | _, .none => []

/-- The name a declaration declares, or the names a list of declarations
declares; an extension declares none. -/
def Syn.heads : {s : SS} → Syn s → List Name
  | _, .def_ n _ _ _ _ _ _ _ _ => [n]
  | _, .actor n _ _ _ _ _ => [n]
  | _, .cls n _ _ _ _ => [n]
  | _, .proto n _ _ _ _ => [n]
  | _, .typedef n _ _ _ => [n]
  | _, .cons x xs => x.heads ++ xs.heads
  | _, .some x => x.heads
  | _, .expr _ | _, .assign _ _ | _, .mutAssign _ _ | _, .augAssign _ _ _ | _, .assert _ _
  | _, .pass | _, .delete _ | _, .ret _ | _, .raise _ | _, .brk | _, .cont | _, .ifs _ _
  | _, .whl _ _ _ | _, .for_ _ _ _ _ | _, .try_ _ _ _ _ | _, .with_ _ _ | _, .data _ _
  | _, .varAssign _ _ | _, .after _ _ | _, .sig _ _ _ | _, .decls _ | _, .ext _ _ _ _ _
  | _, .var _ | _, .int _ _ | _, .float _ _ | _, .imag _ _ | _, .bool _ | _, .noneE
  | _, .notImpl | _, .ellipsis | _, .strings _ | _, .bstrings _ | _, .call _ _ _ | _, .let_ _ _
  | _, .tapp _ _ | _, .async _ | _, .await _ | _, .index _ _ | _, .slice _ _ | _, .cond _ _ _
  | _, .isInst _ _ | _, .binop _ _ _ | _, .compop _ _ | _, .unop _ _ | _, .dot _ _
  | _, .rest _ _ | _, .dotI _ _ | _, .restI _ _ | _, .opt _ _ | _, .optChain _
  | _, .lambda _ _ _ _ | _, .yield _ | _, .yieldFrom _ | _, .tuple _ _ | _, .list _
  | _, .listComp _ _ | _, .dict _ | _, .dictComp _ _ | _, .set _ | _, .setComp _ _
  | _, .paren _ | _, .box _ _ | _, .unbox _ _ | _, .pWild _ | _, .pVar _ _ | _, .pParen _
  | _, .pTuple _ _ | _, .pList _ _ | _, .pData _ _ | _, .posPar _ _ _ _ | _, .posSTAR _ _
  | _, .posNIL | _, .kwdPar _ _ _ _ | _, .kwdSTAR _ _ | _, .kwdNIL | _, .posArg _ _
  | _, .posStar _ | _, .posNil | _, .kwdArg _ _ _ | _, .kwdStar _ | _, .kwdNil | _, .posPat _ _
  | _, .posPatStar _ | _, .posPatNil | _, .kwdPat _ _ _ | _, .kwdPatStar _ | _, .kwdPatNil
  | _, .branch _ _ | _, .handler _ _ | _, .elem _ | _, .star _ | _, .assoc _ _ | _, .starStar _
  | _, .opArg _ _ | _, .sliz _ _ _ | _, .compFor _ _ _ | _, .compIf _ _ | _, .noComp
  | _, .withItem _ _ | _, .nil | _, .none => []

/-- The names declared by the groups of declarations in a piece of program,
anywhere in it. -/
def Syn.declared : {s : SS} → Syn s → List Name
  | _, .expr e => e.declared
  | _, .assign ps e => ps.declared ++ e.declared
  | _, .mutAssign t e => t.declared ++ e.declared
  | _, .augAssign t _ e => t.declared ++ e.declared
  | _, .assert e m => e.declared ++ m.declared
  | _, .delete t => t.declared
  | _, .ret m => m.declared
  | _, .raise e => e.declared
  | _, .ifs bs els => bs.declared ++ els.declared
  | _, .whl e b els => e.declared ++ b.declared ++ els.declared
  | _, .for_ p e b els => p.declared ++ e.declared ++ b.declared ++ els.declared
  | _, .try_ b hs els fin => b.declared ++ hs.declared ++ els.declared ++ fin.declared
  | _, .with_ ws b => ws.declared ++ b.declared
  | _, .data m b => m.declared ++ b.declared
  | _, .varAssign ps e => ps.declared ++ e.declared
  | _, .after e e' => e.declared ++ e'.declared
  | _, .decls ds => ds.heads ++ ds.declared
  | _, .def_ _ _ p k _ b _ _ _ => p.declared ++ k.declared ++ b.declared
  | _, .actor _ _ p k b _ => p.declared ++ k.declared ++ b.declared
  | _, .cls _ _ _ b _ => b.declared
  | _, .proto _ _ _ b _ => b.declared
  | _, .ext _ _ _ b _ => b.declared
  | _, .call f ps ks => f.declared ++ ps.declared ++ ks.declared
  | _, .let_ ss e => ss.declared ++ e.declared
  | _, .tapp f _ => f.declared
  | _, .async e => e.declared
  | _, .await e => e.declared
  | _, .index e ix => e.declared ++ ix.declared
  | _, .slice e sl => e.declared ++ sl.declared
  | _, .cond e c e' => e.declared ++ c.declared ++ e'.declared
  | _, .isInst e _ => e.declared
  | _, .binop e _ e' => e.declared ++ e'.declared
  | _, .compop e ops => e.declared ++ ops.declared
  | _, .unop _ e => e.declared
  | _, .dot e _ => e.declared
  | _, .rest e _ => e.declared
  | _, .dotI e _ => e.declared
  | _, .restI e _ => e.declared
  | _, .opt e _ => e.declared
  | _, .optChain e => e.declared
  | _, .lambda p k e _ => p.declared ++ k.declared ++ e.declared
  | _, .yield m => m.declared
  | _, .yieldFrom e => e.declared
  | _, .tuple ps ks => ps.declared ++ ks.declared
  | _, .list es => es.declared
  | _, .listComp e c => e.declared ++ c.declared
  | _, .dict as => as.declared
  | _, .dictComp a c => a.declared ++ c.declared
  | _, .set es => es.declared
  | _, .setComp e c => e.declared ++ c.declared
  | _, .paren e => e.declared
  | _, .box _ e => e.declared
  | _, .unbox _ e => e.declared
  | _, .pParen p => p.declared
  | _, .pTuple ps ks => ps.declared ++ ks.declared
  | _, .pList ps p => ps.declared ++ p.declared
  | _, .pData _ ixs => ixs.declared
  | _, .posPar _ _ e r => e.declared ++ r.declared
  | _, .kwdPar _ _ e r => e.declared ++ r.declared
  | _, .posArg e r => e.declared ++ r.declared
  | _, .posStar e => e.declared
  | _, .kwdArg _ e r => e.declared ++ r.declared
  | _, .kwdStar e => e.declared
  | _, .posPat p r => p.declared ++ r.declared
  | _, .posPatStar p => p.declared
  | _, .kwdPat _ p r => p.declared ++ r.declared
  | _, .kwdPatStar p => p.declared
  | _, .branch e ss => e.declared ++ ss.declared
  | _, .handler _ ss => ss.declared
  | _, .elem e => e.declared
  | _, .star e => e.declared
  | _, .assoc k v => k.declared ++ v.declared
  | _, .starStar e => e.declared
  | _, .opArg _ e => e.declared
  | _, .sliz a b c => a.declared ++ b.declared ++ c.declared
  | _, .compFor p e c => p.declared ++ e.declared ++ c.declared
  | _, .compIf e c => e.declared ++ c.declared
  | _, .withItem e p => e.declared ++ p.declared
  | _, .cons x xs => x.declared ++ xs.declared
  | _, .some x => x.declared
  | _, .pass | _, .brk | _, .cont | _, .sig _ _ _ | _, .typedef _ _ _ _ | _, .var _
  | _, .int _ _ | _, .float _ _ | _, .imag _ _ | _, .bool _ | _, .noneE | _, .notImpl
  | _, .ellipsis | _, .strings _ | _, .bstrings _ | _, .pWild _ | _, .pVar _ _
  | _, .posSTAR _ _ | _, .posNIL | _, .kwdSTAR _ _ | _, .kwdNIL | _, .posNil | _, .kwdNil
  | _, .posPatNil | _, .kwdPatNil | _, .noComp | _, .nil | _, .none => []

/-- The references of an item. -/
def TopItem.refs : TopItem → List QName
  | .decl _ d => d.refs
  | .stmt _ s => s.refs

/-- The names an item introduces. -/
def TopItem.intro : TopItem → List Name
  | .decl _ d => d.intro
  | .stmt _ s => s.intro

/-- The name the declaration of an item declares. -/
def TopItem.heads : TopItem → List Name
  | .decl _ d => d.heads
  | .stmt _ _ => []

/-- The names declared by the groups of declarations in an item. -/
def TopItem.declared : TopItem → List Name
  | .decl _ d => d.declared
  | .stmt _ s => s.declared

/-- A dependency: on an item of the same module, or on a name of another. -/
inductive Dep where
  | loc (n : Name)
  | ext (q : QName)

/-- `d` is among the collected dependencies. -/
def Dep.In (d : Dep) (a : Split) : Prop :=
  match d with
  | .loc n => n ∈ a.1
  | .ext q => q ∈ a.2

/-- The name `q`, read at the top level of the module, is a dependency `d`: it
is an item of the module, under its plain name or its full name, or it is a
name of another module that is not the module of primitives. -/
inductive Ctx.Means (c : Ctx) : QName → Dep → Prop
  | plain {n} (h : n ∈ c.locals) : c.Means (.noQ n) (.loc n)
  | aliased {q n} (hq : ∀ x, q = .noQ x → x ∉ c.locals) (h : n ∈ c.locals)
      (hu : c.unalias q = .noQ n) : c.Means q (.loc n)
  | own {q m n} (hq : ∀ x, q = .noQ x → x ∉ c.locals) (h : n ∈ c.locals)
      (hu : c.unalias q = .gname m n ∨ c.unalias q = .qname m n)
      (hm : m = c.mn) (hp : m ≠ c.prim) : c.Means q (.loc n)
  | other {q m n} (hq : ∀ x, q = .noQ x → x ∉ c.locals)
      (hu : c.unalias q = .gname m n ∨ c.unalias q = .qname m n)
      (hm : m ≠ c.mn) (hp : m ≠ c.prim) : c.Means q (.ext (.gname m n))

end Verif.Hash
