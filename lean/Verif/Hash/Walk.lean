import Verif.Hash.Model

/-
The collection of the implementation dependencies of top-level items, of
`compiler/lib/src/Acton/Hashing.hs`, and the free and bound names of
`compiler/lib/src/Acton/Names.hs` that the reference collection is made of.

Cited lines are those of `Hashing.hs` unless `Names.hs` is named.

Sets of names (`Data.Set`, `HashSet`) are lists of which only membership is
looked at; the code's lists of dependencies are the sorted elements of the
sets.  The environment is the function `unalias` (Env.hs), which is not
modelled: it is any function from names to names.
-/

namespace Verif.Hash

/-! ## The free and bound names of `Names.hs` -/

/-- `diffQ`, Names.hs lines 173-181. -/
def diffQ (qs : List QName) (ns : List Name) : List QName :=
  qs.filter fun q => match q with
    | .noQ n => !ns.contains n
    | _ => true

/-- `freeQ` of types, Names.hs lines 440-472.  An entry of an interface has no
`freeQ`. -/
def Ty.freeQ : {s : TS} → Ty s → List QName
  | _, .tFun fx p k r => fx.freeQ ++ p.freeQ ++ k.freeQ ++ r.freeQ
  | _, .tTuple p k => p.freeQ ++ k.freeQ
  | _, .tOpt t => t.freeQ
  | _, .tCon c => c.freeQ
  | _, .tRow _ _ t r => t.freeQ ++ r.freeQ
  | _, .tStar _ r => r.freeQ
  | _, .tUnboxed t => t.freeQ
  | _, .tc q ts => [q] ++ ts.freeQ
  | _, .qBind _ _ cs => cs.freeQ
  | _, .tSchema q t => q.freeQ ++ t.freeQ
  | _, .nil => []
  | _, .cons x xs => x.freeQ ++ xs.freeQ
  | _, .kType | _, .kProto | _, .kFX | _, .pRow | _, .kRow | _, .kFun _ _ | _, .kUni _
  | _, .kWild | _, .tUni _ _ _ | _, .tVar _ _ | _, .tNone | _, .tWild | _, .tNil _ | _, .tFX _
  | _, .nVar _ | _, .nSVar _ | _, .nDef _ _ | _, .nSig _ _ | _, .nAct _ _ _ _
  | _, .nClass _ _ _ | _, .nProto _ _ _ | _, .nType _ _ | _, .nExt _ _ _ _ _ | _, .nTVar _ _ _
  | _, .nAlias _ | _, .nReserved | _, .bind _ _ | _, .wtcon _ _ => []

/-- `freeQ` of an optional annotation, Names.hs lines 189-193. -/
def freeAnn : Option (Ty .type) → List QName
  | none => []
  | some t => t.freeQ

/-- `freeQ` of an `Except`, Names.hs lines 324-327. -/
def Except.freeQ : Except → List QName
  | .all => []
  | .except q => [q]
  | .exceptAs q _ => [q]

/-- `bound` of an `Except`, Names.hs lines 329-331. -/
def Except.bound : Except → List Name
  | .exceptAs _ n => [n]
  | _ => []

/-- `free` of names with a module, Names.hs lines 307-316, applied to the
result of `freeQ` (line 168).  An empty module name, for which the code fails,
gives nothing. -/
def QName.free : QName → List Name
  | .qname m _ => m.take 1
  | .noQ n => [n]
  | .gname m _ => m.take 1

/-- The name `self`, Names.hs line 34. -/
def selfName : Name := .name [115, 101, 108, 102]

mutual

/-- `freeQ`, Names.hs lines 195-216 (statements), 240-247 (declarations), 257,
261 (branches, handlers), 264-305 (expressions), 333-412 (parts), 415-421
(patterns).  The type variables of a declaration bind nothing: `bound`
of a `QBind` is the default, the empty list (line 170). -/
def Syn.freeQ : {s : SS} → Syn s → List QName
  | _, .expr e => e.freeQ
  | _, .assign ps e => ps.freeQ ++ e.freeQ
  | _, .mutAssign t e => t.freeQ ++ e.freeQ
  | _, .augAssign t _ e => t.freeQ ++ e.freeQ
  | _, .assert e m => e.freeQ ++ m.freeQ
  | _, .pass => []
  | _, .delete t => t.freeQ
  | _, .ret m => m.freeQ
  | _, .raise e => e.freeQ
  | _, .brk => []
  | _, .cont => []
  | _, .ifs bs els => bs.freeQ ++ els.freeQ
  | _, .whl e b els => e.freeQ ++ b.freeQ ++ els.freeQ
  | _, .for_ p e b els => p.freeQ ++ e.freeQ ++ diffQ b.freeQ p.bound ++ els.freeQ
  | _, .try_ b hs els fin => b.freeQ ++ hs.freeQ ++ els.freeQ ++ fin.freeQ
  | _, .with_ ws b => ws.freeQ ++ diffQ b.freeQ ws.bound
  | _, .data m b => m.freeQ ++ b.freeQ
  | _, .varAssign ps e => ps.freeQ ++ e.freeQ
  | _, .after e e' => e.freeQ ++ e'.freeQ
  | _, .sig _ t _ => t.freeQ
  | _, .decls ds => diffQ ds.freeQ ds.bound
  | _, .def_ _ _ p k _ b _ fx _ =>
    diffQ (p.freeQ ++ k.freeQ ++ b.freeQ ++ fx.freeQ) (p.bound ++ k.bound ++ b.assigned)
  | _, .actor _ _ p k b _ =>
    diffQ (p.freeQ ++ k.freeQ ++ b.freeQ) (selfName :: (p.bound ++ k.bound ++ b.assigned))
  | _, .cls _ _ cs b _ => diffQ (cs.freeQ ++ b.freeQ) b.assigned
  | _, .proto _ _ cs b _ => diffQ (cs.freeQ ++ b.freeQ) b.assigned
  | _, .typedef _ _ t _ => t.freeQ
  | _, .ext _ c ps b _ => diffQ (c.freeQ ++ ps.freeQ ++ b.freeQ) b.assigned
  | _, .var q => [q]
  | _, .int _ _ => []
  | _, .float _ _ => []
  | _, .imag _ _ => []
  | _, .bool _ => []
  | _, .noneE => []
  | _, .notImpl => []
  | _, .ellipsis => []
  | _, .strings _ => []
  | _, .bstrings _ => []
  | _, .call f ps ks => f.freeQ ++ ps.freeQ ++ ks.freeQ
  | _, .let_ ss e => ss.freeQ ++ diffQ e.freeQ ss.bound
  | _, .tapp f ts => f.freeQ ++ ts.freeQ
  | _, .async e => e.freeQ
  | _, .await e => e.freeQ
  | _, .index e ix => e.freeQ ++ ix.freeQ
  | _, .slice e sl => e.freeQ ++ sl.freeQ
  | _, .cond e c e' => e.freeQ ++ c.freeQ ++ e'.freeQ
  | _, .isInst e c => e.freeQ ++ [c]
  | _, .binop e _ e' => e.freeQ ++ e'.freeQ
  | _, .compop e ops => e.freeQ ++ ops.freeQ
  | _, .unop _ e => e.freeQ
  | _, .dot e _ => e.freeQ
  | _, .rest e _ => e.freeQ
  | _, .dotI e _ => e.freeQ
  | _, .restI e _ => e.freeQ
  | _, .opt e _ => e.freeQ
  | _, .optChain e => e.freeQ
  | _, .lambda p k e _ => p.freeQ ++ k.freeQ ++ diffQ e.freeQ (p.bound ++ k.bound)
  | _, .yield m => m.freeQ
  | _, .yieldFrom e => e.freeQ
  | _, .tuple ps ks => ps.freeQ ++ ks.freeQ
  | _, .list es => es.freeQ
  | _, .listComp e c => diffQ e.freeQ c.bound ++ c.freeQ
  | _, .dict as => as.freeQ
  | _, .dictComp a c => diffQ a.freeQ c.bound ++ c.freeQ
  | _, .set es => es.freeQ
  | _, .setComp e c => diffQ e.freeQ c.bound ++ c.freeQ
  | _, .paren e => e.freeQ
  | _, .box _ e => e.freeQ
  | _, .unbox _ e => e.freeQ
  | _, .pWild _ => []
  | _, .pVar _ _ => []
  | _, .pParen p => p.freeQ
  | _, .pTuple ps ks => ps.freeQ ++ ks.freeQ
  | _, .pList ps p => ps.freeQ ++ p.freeQ
  | _, .pData _ ixs => ixs.freeQ
  | _, .posPar _ t e r => freeAnn t ++ e.freeQ ++ r.freeQ
  | _, .posSTAR _ t => freeAnn t
  | _, .posNIL => []
  | _, .kwdPar _ t e r => freeAnn t ++ e.freeQ ++ r.freeQ
  | _, .kwdSTAR _ t => freeAnn t
  | _, .kwdNIL => []
  | _, .posArg e r => e.freeQ ++ r.freeQ
  | _, .posStar e => e.freeQ
  | _, .posNil => []
  | _, .kwdArg _ e r => e.freeQ ++ r.freeQ
  | _, .kwdStar e => e.freeQ
  | _, .kwdNil => []
  | _, .posPat p r => p.freeQ ++ r.freeQ
  | _, .posPatStar p => p.freeQ
  | _, .posPatNil => []
  | _, .kwdPat _ p r => p.freeQ ++ r.freeQ
  | _, .kwdPatStar p => p.freeQ
  | _, .kwdPatNil => []
  | _, .branch e ss => e.freeQ ++ ss.freeQ
  | _, .handler ex ss => ex.freeQ ++ diffQ ss.freeQ ex.bound
  | _, .elem e => e.freeQ
  | _, .star e => e.freeQ
  | _, .assoc k v => k.freeQ ++ v.freeQ
  | _, .starStar e => e.freeQ
  | _, .opArg _ e => e.freeQ
  | _, .sliz a b c => a.freeQ ++ b.freeQ ++ c.freeQ
  | _, .compFor p e c => diffQ (e.freeQ ++ c.freeQ) p.bound
  | _, .compIf e c => e.freeQ ++ c.freeQ
  | _, .noComp => []
  | _, .withItem e p => e.freeQ ++ p.freeQ
  | _, .nil => []
  | _, .cons x xs => x.freeQ ++ xs.freeQ
  | _, .none => []
  | _, .some x => x.freeQ

/-- `bound`, Names.hs lines 218-226 (statements), 249-254 (declarations), 258,
262 (branches, handlers), 338-349 (parameters), 370 (with items), 393-395
(comprehensions), 402-413 (sub-patterns), 423-428 (patterns); the default,
nothing, for the other types (line 170). -/
def Syn.bound : {s : SS} → Syn s → List Name
  | _, .assign ps _ => ps.bound
  | _, .varAssign ps _ => ps.bound
  | _, .augAssign t _ _ => t.freeQ.flatMap QName.free
  | _, .decls ds => ds.bound
  | _, .sig ns _ _ => ns
  | _, .ifs bs els => bs.bound ++ els.bound
  | _, .whl _ b els => b.bound ++ els.bound
  | _, .with_ _ b => b.bound
  | _, .def_ n _ _ _ _ _ _ _ _ => [n]
  | _, .actor n _ _ _ _ _ => [n]
  | _, .cls n _ _ _ _ => [n]
  | _, .proto n _ _ _ _ => [n]
  | _, .typedef n _ _ _ => [n]
  | _, .branch _ ss => ss.bound
  | _, .handler ex ss => ss.bound ++ ex.bound
  | _, .posPar n _ _ r => n :: r.bound
  | _, .posSTAR n _ => [n]
  | _, .kwdPar n _ _ r => n :: r.bound
  | _, .kwdSTAR n _ => [n]
  | _, .withItem _ p => p.bound
  | _, .compFor p _ c => p.bound ++ c.bound
  | _, .compIf _ c => c.bound
  | _, .posPat p r => p.bound ++ r.bound
  | _, .posPatStar p => p.bound
  | _, .kwdPat _ p r => p.bound ++ r.bound
  | _, .kwdPatStar p => p.bound
  | _, .pVar n _ => [n]
  | _, .pTuple ps ks => ps.bound ++ ks.bound
  | _, .pList ps p => ps.bound ++ p.bound
  | _, .pParen p => p.bound
  | _, .pData n _ => [n]
  | _, .cons x xs => x.bound ++ xs.bound
  | _, .some x => x.bound
  | _, .expr _ | _, .mutAssign _ _ | _, .assert _ _ | _, .pass | _, .delete _ | _, .ret _
  | _, .raise _ | _, .brk | _, .cont | _, .for_ _ _ _ _ | _, .try_ _ _ _ _ | _, .data _ _
  | _, .after _ _ | _, .ext _ _ _ _ _ | _, .var _ | _, .int _ _ | _, .float _ _ | _, .imag _ _
  | _, .bool _ | _, .noneE | _, .notImpl | _, .ellipsis | _, .strings _ | _, .bstrings _
  | _, .call _ _ _ | _, .let_ _ _ | _, .tapp _ _ | _, .async _ | _, .await _ | _, .index _ _
  | _, .slice _ _ | _, .cond _ _ _ | _, .isInst _ _ | _, .binop _ _ _ | _, .compop _ _
  | _, .unop _ _ | _, .dot _ _ | _, .rest _ _ | _, .dotI _ _ | _, .restI _ _ | _, .opt _ _
  | _, .optChain _ | _, .lambda _ _ _ _ | _, .yield _ | _, .yieldFrom _ | _, .tuple _ _
  | _, .list _ | _, .listComp _ _ | _, .dict _ | _, .dictComp _ _ | _, .set _ | _, .setComp _ _
  | _, .paren _ | _, .box _ _ | _, .unbox _ _ | _, .pWild _ | _, .posNIL | _, .kwdNIL
  | _, .posArg _ _ | _, .posStar _ | _, .posNil | _, .kwdArg _ _ _ | _, .kwdStar _ | _, .kwdNil
  | _, .posPatNil | _, .kwdPatNil | _, .elem _ | _, .star _ | _, .assoc _ _ | _, .starStar _
  | _, .opArg _ _ | _, .sliz _ _ _ | _, .noComp | _, .nil | _, .none => []

/-- `assigned`, Names.hs lines 229-237: the clauses for statements are those of
`assig`, the clauses for branches and handlers those of the list
comprehensions of lines 233 and 234. -/
def Syn.assigned : {s : SS} → Syn s → List Name
  | _, .whl _ b els => b.assigned ++ els.assigned
  | _, .for_ p _ b els => b.assigned ++ els.assigned ++ p.bound
  | _, .with_ ws b => b.assigned ++ ws.bound
  | _, .try_ b hs els fin => b.assigned ++ hs.assigned ++ els.assigned ++ fin.assigned
  | _, .ifs bs els => bs.assigned ++ els.assigned
  | _, .assign ps _ => ps.bound
  | _, .varAssign ps _ => ps.bound
  | _, .augAssign t _ _ => t.freeQ.flatMap QName.free
  | _, .decls ds => ds.bound
  | _, .sig ns _ _ => ns
  | _, .branch _ ss => ss.assigned
  | _, .handler ex ss => ex.bound ++ ss.assigned
  | _, .nil => []
  | _, .cons x xs => x.assigned ++ xs.assigned
  | _, .expr _ | _, .mutAssign _ _ | _, .assert _ _ | _, .pass | _, .delete _ | _, .ret _
  | _, .raise _ | _, .brk | _, .cont | _, .data _ _ | _, .after _ _
  | _, .def_ _ _ _ _ _ _ _ _ _ | _, .actor _ _ _ _ _ _ | _, .cls _ _ _ _ _
  | _, .proto _ _ _ _ _ | _, .typedef _ _ _ _ | _, .ext _ _ _ _ _ | _, .var _ | _, .int _ _
  | _, .float _ _ | _, .imag _ _ | _, .bool _ | _, .noneE | _, .notImpl | _, .ellipsis
  | _, .strings _ | _, .bstrings _ | _, .call _ _ _ | _, .let_ _ _ | _, .tapp _ _ | _, .async _
  | _, .await _ | _, .index _ _ | _, .slice _ _ | _, .cond _ _ _ | _, .isInst _ _
  | _, .binop _ _ _ | _, .compop _ _ | _, .unop _ _ | _, .dot _ _ | _, .rest _ _ | _, .dotI _ _
  | _, .restI _ _ | _, .opt _ _ | _, .optChain _ | _, .lambda _ _ _ _ | _, .yield _
  | _, .yieldFrom _ | _, .tuple _ _ | _, .list _ | _, .listComp _ _ | _, .dict _
  | _, .dictComp _ _ | _, .set _ | _, .setComp _ _ | _, .paren _ | _, .box _ _ | _, .unbox _ _
  | _, .pWild _ | _, .pVar _ _ | _, .pParen _ | _, .pTuple _ _ | _, .pList _ _ | _, .pData _ _
  | _, .posPar _ _ _ _ | _, .posSTAR _ _ | _, .posNIL | _, .kwdPar _ _ _ _ | _, .kwdSTAR _ _
  | _, .kwdNIL | _, .posArg _ _ | _, .posStar _ | _, .posNil | _, .kwdArg _ _ _ | _, .kwdStar _
  | _, .kwdNil | _, .posPat _ _ | _, .posPatStar _ | _, .posPatNil | _, .kwdPat _ _ _
  | _, .kwdPatStar _ | _, .kwdPatNil | _, .elem _ | _, .star _ | _, .assoc _ _ | _, .starStar _
  | _, .opArg _ _ | _, .sliz _ _ _ | _, .compFor _ _ _ | _, .compIf _ _ | _, .noComp
  | _, .withItem _ _ | _, .none | _, .some _ => []

end

/-! ## The bound names of `Hashing.hs` -/

/-- `boundExcept`, lines 983-986. -/
def Except.bnd : Except → List Name → List Name
  | .exceptAs _ n, acc => n :: acc
  | _, acc => acc

/-- `depsNameSetInto`, lines 1057-1058. -/
def namesInto (ns acc : List Name) : List Name :=
  ns.foldl (fun acc n => n :: acc) acc

/-- `boundStmt`, `boundSuite`, `boundDecl`, `boundBranch`, `boundHandler`,
`boundPattern`, `boundPosPar`, `boundKwdPar`, `boundPosPat`, `boundKwdPat`,
`boundWithItem`, `boundComp`, lines 953-1028, with `boundMaybe` and
`boundList`, lines 909-914.  The parts of a program without such a function
add nothing. -/
def Syn.bnd : {s : SS} → Syn s → List Name → List Name
  | _, .assign ps _, acc => ps.bnd acc
  | _, .varAssign ps _, acc => ps.bnd acc
  | _, .augAssign t _ _, acc => namesInto (t.freeQ.flatMap QName.free) acc
  | _, .decls ds, acc => ds.bnd acc
  | _, .sig ns _ _, acc => namesInto ns acc
  | _, .ifs bs els, acc => els.bnd (bs.bnd acc)
  | _, .whl _ b els, acc => els.bnd (b.bnd acc)
  | _, .with_ _ b, acc => b.bnd acc
  | _, .def_ n _ _ _ _ _ _ _ _, acc => n :: acc
  | _, .actor n _ _ _ _ _, acc => n :: acc
  | _, .cls n _ _ _ _, acc => n :: acc
  | _, .proto n _ _ _ _, acc => n :: acc
  | _, .typedef n _ _ _, acc => n :: acc
  | _, .branch _ ss, acc => ss.bnd acc
  | _, .handler ex ss, acc => ex.bnd (ss.bnd acc)
  | _, .posPar n _ _ r, acc => r.bnd (n :: acc)
  | _, .posSTAR n _, acc => n :: acc
  | _, .kwdPar n _ _ r, acc => r.bnd (n :: acc)
  | _, .kwdSTAR n _, acc => n :: acc
  | _, .withItem _ p, acc => p.bnd acc
  | _, .compFor p _ c, acc => c.bnd (p.bnd acc)
  | _, .compIf _ c, acc => c.bnd acc
  | _, .posPat p r, acc => r.bnd (p.bnd acc)
  | _, .posPatStar p, acc => p.bnd acc
  | _, .kwdPat _ p r, acc => r.bnd (p.bnd acc)
  | _, .kwdPatStar p, acc => p.bnd acc
  | _, .pVar n _, acc => n :: acc
  | _, .pTuple ps ks, acc => ks.bnd (ps.bnd acc)
  | _, .pList ps p, acc => p.bnd (ps.bnd acc)
  | _, .pParen p, acc => p.bnd acc
  | _, .pData n _, acc => n :: acc
  | _, .cons x xs, acc => xs.bnd (x.bnd acc)
  | _, .some x, acc => x.bnd acc
  | _, .expr _, acc | _, .mutAssign _ _, acc | _, .assert _ _, acc | _, .pass, acc
  | _, .delete _, acc | _, .ret _, acc | _, .raise _, acc | _, .brk, acc | _, .cont, acc
  | _, .for_ _ _ _ _, acc | _, .try_ _ _ _ _, acc | _, .data _ _, acc | _, .after _ _, acc
  | _, .ext _ _ _ _ _, acc | _, .var _, acc | _, .int _ _, acc | _, .float _ _, acc
  | _, .imag _ _, acc | _, .bool _, acc | _, .noneE, acc | _, .notImpl, acc | _, .ellipsis, acc
  | _, .strings _, acc | _, .bstrings _, acc | _, .call _ _ _, acc | _, .let_ _ _, acc
  | _, .tapp _ _, acc | _, .async _, acc | _, .await _, acc | _, .index _ _, acc
  | _, .slice _ _, acc | _, .cond _ _ _, acc | _, .isInst _ _, acc | _, .binop _ _ _, acc
  | _, .compop _ _, acc | _, .unop _ _, acc | _, .dot _ _, acc | _, .rest _ _, acc
  | _, .dotI _ _, acc | _, .restI _ _, acc | _, .opt _ _, acc | _, .optChain _, acc
  | _, .lambda _ _ _ _, acc | _, .yield _, acc | _, .yieldFrom _, acc | _, .tuple _ _, acc
  | _, .list _, acc | _, .listComp _ _, acc | _, .dict _, acc | _, .dictComp _ _, acc
  | _, .set _, acc | _, .setComp _ _, acc | _, .paren _, acc | _, .box _ _, acc
  | _, .unbox _ _, acc | _, .pWild _, acc | _, .posNIL, acc | _, .kwdNIL, acc
  | _, .posArg _ _, acc | _, .posStar _, acc | _, .posNil, acc | _, .kwdArg _ _ _, acc
  | _, .kwdStar _, acc | _, .kwdNil, acc | _, .posPatNil, acc | _, .kwdPatNil, acc
  | _, .elem _, acc | _, .star _, acc | _, .assoc _ _, acc | _, .starStar _, acc
  | _, .opArg _ _, acc | _, .sliz _ _ _, acc | _, .noComp, acc | _, .nil, acc | _, .none, acc => acc

/-- `assignedSuite`, `assignedStmt`, `assignedBranch`, `assignedHandler`,
lines 1033-1052. -/
def Syn.asg : {s : SS} → Syn s → List Name → List Name
  | _, .whl _ b els, acc => els.asg (b.asg acc)
  | _, .for_ p _ b els, acc => p.bnd (els.asg (b.asg acc))
  | _, .with_ ws b, acc => ws.bnd (b.asg acc)
  | _, .try_ b hs els fin, acc => fin.asg (els.asg (hs.asg (b.asg acc)))
  | _, .ifs bs els, acc => els.asg (bs.asg acc)
  | _, .assign ps _, acc => ps.bnd acc
  | _, .varAssign ps _, acc => ps.bnd acc
  | _, .branch _ ss, acc => ss.asg acc
  | _, .handler ex ss, acc => ss.asg (ex.bnd acc)
  | _, .cons x xs, acc => xs.asg (x.asg acc)
  | _, .augAssign t op e, acc => (Syn.augAssign t op e).bnd acc
  | _, .decls ds, acc => (Syn.decls ds).bnd acc
  | _, .sig ns t d, acc => (Syn.sig ns t d).bnd acc
  | _, .expr _, acc | _, .mutAssign _ _, acc | _, .assert _ _, acc | _, .pass, acc
  | _, .delete _, acc | _, .ret _, acc | _, .raise _, acc | _, .brk, acc | _, .cont, acc
  | _, .data _ _, acc | _, .after _ _, acc | _, .def_ _ _ _ _ _ _ _ _ _, acc
  | _, .actor _ _ _ _ _ _, acc | _, .cls _ _ _ _ _, acc | _, .proto _ _ _ _ _, acc
  | _, .typedef _ _ _ _, acc | _, .ext _ _ _ _ _, acc | _, .var _, acc | _, .int _ _, acc
  | _, .float _ _, acc | _, .imag _ _, acc | _, .bool _, acc | _, .noneE, acc
  | _, .notImpl, acc | _, .ellipsis, acc | _, .strings _, acc | _, .bstrings _, acc
  | _, .call _ _ _, acc | _, .let_ _ _, acc | _, .tapp _ _, acc | _, .async _, acc
  | _, .await _, acc | _, .index _ _, acc | _, .slice _ _, acc | _, .cond _ _ _, acc
  | _, .isInst _ _, acc | _, .binop _ _ _, acc | _, .compop _ _, acc | _, .unop _ _, acc
  | _, .dot _ _, acc | _, .rest _ _, acc | _, .dotI _ _, acc | _, .restI _ _, acc
  | _, .opt _ _, acc | _, .optChain _, acc | _, .lambda _ _ _ _, acc | _, .yield _, acc
  | _, .yieldFrom _, acc | _, .tuple _ _, acc | _, .list _, acc | _, .listComp _ _, acc
  | _, .dict _, acc | _, .dictComp _ _, acc | _, .set _, acc | _, .setComp _ _, acc
  | _, .paren _, acc | _, .box _ _, acc | _, .unbox _ _, acc | _, .pWild _, acc
  | _, .pVar _ _, acc | _, .pParen _, acc | _, .pTuple _ _, acc | _, .pList _ _, acc
  | _, .pData _ _, acc | _, .posPar _ _ _ _, acc | _, .posSTAR _ _, acc | _, .posNIL, acc
  | _, .kwdPar _ _ _ _, acc | _, .kwdSTAR _ _, acc | _, .kwdNIL, acc | _, .posArg _ _, acc
  | _, .posStar _, acc | _, .posNil, acc | _, .kwdArg _ _ _, acc | _, .kwdStar _, acc
  | _, .kwdNil, acc | _, .posPat _ _, acc | _, .posPatStar _, acc | _, .posPatNil, acc
  | _, .kwdPat _ _ _, acc | _, .kwdPatStar _, acc | _, .kwdPatNil, acc | _, .elem _, acc
  | _, .star _, acc | _, .assoc _ _, acc | _, .starStar _, acc | _, .opArg _ _, acc
  | _, .sliz _ _ _, acc | _, .compFor _ _ _, acc | _, .compIf _ _, acc | _, .noComp, acc
  | _, .withItem _ _, acc | _, .nil, acc | _, .none, acc | _, .some _, acc => acc

/-! ## Splitting into local and external dependencies -/

/-- What the split looks at: the module being compiled, the module of
primitives, `Env.unalias`, and the names of the top-level items. -/
structure Ctx where
  /-- the module -/
  mn : List Name
  /-- `mPrim` -/
  prim : List Name
  /-- `Env.unalias env` -/
  unalias : QName → QName
  /-- `localNames` -/
  locals : List Name

/-- `DepSplit`, line 1060, and the pairs of sets of line 1332: the local names
and the names of other modules. -/
abbrev Split := List Name × List QName

/-- The result of `Env.unalias`, sorted into local and external: the inner
`case` of `addSplitDep`, lines 1338-1352. -/
def Ctx.sort (c : Ctx) (a : Split) (n : Name) (m : List Name) : Split :=
  if m = c.prim then a
  else if m = c.mn ∧ n ∈ c.locals then (n :: a.1, a.2)
  else if m = c.mn then a
  else (a.1, .gname m n :: a.2)

/-- `addSplitDep`, lines 1335-1352, and its copy `addSplitDepHash`, lines
1354-1371. -/
def Ctx.add (c : Ctx) (a : Split) (q : QName) : Split :=
  let rest := match c.unalias q with
    | .gname m n => c.sort a n m
    | .qname m n => c.sort a n m
    | .noQ n => if n ∈ c.locals then (n :: a.1, a.2) else a
  match q with
  | .noQ n => if n ∈ c.locals then (n :: a.1, a.2) else rest
  | _ => rest

/-- `insertQNameDep`, lines 1072-1077. -/
def Ctx.ins (c : Ctx) (bound : List Name) (q : QName) (a : Split) : Split :=
  match q with
  | .noQ n => if n ∈ bound then a else c.add a q
  | _ => c.add a q

/-- `splitTSchemaDirect`, `splitQBindDirect`, `splitTConDirect`,
`splitTypeDirect`, lines 1297-1321. -/
def Ctx.walkTy (c : Ctx) (bound : List Name) : {s : TS} → Ty s → Split → Split
  | _, .tFun fx p k r, a =>
    c.walkTy bound r (c.walkTy bound k (c.walkTy bound p (c.walkTy bound fx a)))
  | _, .tTuple p k, a => c.walkTy bound k (c.walkTy bound p a)
  | _, .tOpt t, a => c.walkTy bound t a
  | _, .tCon tc, a => c.walkTy bound tc a
  | _, .tRow _ _ t r, a => c.walkTy bound r (c.walkTy bound t a)
  | _, .tStar _ r, a => c.walkTy bound r a
  | _, .tUnboxed t, a => c.walkTy bound t a
  | _, .tc q ts, a => c.walkTy bound ts (c.ins bound q a)
  | _, .qBind _ _ cs, a => c.walkTy bound cs a
  | _, .tSchema q t, a => c.walkTy bound t (c.walkTy bound q a)
  | _, .cons x xs, a => c.walkTy bound xs (c.walkTy bound x a)
  | _, .kType, a | _, .kProto, a | _, .kFX, a | _, .pRow, a | _, .kRow, a | _, .kFun _ _, a
  | _, .kUni _, a | _, .kWild, a | _, .tUni _ _ _, a | _, .tVar _ _, a | _, .tNone, a
  | _, .tWild, a | _, .tNil _, a | _, .tFX _, a | _, .nVar _, a | _, .nSVar _, a
  | _, .nDef _ _, a | _, .nSig _ _, a | _, .nAct _ _ _ _, a | _, .nClass _ _ _, a
  | _, .nProto _ _ _, a | _, .nType _ _, a | _, .nExt _ _ _ _ _, a | _, .nTVar _ _ _, a
  | _, .nAlias _, a | _, .nReserved, a | _, .bind _ _, a | _, .wtcon _ _, a | _, .nil, a => a

/-- `splitMaybeInto`, lines 1079-1081, of `splitTypeDirect`. -/
def Ctx.walkAnn (c : Ctx) (bound : List Name) : Option (Ty .type) → Split → Split
  | none, a => a
  | some t, a => c.walkTy bound t a

/-- `splitExceptDirect`, lines 1239-1242. -/
def Ctx.walkExcept (c : Ctx) (bound : List Name) : Except → Split → Split
  | .all, a => a
  | .except q, a => c.ins bound q a
  | .exceptAs q _, a => c.ins bound q a

/-- The local functions of `implItemSplitDeps`, lines 1120-1295, with
`splitMaybeInto` and `splitListInto`, lines 1079-1084. -/
def Ctx.walk (c : Ctx) : {s : SS} → List Name → Syn s → Split → Split
  | _, Γ, .expr e, a => c.walk Γ e a
  | _, Γ, .assign ps e, a => c.walk Γ e (c.walk Γ ps a)
  | _, Γ, .mutAssign t e, a => c.walk Γ e (c.walk Γ t a)
  | _, Γ, .augAssign t _ e, a => c.walk Γ e (c.walk Γ t a)
  | _, Γ, .assert e m, a => c.walk Γ m (c.walk Γ e a)
  | _, _, .pass, a => a
  | _, Γ, .delete t, a => c.walk Γ t a
  | _, Γ, .ret m, a => c.walk Γ m a
  | _, Γ, .raise e, a => c.walk Γ e a
  | _, _, .brk, a => a
  | _, _, .cont, a => a
  | _, Γ, .ifs bs els, a => c.walk Γ els (c.walk Γ bs a)
  | _, Γ, .whl e b els, a => c.walk Γ els (c.walk Γ b (c.walk Γ e a))
  | _, Γ, .for_ p e b els, a =>
    c.walk Γ els (c.walk (p.bnd Γ) b (c.walk Γ e (c.walk Γ p a)))
  | _, Γ, .try_ b hs els fin, a =>
    c.walk Γ fin (c.walk Γ els (c.walk Γ hs (c.walk Γ b a)))
  | _, Γ, .with_ ws b, a => c.walk (ws.bnd Γ) b (c.walk Γ ws a)
  | _, Γ, .data m b, a => c.walk Γ b (c.walk Γ m a)
  | _, Γ, .varAssign ps e, a => c.walk Γ e (c.walk Γ ps a)
  | _, Γ, .after e e', a => c.walk Γ e' (c.walk Γ e a)
  | _, Γ, .sig _ t _, a => c.walkTy Γ t a
  | _, Γ, .decls ds, a => c.walk Γ ds a
  | _, Γ, .def_ n _ p k _ b _ fx _, a =>
    let Γ' := n :: b.asg (k.bnd (p.bnd Γ))
    c.walkTy Γ' fx (c.walk Γ' b (c.walk Γ' k (c.walk Γ' p a)))
  | _, Γ, .actor n _ p k b _, a =>
    let Γ' := n :: selfName :: b.asg (k.bnd (p.bnd Γ))
    c.walk Γ' b (c.walk Γ' k (c.walk Γ' p a))
  | _, Γ, .cls n _ cs b _, a =>
    let Γ' := n :: b.asg Γ
    c.walk Γ' b (c.walkTy Γ' cs a)
  | _, Γ, .proto n _ cs b _, a =>
    let Γ' := n :: b.asg Γ
    c.walk Γ' b (c.walkTy Γ' cs a)
  | _, Γ, .typedef n _ t _, a => c.walkTy (n :: Γ) t a
  | _, Γ, .ext _ co ps b _, a =>
    let Γ' := b.asg Γ
    c.walk Γ' b (c.walkTy Γ' ps (c.walkTy Γ' co a))
  | _, Γ, .var q, a => c.ins Γ q a
  | _, _, .int _ _, a => a
  | _, _, .float _ _, a => a
  | _, _, .imag _ _, a => a
  | _, _, .bool _, a => a
  | _, _, .noneE, a => a
  | _, _, .notImpl, a => a
  | _, _, .ellipsis, a => a
  | _, _, .strings _, a => a
  | _, _, .bstrings _, a => a
  | _, Γ, .call f ps ks, a => c.walk Γ ks (c.walk Γ ps (c.walk Γ f a))
  | _, Γ, .let_ ss e, a => c.walk (ss.bnd Γ) e (c.walk Γ ss a)
  | _, Γ, .tapp f ts, a => c.walkTy Γ ts (c.walk Γ f a)
  | _, Γ, .async e, a => c.walk Γ e a
  | _, Γ, .await e, a => c.walk Γ e a
  | _, Γ, .index e ix, a => c.walk Γ ix (c.walk Γ e a)
  | _, Γ, .slice e sl, a => c.walk Γ sl (c.walk Γ e a)
  | _, Γ, .cond e co e', a => c.walk Γ e' (c.walk Γ co (c.walk Γ e a))
  | _, Γ, .isInst e co, a => c.ins Γ co (c.walk Γ e a)
  | _, Γ, .binop e _ e', a => c.walk Γ e' (c.walk Γ e a)
  | _, Γ, .compop e ops, a => c.walk Γ ops (c.walk Γ e a)
  | _, Γ, .unop _ e, a => c.walk Γ e a
  | _, Γ, .dot e _, a => c.walk Γ e a
  | _, Γ, .rest e _, a => c.walk Γ e a
  | _, Γ, .dotI e _, a => c.walk Γ e a
  | _, Γ, .restI e _, a => c.walk Γ e a
  | _, Γ, .opt e _, a => c.walk Γ e a
  | _, Γ, .optChain e, a => c.walk Γ e a
  | _, Γ, .lambda p k e _, a => c.walk (k.bnd (p.bnd Γ)) e (c.walk Γ k (c.walk Γ p a))
  | _, Γ, .yield m, a => c.walk Γ m a
  | _, Γ, .yieldFrom e, a => c.walk Γ e a
  | _, Γ, .tuple ps ks, a => c.walk Γ ks (c.walk Γ ps a)
  | _, Γ, .list es, a => c.walk Γ es a
  | _, Γ, .listComp e co, a => c.walk Γ co (c.walk (co.bnd Γ) e a)
  | _, Γ, .dict as, a => c.walk Γ as a
  | _, Γ, .dictComp e co, a => c.walk Γ co (c.walk (co.bnd Γ) e a)
  | _, Γ, .set es, a => c.walk Γ es a
  | _, Γ, .setComp e co, a => c.walk Γ co (c.walk (co.bnd Γ) e a)
  | _, Γ, .paren e, a => c.walk Γ e a
  | _, Γ, .box _ e, a => c.walk Γ e a
  | _, Γ, .unbox _ e, a => c.walk Γ e a
  | _, _, .pWild _, a => a
  | _, _, .pVar _ _, a => a
  | _, Γ, .pParen p, a => c.walk Γ p a
  | _, Γ, .pTuple ps ks, a => c.walk Γ ks (c.walk Γ ps a)
  | _, Γ, .pList ps p, a => c.walk Γ p (c.walk Γ ps a)
  | _, Γ, .pData _ ixs, a => c.walk Γ ixs a
  | _, Γ, .posPar _ t e r, a => c.walk Γ r (c.walk Γ e (c.walkAnn Γ t a))
  | _, Γ, .posSTAR _ t, a => c.walkAnn Γ t a
  | _, _, .posNIL, a => a
  | _, Γ, .kwdPar _ t e r, a => c.walk Γ r (c.walk Γ e (c.walkAnn Γ t a))
  | _, Γ, .kwdSTAR _ t, a => c.walkAnn Γ t a
  | _, _, .kwdNIL, a => a
  | _, Γ, .posArg e r, a => c.walk Γ r (c.walk Γ e a)
  | _, Γ, .posStar e, a => c.walk Γ e a
  | _, _, .posNil, a => a
  | _, Γ, .kwdArg _ e r, a => c.walk Γ r (c.walk Γ e a)
  | _, Γ, .kwdStar e, a => c.walk Γ e a
  | _, _, .kwdNil, a => a
  | _, Γ, .posPat p r, a => c.walk Γ r (c.walk Γ p a)
  | _, Γ, .posPatStar p, a => c.walk Γ p a
  | _, _, .posPatNil, a => a
  | _, Γ, .kwdPat _ p r, a => c.walk Γ r (c.walk Γ p a)
  | _, Γ, .kwdPatStar p, a => c.walk Γ p a
  | _, _, .kwdPatNil, a => a
  | _, Γ, .branch e ss, a => c.walk Γ ss (c.walk Γ e a)
  | _, Γ, .handler ex ss, a => c.walk (ex.bnd Γ) ss (c.walkExcept Γ ex a)
  | _, Γ, .elem e, a => c.walk Γ e a
  | _, Γ, .star e, a => c.walk Γ e a
  | _, Γ, .assoc k v, a => c.walk Γ v (c.walk Γ k a)
  | _, Γ, .starStar e, a => c.walk Γ e a
  | _, Γ, .opArg _ e, a => c.walk Γ e a
  | _, Γ, .sliz x y z, a => c.walk Γ z (c.walk Γ y (c.walk Γ x a))
  | _, Γ, .compFor p e co, a => c.walk (p.bnd Γ) co (c.walk (p.bnd Γ) e a)
  | _, Γ, .compIf e co, a => c.walk Γ co (c.walk Γ e a)
  | _, _, .noComp, a => a
  | _, Γ, .withItem e p, a => c.walk Γ p (c.walk Γ e a)
  | _, _, .nil, a => a
  | _, Γ, .cons x xs, a => c.walk Γ xs (c.walk Γ x a)
  | _, _, .none, a => a
  | _, Γ, .some x, a => c.walk Γ x a

/-! ## The items of a module -/

/-- `TopLevelItem`, with the name under which the item's hash is kept; the
same name may have several items. -/
inductive TopItem where
  | decl (n : Name) (d : Syn .decl)
  | stmt (n : Name) (s : Syn .stmt)

/-- The name of an item. -/
def TopItem.name : TopItem → Name
  | .decl n _ => n
  | .stmt n _ => n

/-- `implItemSplitDeps`, lines 1112-1118, without the name. -/
def Ctx.itemDeps (c : Ctx) : TopItem → Split
  | .decl _ d => c.walk [] d ([], [])
  | .stmt _ s => c.walk [] s ([], [])

/-- The entry of `n` in the result of `implSplitDepsFromItems`, lines
1086-1094, and of `implSplitDepsFromItemsWithProgress`, lines 1096-1110, before
the sorting of `finishHashSplitDeps`: `insertWith unionDepSplit` (lines
1068-1070) over the items. -/
def Ctx.implSplit (c : Ctx) (n : Name) (items : List TopItem) : Split :=
  items.foldl (fun a i =>
    if i.name = n then ((c.itemDeps i).1 ++ a.1, (c.itemDeps i).2 ++ a.2) else a) ([], [])

/-- The `freeQ` of an item, lines 900-904. -/
def TopItem.freeQ : TopItem → List QName
  | .decl _ d => d.freeQ
  | .stmt _ s => s.freeQ

/-- The entry of `n` in the result of `implDepsFromItems`, lines 896-904. -/
def implDeps (n : Name) (items : List TopItem) : List QName :=
  items.foldl (fun a i => if i.name = n then i.freeQ ++ a else a) []

/-- The entry of `n` in the result of `splitDeps`, lines 1324-1330, on the
dependencies `qs` of `n`, before the sorting of `finishSplitDeps`. -/
def Ctx.splitDeps (c : Ctx) (qs : List QName) : Split :=
  qs.foldl c.add ([], [])

end Verif.Hash
