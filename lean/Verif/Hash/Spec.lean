import Verif.Hash.Model

/-!
What the hash feed should do, and where it does it.
-/

namespace Verif.Hash

/-- No string begins with the character 5, the byte that closes a list. -/
def NoFive (ss : List Str) : Prop := ∀ s ∈ ss, s.head? ≠ some 5

/-- No literal in a piece of syntax has a part that begins with the character 5. -/
def Syn.Plain : {s : SS} → Syn s → Prop
  | _, .expr e => e.Plain
  | _, .assign ps e => ps.Plain ∧ e.Plain
  | _, .mutAssign t e => t.Plain ∧ e.Plain
  | _, .augAssign t _ e => t.Plain ∧ e.Plain
  | _, .assert e m => e.Plain ∧ m.Plain
  | _, .pass => True
  | _, .delete t => t.Plain
  | _, .ret m => m.Plain
  | _, .raise e => e.Plain
  | _, .brk => True
  | _, .cont => True
  | _, .ifs bs els => bs.Plain ∧ els.Plain
  | _, .whl e b els => e.Plain ∧ b.Plain ∧ els.Plain
  | _, .for_ p e b els => p.Plain ∧ e.Plain ∧ b.Plain ∧ els.Plain
  | _, .try_ b hs els fin => b.Plain ∧ hs.Plain ∧ els.Plain ∧ fin.Plain
  | _, .with_ ws b => ws.Plain ∧ b.Plain
  | _, .data m b => m.Plain ∧ b.Plain
  | _, .varAssign ps e => ps.Plain ∧ e.Plain
  | _, .after e e' => e.Plain ∧ e'.Plain
  | _, .sig _ _ _ => True
  | _, .decls ds => ds.Plain
  | _, .def_ _ _ p k _ b _ _ _ => p.Plain ∧ k.Plain ∧ b.Plain
  | _, .actor _ _ p k b _ => p.Plain ∧ k.Plain ∧ b.Plain
  | _, .cls _ _ _ b _ => b.Plain
  | _, .proto _ _ _ b _ => b.Plain
  | _, .typedef _ _ _ _ => True
  | _, .ext _ _ _ b _ => b.Plain
  | _, .var _ => True
  | _, .int _ _ => True
  | _, .float _ _ => True
  | _, .imag _ _ => True
  | _, .bool _ => True
  | _, .noneE => True
  | _, .notImpl => True
  | _, .ellipsis => True
  | _, .strings ss => NoFive ss
  | _, .bstrings ss => NoFive ss
  | _, .call f ps ks => f.Plain ∧ ps.Plain ∧ ks.Plain
  | _, .let_ ss e => ss.Plain ∧ e.Plain
  | _, .tapp f _ => f.Plain
  | _, .async e => e.Plain
  | _, .await e => e.Plain
  | _, .index e ix => e.Plain ∧ ix.Plain
  | _, .slice e sl => e.Plain ∧ sl.Plain
  | _, .cond e c e' => e.Plain ∧ c.Plain ∧ e'.Plain
  | _, .isInst e _ => e.Plain
  | _, .binop e _ e' => e.Plain ∧ e'.Plain
  | _, .compop e ops => e.Plain ∧ ops.Plain
  | _, .unop _ e => e.Plain
  | _, .dot e _ => e.Plain
  | _, .rest e _ => e.Plain
  | _, .dotI e _ => e.Plain
  | _, .restI e _ => e.Plain
  | _, .opt e _ => e.Plain
  | _, .optChain e => e.Plain
  | _, .lambda p k e _ => p.Plain ∧ k.Plain ∧ e.Plain
  | _, .yield m => m.Plain
  | _, .yieldFrom e => e.Plain
  | _, .tuple ps ks => ps.Plain ∧ ks.Plain
  | _, .list es => es.Plain
  | _, .listComp e c => e.Plain ∧ c.Plain
  | _, .dict as => as.Plain
  | _, .dictComp a c => a.Plain ∧ c.Plain
  | _, .set es => es.Plain
  | _, .setComp e c => e.Plain ∧ c.Plain
  | _, .paren e => e.Plain
  | _, .box _ e => e.Plain
  | _, .unbox _ e => e.Plain
  | _, .pWild _ => True
  | _, .pVar _ _ => True
  | _, .pParen p => p.Plain
  | _, .pTuple ps ks => ps.Plain ∧ ks.Plain
  | _, .pList ps p => ps.Plain ∧ p.Plain
  | _, .pData _ ixs => ixs.Plain
  | _, .posPar _ _ e r => e.Plain ∧ r.Plain
  | _, .posSTAR _ _ => True
  | _, .posNIL => True
  | _, .kwdPar _ _ e r => e.Plain ∧ r.Plain
  | _, .kwdSTAR _ _ => True
  | _, .kwdNIL => True
  | _, .posArg e r => e.Plain ∧ r.Plain
  | _, .posStar e => e.Plain
  | _, .posNil => True
  | _, .kwdArg _ e r => e.Plain ∧ r.Plain
  | _, .kwdStar e => e.Plain
  | _, .kwdNil => True
  | _, .posPat p r => p.Plain ∧ r.Plain
  | _, .posPatStar p => p.Plain
  | _, .posPatNil => True
  | _, .kwdPat _ p r => p.Plain ∧ r.Plain
  | _, .kwdPatStar p => p.Plain
  | _, .kwdPatNil => True
  | _, .branch e ss => e.Plain ∧ ss.Plain
  | _, .handler _ ss => ss.Plain
  | _, .elem e => e.Plain
  | _, .star e => e.Plain
  | _, .assoc k v => k.Plain ∧ v.Plain
  | _, .starStar e => e.Plain
  | _, .opArg _ e => e.Plain
  | _, .sliz a b c => a.Plain ∧ b.Plain ∧ c.Plain
  | _, .compFor p e c => p.Plain ∧ e.Plain ∧ c.Plain
  | _, .compIf e c => e.Plain ∧ c.Plain
  | _, .noComp => True
  | _, .withItem e p => e.Plain ∧ p.Plain
  | _, .nil => True
  | _, .cons x xs => x.Plain ∧ xs.Plain
  | _, .none => True
  | _, .some x => x.Plain

/-- The same of a top-level item. -/
def Item.Plain : Item → Prop
  | .decl d => d.Plain
  | .stmt s => s.Plain

end Verif.Hash
