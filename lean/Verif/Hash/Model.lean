import Verif.Hash.Sink

/-
The structural hash feed of `compiler/lib/src/Acton/Hashing.hs`: what is fed
to SHA256 for the names, types, patterns, expressions, statements and
declarations of a program, and for the interface entries made from them.

Cited lines are those of `compiler/lib/src/Acton/Hashing.hs` unless
`Syntax.hs` or `NameInfo.hs` (same directory) is named.

The syntax is that of `Syntax.hs` lines 38-265 with the source locations left
out, which no feed looks at.  The mutually recursive types of the syntax are
one family indexed by the name of the type; lists and optional parts are
members of the family.  Docstrings of interface entries are left out: the feed
skips them (lines 699-714).  `Double`s are their 64 bits.  The operands of
`feedInt` are unbounded integers here; the code's are 64-bit.
-/

namespace Verif.Hash

/-- A one-byte write of a constant, `feedTag`, lines 217-221, which stops the
compiler for a number that is not a byte. -/
abbrev tag (n : Nat) (h : n < 256 := by decide) : List Op := [.w8 ⟨n, h⟩]

/-- `Prefix`, Syntax.hs lines 124-125. -/
inductive Prefix where
  | globvar | xistvar | tempvar | witness | normPass | cpsPass | lliftPass | boxPass
deriving DecidableEq

/-- `feedPrefix`, lines 620-629. -/
def Prefix.tag : Prefix → Fin 256
  | .globvar => 190 | .xistvar => 191 | .tempvar => 192 | .witness => 193
  | .normPass => 194 | .cpsPass => 195 | .lliftPass => 196 | .boxPass => 197

/-- `Name`, Syntax.hs line 127. -/
inductive Name where
  | name (s : Str)
  | derived (a b : Name)
  | internal (p : Prefix) (s : Str) (i : Int)
deriving DecidableEq

/-- `feedName`, lines 614-618. -/
def Name.feed : Name → List Op
  | .name s => tag 187 ++ [.str s]
  | .derived a b => tag 188 ++ a.feed ++ b.feed
  | .internal p s i => tag 189 ++ [.w8 p.tag] ++ [.str s] ++ [.int i]

/-- The elements of a `feedList feedName`, lines 227-229. -/
def feedNames : List Name → List Op
  | [] => []
  | n :: ns => n.feed ++ feedNames ns

/-- `ModName`, Syntax.hs line 164, and `feedModName`, lines 611-612. -/
def feedModName (m : List Name) : List Op :=
  tag 186 ++ (tag 4 ++ feedNames m ++ tag 5)

/-- `QName`, Syntax.hs line 178. -/
inductive QName where
  | qname (m : List Name) (n : Name)
  | noQ (n : Name)
  | gname (m : List Name) (n : Name)
deriving DecidableEq

/-- `feedQName`, lines 605-609. -/
def QName.feed : QName → List Op
  | .qname m n => tag 183 ++ feedModName m ++ n.feed
  | .noQ n => tag 184 ++ n.feed
  | .gname m n => tag 185 ++ feedModName m ++ n.feed

/-- `Unary`, Syntax.hs line 214. -/
inductive Unary where
  | not | uplus | uminus | bnot
deriving DecidableEq

/-- `feedUnary`, lines 631-636. -/
def Unary.tag : Unary → Fin 256
  | .not => 198 | .uplus => 199 | .uminus => 200 | .bnot => 201

/-- `Binary`, Syntax.hs line 215. -/
inductive Binary where
  | or | and | plus | minus | mult | pow | div | mod | eudiv | bor | bxor | band
  | shiftl | shiftr | mmult
deriving DecidableEq

/-- `feedBinary`, lines 638-654. -/
def Binary.tag : Binary → Fin 256
  | .or => 202 | .and => 203 | .plus => 204 | .minus => 205 | .mult => 206 | .pow => 207
  | .div => 208 | .mod => 209 | .eudiv => 210 | .bor => 211 | .bxor => 212 | .band => 213
  | .shiftl => 214 | .shiftr => 215 | .mmult => 216

/-- `Aug`, Syntax.hs line 216. -/
inductive Aug where
  | plus | minus | mult | pow | div | mod | eudiv | bor | bxor | band | shiftl | shiftr | mmult
deriving DecidableEq

/-- `feedAug`, lines 656-670. -/
def Aug.tag : Aug → Fin 256
  | .plus => 217 | .minus => 218 | .mult => 219 | .pow => 220 | .div => 221 | .mod => 222
  | .eudiv => 223 | .bor => 224 | .bxor => 225 | .band => 226 | .shiftl => 227 | .shiftr => 228
  | .mmult => 229

/-- `Comparison`, Syntax.hs line 217. -/
inductive Comparison where
  | eq | neq | ltgt | lt | gt | ge | le | isIn | notIn | is | isNot
deriving DecidableEq

/-- `feedComparison`, lines 672-684. -/
def Comparison.tag : Comparison → Fin 256
  | .eq => 230 | .neq => 231 | .ltgt => 232 | .lt => 233 | .gt => 234 | .ge => 235 | .le => 236
  | .isIn => 237 | .notIn => 238 | .is => 239 | .isNot => 240

/-- `Deco`, Syntax.hs line 219. -/
inductive Deco where
  | noDec | property | static
deriving DecidableEq

/-- `feedDeco`, lines 686-690. -/
def Deco.tag : Deco → Fin 256
  | .noDec => 241 | .property => 242 | .static => 243

/-- `FX`, Syntax.hs line 237. -/
inductive FX where
  | pure | mut | proc | action
deriving DecidableEq

/-- `feedFX`, lines 692-697. -/
def FX.tag : FX → Fin 256
  | .pure => 244 | .mut => 245 | .proc => 246 | .action => 247

/-- `Except`, Syntax.hs line 194. -/
inductive Except where
  | all
  | except (q : QName)
  | exceptAs (q : QName) (n : Name)
deriving DecidableEq

/-- `feedExcept`, lines 574-578. -/
def Except.feed : Except → List Op
  | .all => tag 170
  | .except q => tag 171 ++ q.feed
  | .exceptAs q n => tag 172 ++ q.feed ++ n.feed

/-- A step of a `WPath`, NameInfo.hs line 353. -/
inductive WStep where
  | left (q : QName)
  | right (q : QName)
deriving DecidableEq

/-- `feedWStep`, lines 725-728. -/
def WStep.feed : WStep → List Op
  | .left q => tag 252 ++ q.feed
  | .right q => tag 253 ++ q.feed

/-- The elements of a `feedList feedWStep`. -/
def feedSteps : List WStep → List Op
  | [] => []
  | w :: ws => w.feed ++ feedSteps ws

/-- The types of the type level: kinds, types, and interface entries. -/
inductive TS where
  | kind | type | tcon | qbind | tschema | info | bind | wtcon
  | list (s : TS)

/-- Kinds, types and interface entries: Syntax.hs lines 221-260, NameInfo.hs
lines 52-64 and 353-355. -/
inductive Ty : TS → Type where
  -- `Kind`
  | kType : Ty .kind
  | kProto : Ty .kind
  | kFX : Ty .kind
  | pRow : Ty .kind
  | kRow : Ty .kind
  | kFun (ks : Ty (.list .kind)) (r : Ty .kind) : Ty .kind
  | kUni (i : Int) : Ty .kind
  | kWild : Ty .kind
  -- `Type`, with `TUni` and `TVar` opened
  | tUni (k : Ty .kind) (l i : Int) : Ty .type
  | tVar (k : Ty .kind) (n : Name) : Ty .type
  | tCon (c : Ty .tcon) : Ty .type
  | tFun (fx p k r : Ty .type) : Ty .type
  | tTuple (p k : Ty .type) : Ty .type
  | tOpt (t : Ty .type) : Ty .type
  | tNone : Ty .type
  | tWild : Ty .type
  | tNil (k : Ty .kind) : Ty .type
  | tRow (k : Ty .kind) (n : Name) (t r : Ty .type) : Ty .type
  | tStar (k : Ty .kind) (r : Ty .type) : Ty .type
  | tFX (fx : FX) : Ty .type
  | tUnboxed (t : Ty .type) : Ty .type
  -- `TCon`, `QBind` and `TSchema`
  | tc (q : QName) (ts : Ty (.list .type)) : Ty .tcon
  | qBind (k : Ty .kind) (n : Name) (cs : Ty (.list .tcon)) : Ty .qbind
  | tSchema (q : Ty (.list .qbind)) (t : Ty .type) : Ty .tschema
  -- `NameInfo`
  | nVar (t : Ty .type) : Ty .info
  | nSVar (t : Ty .type) : Ty .info
  | nDef (sc : Ty .tschema) (d : Deco) : Ty .info
  | nSig (sc : Ty .tschema) (d : Deco) : Ty .info
  | nAct (q : Ty (.list .qbind)) (p k : Ty .type) (te : Ty (.list .bind)) : Ty .info
  | nClass (q : Ty (.list .qbind)) (cs : Ty (.list .wtcon)) (te : Ty (.list .bind)) : Ty .info
  | nProto (q : Ty (.list .qbind)) (ps : Ty (.list .wtcon)) (te : Ty (.list .bind)) : Ty .info
  | nType (q : Ty (.list .qbind)) (t : Ty .type) : Ty .info
  | nExt (q : Ty (.list .qbind)) (c : Ty .tcon) (ps : Ty (.list .wtcon))
      (te : Ty (.list .bind)) (o : List Name) : Ty .info
  | nTVar (k : Ty .kind) (c : Ty .tcon) (ps : Ty (.list .tcon)) : Ty .info
  | nAlias (q : QName) : Ty .info
  | nReserved : Ty .info
  -- an entry of a `TEnv`, and a `WTCon`
  | bind (n : Name) (i : Ty .info) : Ty .bind
  | wtcon (w : List WStep) (c : Ty .tcon) : Ty .wtcon
  -- lists
  | nil {s : TS} : Ty (.list s)
  | cons {s : TS} (x : Ty s) (xs : Ty (.list s)) : Ty (.list s)

/-- `feedKind`, `feedType`, `feedTVar`, `feedTUni`, `feedTCon`, `feedQBind`,
`feedTSchema`, lines 487-530, `feedNameInfo`, `feedTEnvBind`, `feedWTCon`,
lines 699-723.  The clauses for lists are the elements of `feedList`; the
brackets around them are at the places of use (lines 227-229). -/
def Ty.feed : {s : TS} → Ty s → List Op
  | _, .kType => tag 140
  | _, .kProto => tag 141
  | _, .kFX => tag 142
  | _, .pRow => tag 143
  | _, .kRow => tag 144
  | _, .kFun ks r => tag 145 ++ (tag 4 ++ ks.feed ++ tag 5) ++ r.feed
  | _, .kUni i => tag 146 ++ [.int i]
  | _, .kWild => tag 147
  | _, .tUni k l i => tag 110 ++ (tag 134 ++ k.feed ++ [.int l] ++ [.int i])
  | _, .tVar k n => tag 111 ++ (tag 133 ++ k.feed ++ n.feed)
  | _, .tCon c => tag 112 ++ c.feed
  | _, .tFun fx p k r => tag 113 ++ fx.feed ++ p.feed ++ k.feed ++ r.feed
  | _, .tTuple p k => tag 114 ++ p.feed ++ k.feed
  | _, .tOpt t => tag 115 ++ t.feed
  | _, .tNone => tag 116
  | _, .tWild => tag 117
  | _, .tNil k => tag 118 ++ k.feed
  | _, .tRow k n t r => tag 119 ++ k.feed ++ n.feed ++ t.feed ++ r.feed
  | _, .tStar k r => tag 120 ++ k.feed ++ r.feed
  | _, .tFX fx => tag 121 ++ [.w8 fx.tag]
  | _, .tUnboxed t => tag 122 ++ t.feed
  | _, .tc q ts => tag 131 ++ q.feed ++ (tag 4 ++ ts.feed ++ tag 5)
  | _, .qBind k n cs =>
    tag 132 ++ (tag 133 ++ k.feed ++ n.feed) ++ (tag 4 ++ cs.feed ++ tag 5)
  | _, .tSchema q t => tag 130 ++ (tag 4 ++ q.feed ++ tag 5) ++ t.feed
  | _, .nVar t => tag 249 ++ tag 0 ++ t.feed
  | _, .nSVar t => tag 249 ++ tag 1 ++ t.feed
  | _, .nDef sc d => tag 249 ++ tag 2 ++ sc.feed ++ [.w8 d.tag]
  | _, .nSig sc d => tag 249 ++ tag 3 ++ sc.feed ++ [.w8 d.tag]
  | _, .nAct q p k te =>
    tag 249 ++ tag 4 ++ (tag 4 ++ q.feed ++ tag 5) ++ p.feed ++ k.feed
      ++ (tag 4 ++ te.feed ++ tag 5)
  | _, .nClass q cs te =>
    tag 249 ++ tag 5 ++ (tag 4 ++ q.feed ++ tag 5) ++ (tag 4 ++ cs.feed ++ tag 5)
      ++ (tag 4 ++ te.feed ++ tag 5)
  | _, .nProto q ps te =>
    tag 249 ++ tag 6 ++ (tag 4 ++ q.feed ++ tag 5) ++ (tag 4 ++ ps.feed ++ tag 5)
      ++ (tag 4 ++ te.feed ++ tag 5)
  | _, .nType q t => tag 249 ++ tag 10 ++ (tag 4 ++ q.feed ++ tag 5) ++ t.feed
  | _, .nExt q c ps te o =>
    tag 249 ++ tag 7 ++ (tag 4 ++ q.feed ++ tag 5) ++ c.feed ++ (tag 4 ++ ps.feed ++ tag 5)
      ++ (tag 4 ++ te.feed ++ tag 5) ++ (tag 4 ++ feedNames o ++ tag 5)
  | _, .nTVar k c ps =>
    tag 249 ++ tag 8 ++ k.feed ++ c.feed ++ (tag 4 ++ ps.feed ++ tag 5)
  | _, .nAlias q => tag 249 ++ tag 9 ++ q.feed
  | _, .nReserved => tag 249 ++ tag 12
  | _, .bind n i => tag 250 ++ n.feed ++ i.feed
  | _, .wtcon w c => tag 251 ++ (tag 4 ++ feedSteps w ++ tag 5) ++ c.feed
  | _, .nil => []
  | _, .cons x xs => x.feed ++ xs.feed

/-- `feedMaybe`, lines 223-225, of a type. -/
def feedAnn : Option (Ty .type) → List Op
  | none => tag 2
  | some t => tag 3 ++ t.feed

/-- `feedMaybe feedString`, lines 223-225. -/
def feedDoc : Option Str → List Op
  | none => tag 2
  | some s => tag 3 ++ [.str s]

/-- `feedList feedString`, lines 227-229. -/
def feedStrs (ss : List Str) : List Op :=
  tag 4 ++ ss.map Op.str ++ tag 5

/-- The types of the term level. -/
inductive SS where
  | stmt | decl | expr | pat | pospar | kwdpar | posarg | kwdarg | pospat | kwdpat
  | branch | handler | elem | assoc | oparg | sliz | comp | witem
  | list (s : SS)
  | opt (s : SS)

/-- Statements, declarations, expressions, patterns and their parts,
Syntax.hs lines 40-120 and 192-211. -/
inductive Syn : SS → Type where
  -- `Stmt`
  | expr (e : Syn .expr) : Syn .stmt
  | assign (ps : Syn (.list .pat)) (e : Syn .expr) : Syn .stmt
  | mutAssign (t e : Syn .expr) : Syn .stmt
  | augAssign (t : Syn .expr) (op : Aug) (e : Syn .expr) : Syn .stmt
  | assert (e : Syn .expr) (m : Syn (.opt .expr)) : Syn .stmt
  | pass : Syn .stmt
  | delete (t : Syn .expr) : Syn .stmt
  | ret (m : Syn (.opt .expr)) : Syn .stmt
  | raise (e : Syn .expr) : Syn .stmt
  | brk : Syn .stmt
  | cont : Syn .stmt
  | ifs (bs : Syn (.list .branch)) (els : Syn (.list .stmt)) : Syn .stmt
  | whl (e : Syn .expr) (b els : Syn (.list .stmt)) : Syn .stmt
  | for_ (p : Syn .pat) (e : Syn .expr) (b els : Syn (.list .stmt)) : Syn .stmt
  | try_ (b : Syn (.list .stmt)) (hs : Syn (.list .handler)) (els fin : Syn (.list .stmt)) :
      Syn .stmt
  | with_ (ws : Syn (.list .witem)) (b : Syn (.list .stmt)) : Syn .stmt
  | data (m : Syn (.opt .pat)) (b : Syn (.list .stmt)) : Syn .stmt
  | varAssign (ps : Syn (.list .pat)) (e : Syn .expr) : Syn .stmt
  | after (e e' : Syn .expr) : Syn .stmt
  | sig (ns : List Name) (t : Ty .tschema) (d : Deco) : Syn .stmt
  | decls (ds : Syn (.list .decl)) : Syn .stmt
  -- `Decl`
  | def_ (n : Name) (q : Ty (.list .qbind)) (p : Syn .pospar) (k : Syn .kwdpar)
      (a : Option (Ty .type)) (b : Syn (.list .stmt)) (d : Deco) (fx : Ty .type)
      (doc : Option Str) : Syn .decl
  | actor (n : Name) (q : Ty (.list .qbind)) (p : Syn .pospar) (k : Syn .kwdpar)
      (b : Syn (.list .stmt)) (doc : Option Str) : Syn .decl
  | cls (n : Name) (q : Ty (.list .qbind)) (cs : Ty (.list .tcon)) (b : Syn (.list .stmt))
      (doc : Option Str) : Syn .decl
  | proto (n : Name) (q : Ty (.list .qbind)) (cs : Ty (.list .tcon)) (b : Syn (.list .stmt))
      (doc : Option Str) : Syn .decl
  | typedef (n : Name) (q : Ty (.list .qbind)) (t : Ty .type) (doc : Option Str) : Syn .decl
  | ext (q : Ty (.list .qbind)) (c : Ty .tcon) (ps : Ty (.list .tcon)) (b : Syn (.list .stmt))
      (doc : Option Str) : Syn .decl
  -- `Expr`
  | var (q : QName) : Syn .expr
  | int (i : Int) (s : Str) : Syn .expr
  | float (d : Fin (2 ^ 64)) (s : Str) : Syn .expr
  | imag (d : Fin (2 ^ 64)) (s : Str) : Syn .expr
  | bool (b : Bool) : Syn .expr
  | noneE : Syn .expr
  | notImpl : Syn .expr
  | ellipsis : Syn .expr
  | strings (ss : List Str) : Syn .expr
  | bstrings (ss : List Str) : Syn .expr
  | call (f : Syn .expr) (ps : Syn .posarg) (ks : Syn .kwdarg) : Syn .expr
  | let_ (ss : Syn (.list .stmt)) (e : Syn .expr) : Syn .expr
  | tapp (f : Syn .expr) (ts : Ty (.list .type)) : Syn .expr
  | async (e : Syn .expr) : Syn .expr
  | await (e : Syn .expr) : Syn .expr
  | index (e ix : Syn .expr) : Syn .expr
  | slice (e : Syn .expr) (sl : Syn .sliz) : Syn .expr
  | cond (e c e' : Syn .expr) : Syn .expr
  | isInst (e : Syn .expr) (c : QName) : Syn .expr
  | binop (e : Syn .expr) (op : Binary) (e' : Syn .expr) : Syn .expr
  | compop (e : Syn .expr) (ops : Syn (.list .oparg)) : Syn .expr
  | unop (op : Unary) (e : Syn .expr) : Syn .expr
  | dot (e : Syn .expr) (n : Name) : Syn .expr
  | rest (e : Syn .expr) (n : Name) : Syn .expr
  | dotI (e : Syn .expr) (i : Int) : Syn .expr
  | restI (e : Syn .expr) (i : Int) : Syn .expr
  | opt (e : Syn .expr) (b : Bool) : Syn .expr
  | optChain (e : Syn .expr) : Syn .expr
  | lambda (p : Syn .pospar) (k : Syn .kwdpar) (e : Syn .expr) (fx : Ty .type) : Syn .expr
  | yield (m : Syn (.opt .expr)) : Syn .expr
  | yieldFrom (e : Syn .expr) : Syn .expr
  | tuple (ps : Syn .posarg) (ks : Syn .kwdarg) : Syn .expr
  | list (es : Syn (.list .elem)) : Syn .expr
  | listComp (e : Syn .elem) (c : Syn .comp) : Syn .expr
  | dict (as : Syn (.list .assoc)) : Syn .expr
  | dictComp (a : Syn .assoc) (c : Syn .comp) : Syn .expr
  | set (es : Syn (.list .elem)) : Syn .expr
  | setComp (e : Syn .elem) (c : Syn .comp) : Syn .expr
  | paren (e : Syn .expr) : Syn .expr
  | box (t : Ty .type) (e : Syn .expr) : Syn .expr
  | unbox (t : Ty .type) (e : Syn .expr) : Syn .expr
  -- `Pattern`
  | pWild (t : Option (Ty .type)) : Syn .pat
  | pVar (n : Name) (t : Option (Ty .type)) : Syn .pat
  | pParen (p : Syn .pat) : Syn .pat
  | pTuple (ps : Syn .pospat) (ks : Syn .kwdpat) : Syn .pat
  | pList (ps : Syn (.list .pat)) (p : Syn (.opt .pat)) : Syn .pat
  | pData (n : Name) (ixs : Syn (.list .expr)) : Syn .pat
  -- `PosPar`, `KwdPar`
  | posPar (n : Name) (t : Option (Ty .type)) (e : Syn (.opt .expr)) (r : Syn .pospar) :
      Syn .pospar
  | posSTAR (n : Name) (t : Option (Ty .type)) : Syn .pospar
  | posNIL : Syn .pospar
  | kwdPar (n : Name) (t : Option (Ty .type)) (e : Syn (.opt .expr)) (r : Syn .kwdpar) :
      Syn .kwdpar
  | kwdSTAR (n : Name) (t : Option (Ty .type)) : Syn .kwdpar
  | kwdNIL : Syn .kwdpar
  -- `PosArg`, `KwdArg`
  | posArg (e : Syn .expr) (r : Syn .posarg) : Syn .posarg
  | posStar (e : Syn .expr) : Syn .posarg
  | posNil : Syn .posarg
  | kwdArg (n : Name) (e : Syn .expr) (r : Syn .kwdarg) : Syn .kwdarg
  | kwdStar (e : Syn .expr) : Syn .kwdarg
  | kwdNil : Syn .kwdarg
  -- `PosPat`, `KwdPat`
  | posPat (p : Syn .pat) (r : Syn .pospat) : Syn .pospat
  | posPatStar (p : Syn .pat) : Syn .pospat
  | posPatNil : Syn .pospat
  | kwdPat (n : Name) (p : Syn .pat) (r : Syn .kwdpat) : Syn .kwdpat
  | kwdPatStar (p : Syn .pat) : Syn .kwdpat
  | kwdPatNil : Syn .kwdpat
  -- the rest
  | branch (e : Syn .expr) (ss : Syn (.list .stmt)) : Syn .branch
  | handler (ex : Except) (ss : Syn (.list .stmt)) : Syn .handler
  | elem (e : Syn .expr) : Syn .elem
  | star (e : Syn .expr) : Syn .elem
  | assoc (k v : Syn .expr) : Syn .assoc
  | starStar (e : Syn .expr) : Syn .assoc
  | opArg (op : Comparison) (e : Syn .expr) : Syn .oparg
  | sliz (a b c : Syn (.opt .expr)) : Syn .sliz
  | compFor (p : Syn .pat) (e : Syn .expr) (c : Syn .comp) : Syn .comp
  | compIf (e : Syn .expr) (c : Syn .comp) : Syn .comp
  | noComp : Syn .comp
  | withItem (e : Syn .expr) (p : Syn (.opt .pat)) : Syn .witem
  -- lists and optional parts
  | nil {s : SS} : Syn (.list s)
  | cons {s : SS} (x : Syn s) (xs : Syn (.list s)) : Syn (.list s)
  | none {s : SS} : Syn (.opt s)
  | some {s : SS} (x : Syn s) : Syn (.opt s)

/-- `feedStmt`, lines 385-410, `feedDecl`, lines 412-432, `feedExpr`, lines
434-476, `feedPattern`, lines 478-485, and the feeds of their parts, lines 532-603.  The
clauses for lists are the elements of `feedList`; those for optional parts are
`feedMaybe`, lines 223-225. -/
def Syn.feed : {s : SS} → Syn s → List Op
  | _, .expr e => tag 10 ++ e.feed
  | _, .assign ps e => tag 11 ++ (tag 4 ++ ps.feed ++ tag 5) ++ e.feed
  | _, .mutAssign t e => tag 12 ++ t.feed ++ e.feed
  | _, .augAssign t op e => tag 13 ++ t.feed ++ [.w8 op.tag] ++ e.feed
  | _, .assert e m => tag 14 ++ e.feed ++ m.feed
  | _, .pass => tag 15
  | _, .delete t => tag 16 ++ t.feed
  | _, .ret m => tag 17 ++ m.feed
  | _, .raise e => tag 18 ++ e.feed
  | _, .brk => tag 19
  | _, .cont => tag 20
  | _, .ifs bs els => tag 21 ++ (tag 4 ++ bs.feed ++ tag 5) ++ (tag 4 ++ els.feed ++ tag 5)
  | _, .whl e b els =>
    tag 22 ++ e.feed ++ (tag 4 ++ b.feed ++ tag 5) ++ (tag 4 ++ els.feed ++ tag 5)
  | _, .for_ p e b els =>
    tag 23 ++ p.feed ++ e.feed ++ (tag 4 ++ b.feed ++ tag 5) ++ (tag 4 ++ els.feed ++ tag 5)
  | _, .try_ b hs els fin =>
    tag 24 ++ (tag 4 ++ b.feed ++ tag 5) ++ (tag 4 ++ hs.feed ++ tag 5)
      ++ (tag 4 ++ els.feed ++ tag 5) ++ (tag 4 ++ fin.feed ++ tag 5)
  | _, .with_ ws b => tag 25 ++ (tag 4 ++ ws.feed ++ tag 5) ++ (tag 4 ++ b.feed ++ tag 5)
  | _, .data m b => tag 26 ++ m.feed ++ (tag 4 ++ b.feed ++ tag 5)
  | _, .varAssign ps e => tag 27 ++ (tag 4 ++ ps.feed ++ tag 5) ++ e.feed
  | _, .after e e' => tag 28 ++ e.feed ++ e'.feed
  | _, .sig ns t d => tag 29 ++ (tag 4 ++ feedNames ns ++ tag 5) ++ t.feed ++ [.w8 d.tag]
  | _, .decls ds => tag 30 ++ (tag 4 ++ ds.feed ++ tag 5)
  | _, .def_ n q p k a b d fx doc =>
    tag 40 ++ n.feed ++ (tag 4 ++ q.feed ++ tag 5) ++ p.feed ++ k.feed ++ feedAnn a
      ++ (tag 4 ++ b.feed ++ tag 5) ++ [.w8 d.tag] ++ fx.feed ++ feedDoc doc
  | _, .actor n q p k b doc =>
    tag 41 ++ n.feed ++ (tag 4 ++ q.feed ++ tag 5) ++ p.feed ++ k.feed
      ++ (tag 4 ++ b.feed ++ tag 5) ++ feedDoc doc
  | _, .cls n q cs b doc =>
    tag 42 ++ n.feed ++ (tag 4 ++ q.feed ++ tag 5) ++ (tag 4 ++ cs.feed ++ tag 5)
      ++ (tag 4 ++ b.feed ++ tag 5) ++ feedDoc doc
  | _, .proto n q cs b doc =>
    tag 43 ++ n.feed ++ (tag 4 ++ q.feed ++ tag 5) ++ (tag 4 ++ cs.feed ++ tag 5)
      ++ (tag 4 ++ b.feed ++ tag 5) ++ feedDoc doc
  | _, .typedef n q t doc =>
    tag 45 ++ n.feed ++ (tag 4 ++ q.feed ++ tag 5) ++ t.feed ++ feedDoc doc
  | _, .ext q c ps b doc =>
    tag 44 ++ (tag 4 ++ q.feed ++ tag 5) ++ c.feed ++ (tag 4 ++ ps.feed ++ tag 5)
      ++ (tag 4 ++ b.feed ++ tag 5) ++ feedDoc doc
  | _, .var q => tag 50 ++ q.feed
  | _, .int i s => tag 51 ++ [.int i] ++ [.str s]
  | _, .float d s => tag 52 ++ [.w64 d] ++ [.str s]
  | _, .imag d s => tag 53 ++ [.w64 d] ++ [.str s]
  | _, .bool b => tag 54 ++ [.w8 (if b then 1 else 0)]
  | _, .noneE => tag 55
  | _, .notImpl => tag 56
  | _, .ellipsis => tag 57
  | _, .strings ss => tag 58 ++ feedStrs ss
  | _, .bstrings ss => tag 59 ++ feedStrs ss
  | _, .call f ps ks => tag 60 ++ f.feed ++ ps.feed ++ ks.feed
  | _, .let_ ss e => tag 61 ++ (tag 4 ++ ss.feed ++ tag 5) ++ e.feed
  | _, .tapp f ts => tag 62 ++ f.feed ++ (tag 4 ++ ts.feed ++ tag 5)
  | _, .async e => tag 63 ++ e.feed
  | _, .await e => tag 64 ++ e.feed
  | _, .index e ix => tag 65 ++ e.feed ++ ix.feed
  | _, .slice e sl => tag 66 ++ e.feed ++ sl.feed
  | _, .cond e c e' => tag 67 ++ e.feed ++ c.feed ++ e'.feed
  | _, .isInst e c => tag 68 ++ e.feed ++ c.feed
  | _, .binop e op e' => tag 69 ++ e.feed ++ [.w8 op.tag] ++ e'.feed
  | _, .compop e ops => tag 70 ++ e.feed ++ (tag 4 ++ ops.feed ++ tag 5)
  | _, .unop op e => tag 71 ++ [.w8 op.tag] ++ e.feed
  | _, .dot e n => tag 72 ++ e.feed ++ n.feed
  | _, .rest e n => tag 73 ++ e.feed ++ n.feed
  | _, .dotI e i => tag 74 ++ e.feed ++ [.int i]
  | _, .restI e i => tag 75 ++ e.feed ++ [.int i]
  | _, .opt e b => tag 76 ++ e.feed ++ [.w8 (if b then 1 else 0)]
  | _, .optChain e => tag 77 ++ e.feed
  | _, .lambda p k e fx => tag 78 ++ p.feed ++ k.feed ++ e.feed ++ fx.feed
  | _, .yield m => tag 79 ++ m.feed
  | _, .yieldFrom e => tag 80 ++ e.feed
  | _, .tuple ps ks => tag 81 ++ ps.feed ++ ks.feed
  | _, .list es => tag 82 ++ (tag 4 ++ es.feed ++ tag 5)
  | _, .listComp e c => tag 83 ++ e.feed ++ c.feed
  | _, .dict as => tag 84 ++ (tag 4 ++ as.feed ++ tag 5)
  | _, .dictComp a c => tag 85 ++ a.feed ++ c.feed
  | _, .set es => tag 86 ++ (tag 4 ++ es.feed ++ tag 5)
  | _, .setComp e c => tag 87 ++ e.feed ++ c.feed
  | _, .paren e => tag 88 ++ e.feed
  | _, .box t e => tag 89 ++ t.feed ++ e.feed
  | _, .unbox t e => tag 90 ++ t.feed ++ e.feed
  | _, .pWild t => tag 100 ++ feedAnn t
  | _, .pVar n t => tag 101 ++ n.feed ++ feedAnn t
  | _, .pParen p => tag 102 ++ p.feed
  | _, .pTuple ps ks => tag 103 ++ ps.feed ++ ks.feed
  | _, .pList ps p => tag 104 ++ (tag 4 ++ ps.feed ++ tag 5) ++ p.feed
  | _, .pData n ixs => tag 105 ++ n.feed ++ (tag 4 ++ ixs.feed ++ tag 5)
  | _, .posPar n t e r => tag 150 ++ n.feed ++ feedAnn t ++ e.feed ++ r.feed
  | _, .posSTAR n t => tag 151 ++ n.feed ++ feedAnn t
  | _, .posNIL => tag 152
  | _, .kwdPar n t e r => tag 153 ++ n.feed ++ feedAnn t ++ e.feed ++ r.feed
  | _, .kwdSTAR n t => tag 154 ++ n.feed ++ feedAnn t
  | _, .kwdNIL => tag 155
  | _, .posArg e r => tag 156 ++ e.feed ++ r.feed
  | _, .posStar e => tag 157 ++ e.feed
  | _, .posNil => tag 158
  | _, .kwdArg n e r => tag 159 ++ n.feed ++ e.feed ++ r.feed
  | _, .kwdStar e => tag 160 ++ e.feed
  | _, .kwdNil => tag 161
  | _, .posPat p r => tag 162 ++ p.feed ++ r.feed
  | _, .posPatStar p => tag 163 ++ p.feed
  | _, .posPatNil => tag 164
  | _, .kwdPat n p r => tag 165 ++ n.feed ++ p.feed ++ r.feed
  | _, .kwdPatStar p => tag 166 ++ p.feed
  | _, .kwdPatNil => tag 167
  | _, .branch e ss => tag 168 ++ e.feed ++ (tag 4 ++ ss.feed ++ tag 5)
  | _, .handler ex ss => tag 169 ++ ex.feed ++ (tag 4 ++ ss.feed ++ tag 5)
  | _, .elem e => tag 173 ++ e.feed
  | _, .star e => tag 174 ++ e.feed
  | _, .assoc k v => tag 175 ++ k.feed ++ v.feed
  | _, .starStar e => tag 176 ++ e.feed
  | _, .opArg op e => tag 177 ++ [.w8 op.tag] ++ e.feed
  | _, .sliz a b c => tag 178 ++ a.feed ++ b.feed ++ c.feed
  | _, .compFor p e c => tag 179 ++ p.feed ++ e.feed ++ c.feed
  | _, .compIf e c => tag 180 ++ e.feed ++ c.feed
  | _, .noComp => tag 181
  | _, .withItem e p => tag 182 ++ e.feed ++ p.feed
  | _, .nil => []
  | _, .cons x xs => x.feed ++ xs.feed
  | _, .none => tag 2
  | _, .some x => tag 3 ++ x.feed

/-- `TopLevelItem`, line 66, without the name it is filed under, which the
feed does not use. -/
inductive Item where
  | decl (d : Syn .decl)
  | stmt (s : Syn .stmt)

/-- `feedTopLevelItem`, `feedTLDecl`, `feedTLStmt`, lines 173-176 and 211-215. -/
def Item.feed : Item → List Op
  | .decl d => tag 0 ++ d.feed
  | .stmt s => tag 1 ++ s.feed

/-- The elements of `feedFragments`, lines 182-183. -/
def feedItems : List Item → List Op
  | [] => []
  | i :: is => i.feed ++ feedItems is

/-- `feedTopLevelFragments`, lines 178-183, with the items in source order:
`topLevelItemsByName` (lines 155-166) conses them in reverse and
`feedFragments` reverses them again. -/
def feedFragments (is : List Item) : List Op :=
  tag 4 ++ feedItems is ++ tag 5

end Verif.Hash
