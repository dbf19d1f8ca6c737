import Verif.Parser.StmtClosures
import Verif.Duchain.Scopes
/-!
# From the text to the declarations (C100)

Joins three models: the parser (`StmtGrammar.lean`, `StmtClosures.lean`), the tree that the generated parser keeps of what it has read (parser/php.g: a part of a rule without a name is
read, but not kept; of a repeated part without `#` the last one is kept), and the walks over it (`Duchain/Scopes.lean`).  The tree of a file is turned, rule by rule, into an outline: its
tokens, and which of them make a class, a function, a method or a closure.

Simplified: parts of one rule are visited in the order of the text; what opens no context and declares no class or function (variables, constants, uses) is left out of the outline.
-/
namespace KPhp.Outline
open KPhp (Tok)
open KPhp.Grammar (E Closures headIn)
open KPhp.Stmt
open KPhp.Scopes (TypeKind Code Outer NsName)

/-! ### Outlines -/

/-- A part of a file: its tokens, and what they declare. -/
inductive U
  /-- tokens that declare nothing -/
  | txt (ts : List Tok)
  | app (a b : U)
  /-- read, but not kept in the tree -/
  | lost (a : U)
  /-- not visited by the first walk, but by the second -/
  | late (a : U)
  /-- `abstract class A …`: what stands in front, the kind, what follows the name -/
  | type (front : List Tok) (k : TypeKind) (rest : U)
  /-- `function & f (…) { … }` -/
  | func (front : List Tok) (name : Tok) (params body : U)
  /-- `public function f (…) { … }` -/
  | meth (front : List Tok) (name : Tok) (params : U) (hasBody : Bool) (body : U)
  /-- what follows the word `function` of a closure -/
  | clo (params : U) (hasUses : Bool) (uses body : U)
deriving Repr

instance : Append U := ⟨U.app⟩

/-- The words in front of the name of a class. -/
def wordOf : TypeKind → Tok
  | .klass => .CLASS
  | .interface => .INTERFACE
  | .trait => .TRAIT

/-- The text of an outline. -/
def U.toks : U → List Tok
  | .txt ts => ts
  | .app a b => a.toks ++ b.toks
  | .lost a => a.toks
  | .late a => a.toks
  | .type front k rest => front ++ wordOf k :: .STRING :: rest.toks
  | .func front name params body => front ++ name :: (params.toks ++ body.toks)
  | .meth front name params _ body => front ++ name :: (params.toks ++ body.toks)
  | .clo params _ uses body => .FUNCTION :: (params.toks ++ (uses.toks ++ body.toks))

/-- The tree that the builders visit (`Code`): nodes are named by the index of their token, `nm i` is the text of token `i`
(`identifierForNode`, contextbuilder.cpp:228-236: the symbol of the token).  `again`: in the second walk. -/
def U.code (again : Bool) (nm : Nat → QString) : Nat → U → Code
  | _, .txt _ => .empty
  | o, .app a b => .seq (a.code again nm o) (b.code again nm (o + a.toks.length))
  | _, .lost _ => .empty
  | o, .late a => if again then a.code again nm o else .empty
  | o, .type front k rest => .type (o + front.length + 1) k (nm (o + front.length + 1)) (rest.code again nm (o + front.length + 2))
  | o, .func front _ params body =>
    .function (o + front.length) (nm (o + front.length)) (params.code again nm (o + front.length + 1)) (body.code again nm (o + front.length + 1 + params.toks.length))
  | o, .meth front _ params hasBody body =>
    .method (o + front.length) (nm (o + front.length)) (params.code again nm (o + front.length + 1)) hasBody (body.code again nm (o + front.length + 1 + params.toks.length))
  | o, .clo params hasUses uses body =>
    .closure o (params.code again nm (o + 1)) hasUses (uses.code again nm (o + 1 + params.toks.length)) (body.code again nm (o + 1 + params.toks.length + uses.toks.length))

/-! ### The outline of a file -/

/-- tokens without nodes -/
abbrev T (ts : List Tok) : U := .txt ts

def optU {α} (f : α → U) : Option α → U
  | none => T []
  | some a => f a
def sepU {α} (k : Tok) (f : α → U) : List α → U
  | [] => T []
  | [a] => f a
  | a :: b :: l => f a ++ (T [k] ++ sepU k f (b :: l))

/-- The indices behind these are kept in one variable, so that the last one remains (php.g:560, 644, 656, 891, 924): arrays, strings, calls. -/
def chain : E → Bool
  | .arr _ _ | .scalar _ | .str _ _ | .call _ _ => true
  | .index0 b | .index b _ => chain b
  | _ => false

/-- Expressions (php.g:357-690, 857-936).  `over`: an index follows. -/
def E.tree (clo : List Tok → U) (over : Bool) : E → U
  | .closure t => clo t
  | .dyn n e => T (List.replicate (n + 1) .DOLLAR ++ [.LBRACE]) ++ (E.tree clo false e ++ T [.RBRACE])
  | .svar g n v => T (Grammar.nameToks g n ++ [.PAAMAYIM_NEKUDOTAYIM]) ++ E.tree clo false v
  | .sdyn g n e => T (Grammar.nameToks g n ++ [.PAAMAYIM_NEKUDOTAYIM, .LBRACE]) ++ (E.tree clo false e ++ T [.RBRACE])
  | .paren e => T [.LPAREN] ++ (E.tree clo false e ++ T [.RPAREN])
  | .iife c l => T [.LPAREN] ++ (E.tree clo false c ++ (T [.RPAREN, .LPAREN] ++ (E.tree clo false l ++ T [.RPAREN])))
  | .empty e => T [.EMPTY, .LPAREN] ++ (E.tree clo false e ++ T [.RPAREN])
  | .isset l => T [.ISSET, .LPAREN] ++ (E.tree clo false l ++ T [.RPAREN])
  | .new_ c => T [.NEW] ++ E.tree clo false c
  | .newArgs c l => T [.NEW] ++ (E.tree clo false c ++ (T [.LPAREN] ++ (E.tree clo false l ++ T [.RPAREN])))
  | .clone e => T [.CLONE] ++ E.tree clo false e
  | .str k ps => T [k] ++ (E.tree clo false ps ++ T [Grammar.closing k])
  | .arr true l => T [.LBRACKET] ++ (E.tree clo false l ++ T [.RBRACKET])
  | .arr false l => T [.ARRAY, .LPAREN] ++ (E.tree clo false l ++ T [.RPAREN])
  | .index0 b => E.tree clo true b ++ T [.LBRACKET, .RBRACKET]
  | .index b i =>
    E.tree clo true b ++ (T [.LBRACKET] ++ ((if over && chain b then .lost (E.tree clo false i) else E.tree clo false i) ++ T [.RBRACKET]))
  | .cindex b i => E.tree clo false b ++ (T [.LBRACE] ++ (E.tree clo false i ++ T [.RBRACE]))
  | .prop op b p => E.tree clo false b ++ (T [op] ++ E.tree clo false p)
  | .call b l => E.tree clo false b ++ (T [.LPAREN] ++ (E.tree clo false l ++ T [.RPAREN]))
  | .curly e => T [.LBRACE] ++ (E.tree clo false e ++ T [.RBRACE])
  | .spread e => T [.ELLIPSIS] ++ E.tree clo false e
  | .byRef v => T [.BIT_AND] ++ E.tree clo false v
  | .pair k v => E.tree clo false k ++ (T [.DOUBLE_ARROW] ++ E.tree clo false v)
  | .last i => E.tree clo false i
  | .lastComma i => E.tree clo false i ++ T [.COMMA]
  | .more i l => E.tree clo false i ++ (T [.COMMA] ++ E.tree clo false l)
  | .vlast e => E.tree clo false e
  | .vmore e l => E.tree clo false e ++ (T [.COMMA] ++ E.tree clo false l)
  | .lists l => T [.LIST, .LPAREN] ++ (E.tree clo false l ++ T [.RPAREN])
  | .part p l => E.tree clo false p ++ E.tree clo false l
  | .pvname i => T [.DOLLAR_OPEN_CURLY_BRACES, .STRING_VARNAME, .LBRACKET] ++ (E.tree clo false i ++ T [.RBRACKET, .RBRACE])
  | .pexpr k e => T [k] ++ (E.tree clo false e ++ T [.RBRACE])
  | .un k e => T [k] ++ E.tree clo false e
  | .pre k e => T [k] ++ E.tree clo false e
  | .post e k => E.tree clo false e ++ T [k]
  | .bin k a b => E.tree clo false a ++ (T [k] ++ E.tree clo false b)
  | .inst a c => E.tree clo false a ++ (T [.INSTANCEOF] ++ E.tree clo false c)
  | .cond c a b => E.tree clo false c ++ (T [.QUESTION] ++ (E.tree clo false a ++ (T [.COLON] ++ E.tree clo false b)))
  | .elvis c b => E.tree clo false c ++ (T [.QUESTION, .COLON] ++ E.tree clo false b)
  | .assign k a b => E.tree clo false a ++ (T [k] ++ E.tree clo false b)
  | .assignRef a v => E.tree clo false a ++ (T [.ASSIGN, .BIT_AND] ++ E.tree clo false v)
  | .print e => T [.PRINT] ++ E.tree clo false e
  | .exitE e => T [.EXIT, .LPAREN] ++ (E.tree clo false e ++ T [.RPAREN])
  | .eval e => T [.EVAL, .LPAREN] ++ (E.tree clo false e ++ T [.RPAREN])
  | .list l e => T [.LIST, .LPAREN] ++ (E.tree clo false l ++ (T [.RPAREN, .ASSIGN] ++ E.tree clo false e))
  | .yield e => T [.YIELD] ++ E.tree clo false e
  | .yieldPair k v => T [.YIELD] ++ (E.tree clo false k ++ (T [.DOUBLE_ARROW] ++ E.tree clo false v))
  | .yieldFrom e => T [.YIELD_FROM] ++ E.tree clo false e
  | .scalar k => T (E.toks (.scalar k))
  | .nowdoc => T (E.toks .nowdoc)
  | .name g n => T (E.toks (.name g n))
  | .cconst g n k => T (E.toks (.cconst g n k))
  | .var => T (E.toks .var)
  | .vvar n => T (E.toks (.vvar n))
  | .stat => T (E.toks .stat)
  | .id => T (E.toks .id)
  | .nil => T (E.toks .nil)
  | .ptext => T (E.toks .ptext)
  | .pprop => T (E.toks .pprop)
  | .poff k => T (E.toks (.poff k))
  | .pvname0 => T (E.toks .pvname0)
  | .exit0 => T (E.toks .exit0)
  | .exitP => T (E.toks .exitP)
  | .yield0 => T (E.toks .yield0)

section
variable (clo : List Tok → U)

/-- an expression -/
abbrev ex (e : E) : U := E.tree clo false e

/-- The indices of a string (php.g:924): the last one is kept. -/
def idxTree : List E → U
  | [] => T []
  | [e] => T [.LBRACKET] ++ (ex clo e ++ T [.RBRACKET])
  | e :: f :: l => T [.LBRACKET] ++ (.lost (ex clo e) ++ (T [.RBRACKET] ++ idxTree (f :: l)))
/-- Static values (php.g:999-1016). -/
def Sc.tree : Sc → U
  | .str l => T [.CONSTANT_ENCAPSED_STRING] ++ idxTree clo l
  | .sign k s => T [k] ++ Sc.tree s
  | .arr true l => T [.LBRACKET] ++ (Sc.tree l ++ T [.RBRACKET])
  | .arr false l => T [.ARRAY, .LPAREN] ++ (Sc.tree l ++ T [.RPAREN])
  | .pair k v => Sc.tree k ++ (T [.DOUBLE_ARROW] ++ Sc.tree v)
  | .last i => Sc.tree i
  | .lastComma i => Sc.tree i ++ T [.COMMA]
  | .more i l => Sc.tree i ++ (T [.COMMA] ++ Sc.tree l)
  | .scalar k => T [k]
  | .nowdoc => T [.START_NOWDOC, .STRING, .END_NOWDOC]
  | .const n m => T (Sc.toks (.const n m))
  | .nil => T []
/-- A parameter and its default value (php.g:948-950). -/
def Param.tree (p : Param) : U :=
  T (optTxt hintsTxt p.hint ++ (flagTxt .BIT_AND p.ref ++ (flagTxt .ELLIPSIS p.variadic ++ [.VARIABLE]))) ++ optU (fun e => T [.ASSIGN] ++ ex clo e) p.value
/-- php.g:943-946 -/
def paramsTree (x : Params) : U := sepU .COMMA (Param.tree clo) x.1 ++ T (flagTxt .COMMA x.2)
/-- Variables with static values (php.g:820-821, 1149-1153). -/
def varsTree (l : List (Option Sc)) : U := sepU .COMMA (fun o => T [.VARIABLE] ++ optU (fun s => T [.ASSIGN] ++ Sc.tree clo s) o) l
/-- php.g:823-825 -/
def GVar.tree : GVar → U
  | .name => T [.VARIABLE]
  | .dollar v => T [.DOLLAR] ++ ex clo v
  | .curly e => T [.DOLLAR, .LBRACE] ++ (ex clo e ++ T [.RBRACE])
/-- Statements without statements inside (php.g:692-734). -/
def Line.tree : Line → U
  | .bare k => T [k]
  | .expr e t => ex clo e ++ T [t]
  | .word k e t => T [k] ++ (optU (ex clo) e ++ T [t])
  | .need k e t => T [k] ++ (ex clo e ++ T [t])
  | .echo l t => T [.ECHO] ++ (sepU .COMMA (ex clo) l ++ T [t])
  | .unset l t => T [.UNSET, .LPAREN] ++ (sepU .COMMA (ex clo) l ++ T [.RPAREN, t])
  | .global l t => T [.GLOBAL] ++ (sepU .COMMA (GVar.tree clo) l ++ T [t])
  | .static l t => T [.STATIC] ++ (varsTree clo l ++ T [t])
  | .const l => T [.CONST] ++ (sepU .COMMA (fun e => T [.STRING, .ASSIGN] ++ ex clo e) l ++ T [.SEMICOLON])
  | .use k l => T (Line.toks (.use k l))
  | .goto => T [.GOTO, .STRING, .SEMICOLON]
  | .label => T [.STRING, .COLON]
/-- `( e )` -/
def parenTree (e : E) : U := T [.LPAREN] ++ (ex clo e ++ T [.RPAREN])
/-- The items of `declare` (php.g:708, 810-811): the last one is kept. -/
def declareTree : List Sc → U
  | [] => T []
  | [s] => T [.STRING, .ASSIGN] ++ Sc.tree clo s
  | s :: s' :: l => T [.STRING, .ASSIGN] ++ (.lost (Sc.tree clo s) ++ (T [.COMMA] ++ declareTree (s' :: l)))
/-- The heads of loops (php.g:697-708). -/
def Head.tree : Head → U
  | .while_ c => T [.WHILE] ++ parenTree clo c
  | .for_ a b c => T [.FOR, .LPAREN] ++ (sepU .COMMA (ex clo) a ++ (T [.SEMICOLON] ++ (sepU .COMMA (ex clo) b ++ (T [.SEMICOLON] ++
      (sepU .COMMA (ex clo) c ++ T [.RPAREN])))))
  | .foreach s r v w => T [.FOREACH, .LPAREN] ++ (ex clo s ++ (T (.AS :: flagTxt .BIT_AND r) ++ (ex clo v ++
      (optU (fun x => T (.DOUBLE_ARROW :: flagTxt .BIT_AND x.1) ++ ex clo x.2) w ++ T [.RPAREN]))))
  | .declare l => T [.DECLARE, .LPAREN] ++ (declareTree clo l ++ T [.RPAREN])
/-- From `(` to the return type (php.g:938-939, 1119-1120). -/
def fparams (f : FHead) : U := T [.LPAREN] ++ (paramsTree clo f.params ++ T (.RPAREN :: optTxt (fun h => .COLON :: hintsTxt h) f.ret))
/-- What stands in front of the name of a function. -/
def ffront (f : FHead) : List Tok := .FUNCTION :: flagTxt .BIT_AND f.ref
/-- A class (php.g:1080-1098), by its head and the rest. -/
def clsTree (rest : U) : CHead → U
  | .cls m e i => .type (optTxt tokTxt m) .klass (T (optTxt (fun n => .EXTENDS :: n.toks) e ++ optTxt (fun l => .IMPLEMENTS :: sepTxt .COMMA Name.toks l) i) ++ rest)
  | .trait => .type [] .trait rest
  | .interface e => .type [] .interface (T (optTxt (fun l => .EXTENDS :: sepTxt .COMMA Name.toks l) e) ++ rest)
/-- A member of a class (php.g:1116-1125) and, for a method, what follows its head, its body or `;`, for both of which there is a node `methodBody` (php.g:1145-1147).  The first walk does not look at the values of class variables
(`PreDeclarationBuilder::visitClassVariable`, predeclarationbuilder.cpp:129-132), the second one does (declarationbuilder.cpp:558). -/
def Member.tree (hasBody : Bool) (rest : U) : Member → U
  | .var_ l => (T [.VAR] ++ (.late (varsTree clo l) ++ T [.SEMICOLON])) ++ rest
  | .prop m h l => (T (manyTxt tokTxt m ++ optTxt hintsTxt h) ++ (.late (varsTree clo l) ++ T [.SEMICOLON])) ++ rest
  | .const m l => (T (manyTxt tokTxt m ++ [.CONST]) ++ (sepU .COMMA (fun x => T [x.1] ++ (T [.ASSIGN] ++ ex clo x.2)) l ++ T [.SEMICOLON])) ++ rest
  | .use l x => T (Member.toks (.use l x)) ++ rest
  | .func m f => .meth (manyTxt tokTxt m ++ ffront f) f.name (fparams clo f) hasBody rest
/-- `case c`, `default` -/
def caseTree : Option E → U
  | some c => T [.CASE] ++ ex clo c
  | none => T [.DEFAULT]

/-- Statements and declarations (php.g:294-332, 692-734, 791-855, 938-941, 1073-1125, 1145-1147).  Not kept: `newElseifList newElseSingle` (php.g:694), `declareStatement` (php.g:708). -/
def S.tree : S → U
  | .line l => Line.tree clo l
  | .block b => T [.LBRACE] ++ (S.tree b ++ T [.RBRACE])
  | .ifs c b => T [.IF] ++ (parenTree clo c ++ S.tree b)
  | .plain t rest => S.tree t ++ S.tree rest
  | .altIf b rest e => T [.COLON] ++ (S.tree b ++ (.lost (S.tree rest) ++ T [.ENDIF, e]))
  | .loop (.declare l) b => Head.tree clo (.declare l) ++ .lost (S.tree b)
  | .loop h b => Head.tree clo h ++ S.tree b
  | .alt b w e => T [.COLON] ++ (S.tree b ++ T [w, e])
  | .switch c b => T [.SWITCH] ++ (parenTree clo c ++ S.tree b)
  | .braces semi l => T (.LBRACE :: flagTxt .SEMICOLON semi) ++ (S.tree l ++ T [.RBRACE])
  | .colon semi l e => T (.COLON :: flagTxt .SEMICOLON semi) ++ (S.tree l ++ T [.ENDSWITCH, e])
  | .try_ b rest => T [.TRY, .LBRACE] ++ (S.tree b ++ (T [.RBRACE] ++ S.tree rest))
  | .do_ s c e => T [.DO] ++ (S.tree s ++ (T [.WHILE] ++ (parenTree clo c ++ T [e])))
  | .func f b => .func (ffront f) f.name (fparams clo f) (T [.LBRACE] ++ (S.tree b ++ T [.RBRACE]))
  | .cls h l => clsTree (T [.LBRACE] ++ (S.tree l ++ T [.RBRACE])) h
  | .halt => T [.HALT_COMPILER, .LPAREN, .RPAREN, .SEMICOLON]
  | .nsLine p => T (.NAMESPACE :: (sepTxt .BACKSLASH tokTxt p ++ [.SEMICOLON]))
  | .nsBlock p b => T (.NAMESPACE :: (sepTxt .BACKSLASH tokTxt p ++ [.LBRACE])) ++ (S.tree b ++ T [.RBRACE])
  | .elif c s rest => T [.ELSEIF] ++ (parenTree clo c ++ (S.tree s ++ S.tree rest))
  | .els s => T [.ELSE] ++ S.tree s
  | .elifAlt c b rest => T [.ELSEIF] ++ (parenTree clo c ++ (T [.COLON] ++ (S.tree b ++ S.tree rest)))
  | .elsAlt b => T [.ELSE, .COLON] ++ S.tree b
  | .noElse | .noCatch | .nil => T []
  | .case_ c t b => caseTree clo c ++ (T [t] ++ S.tree b)
  | .catch_ l b rest => T (.CATCH :: .LPAREN :: (sepTxt .BIT_OR Name.toks l ++ [.VARIABLE, .RPAREN, .LBRACE])) ++ (S.tree b ++ (T [.RBRACE] ++ S.tree rest))
  | .fin b => T [.FINALLY, .LBRACE] ++ (S.tree b ++ T [.RBRACE])
  | .member m => Member.tree clo false (T []) m
  | .abstr m => Member.tree clo true (T [.SEMICOLON]) m
  | .method m b => Member.tree clo true (T [.LBRACE] ++ (S.tree b ++ T [.RBRACE])) m
  | .cons a l => S.tree a ++ S.tree l

/-- A closure (php.g:590-604). -/
def Clo.tree (c : Clo) : U :=
  .clo (T (flagTxt .BIT_AND c.ref ++ [.LPAREN]) ++ (paramsTree clo c.params ++ T [.RPAREN])) c.uses.isSome (T (usesTxt c.uses))
    (T (optTxt (fun h => .COLON :: hintsTxt h) c.ret) ++ (T [.LBRACE] ++ (S.tree clo c.body ++ T [.RBRACE])))
end

/-- The outline of the text of a closure; the first argument bounds how deep closures stand in each other. -/
def cloTree : Nat → List Tok → U
  | 0, t => T t
  | n + 1, t =>
    match closureP t with
    | some (c, []) => Clo.tree (cloTree n) c
    | _ => T t

/-- The outline of a part of a file of `n` tokens. -/
def outline (n : Nat) (s : S) : U := S.tree (cloTree n) s

/-- The identifiers of a namespace (php.g:1073) behind the word `namespace`, token `o`. -/
def nsName (nm : Nat → QString) : Nat → List Tok → NsName
  | _, [] => []
  | o, _ :: p => (o + 1, nm (o + 1)) :: nsName nm (o + 2) p

/-- What the builders visit of a file (php.g:294-311, 1073-1078). -/
def fileCode (n : Nat) (again : Bool) (nm : Nat → QString) : Nat → S → List Outer
  | o, .cons (.nsLine p) l => .nsDecl (nsName nm o p) :: fileCode n again nm (o + (S.nsLine p).toks.length) l
  | o, .cons (.nsBlock p b) l =>
    .nsBlock (nsName nm o p) ((outline n b).code again nm (o + 2 + (sepTxt .BACKSLASH tokTxt p).length)) :: fileCode n again nm (o + (S.nsBlock p b).toks.length) l
  | o, .cons a l => .code ((outline n a).code again nm o) :: fileCode n again nm (o + a.toks.length) l
  | _, _ => []

/-- From the tokens of a file to what the builders visit; `none`: there is a syntax error. -/
def codeOf (again : Bool) (nm : Nat → QString) (ts : List Tok) : Option (List Outer) := (parseFile ts).map (fileCode ts.length again nm 0)

end KPhp.Outline
