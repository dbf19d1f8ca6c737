import Verif.Duchain.ExprEval
import Verif.Duchain.Scopes
/-!
# Constants of `define()` (C85) and `yield` outside of functions (C86)

Models the end of `DeclarationBuilder::visitFunctionCall` (duchain/builders/declarationbuilder.cpp:1336-1379), `findCommonScalar` (duchain/helper.cpp:306-327) and `DeclarationBuilder::visitVarExpression`
(declarationbuilder.cpp:1687-1695).  The contexts are those of `Scopes.lean` (C61), expressions those of `ExprEval.lean`.
-/
namespace KPhp.Define
open KPhp.Expr (Node Pos Ident Env isDefine)

/-! ### The name of the constant -/

mutual
/-- The walk of `ScalarExpressionVisitor` (helper.cpp:306-320): the generated visitor goes through everything in the order of the grammar rules; each scalar found overwrites the one before.  Nothing inside of a scalar
is visited. -/
def findScalar : Node → Option Pos → Option Pos
  | .scalar _ s _, _ => some s.pos
  | .varName _, r | .typeHint _, r | .const _, r | .classConst .., r => r
  | .plain cs, r | .index cs, r | .newObj _ cs, r | .array cs, r | .params cs, r | .encapsed cs, r | .encapsVar _ _ cs, r | .prop _ _ cs, r | .staticMember _ _ cs, r | .yield _ cs, r =>
    findScalars cs r
  | .assign _ a cs, r | .variable a _ cs, r | .staticMemberExpr _ a cs, r | .instanceOf a _ cs, r => findScalars cs (findScalar a r)
  | .param c, r | .cast _ c, r | .addRest _ c, r | .relRest c, r | .eqRest _ c, r | .call _ c _, r | .staticCall _ _ c, r | .ret c, r => findScalar c r
  | .staticCallExpr _ a e, r => findScalar e (findScalar a r)                             -- php.g:664-673: `stringParameterList` is the first member with this name
  | .closure _ body sig _, r => findScalars body (findScalars sig r)                      -- php.g:588-592: parameters before the body
def findScalars : List Node → Option Pos → Option Pos
  | [], r => r
  | n :: ns, r => findScalars ns (findScalar n r)
end

/-- The constant a call declares (declarationbuilder.cpp:1337-1349).  `string` is the text of the token `scalar->string`, none for numbers and `__FILE__` etc. -/
def constantOf (env : Env) (string : Pos → Option QString) (f : KPhp.Expr.Name) (args : List Node) : Option QString :=
  if isDefine env f args.length then
    match args with
    | a :: _ =>
      match findScalar a none with
      | some p => (string p).map fun t => (t.drop 1).take (t.length - 2)                  -- :1348
      | none => none
    | [] => none
  else none

/-! ### Specification -/

mutual
/-- The scalars of an expression, in the order of the text. -/
def scalars : Node → List Pos
  | .scalar _ s _ => [s.pos]
  | .varName _ | .typeHint _ | .const _ | .classConst .. => []
  | .plain cs | .index cs | .newObj _ cs | .array cs | .params cs | .encapsed cs | .encapsVar _ _ cs | .prop _ _ cs | .staticMember _ _ cs | .yield _ cs => scalarsList cs
  | .assign _ a cs | .variable a _ cs | .staticMemberExpr _ a cs | .instanceOf a _ cs => scalars a ++ scalarsList cs
  | .param c | .cast _ c | .addRest _ c | .relRest c | .eqRest _ c | .call _ c _ | .staticCall _ _ c | .ret c => scalars c
  | .staticCallExpr _ a e => scalars a ++ scalars e
  | .closure _ body sig _ => scalarsList sig ++ scalarsList body
def scalarsList : List Node → List Pos
  | [] => []
  | n :: ns => scalars n ++ scalarsList ns
end

/-- The expression is one literal. -/
inductive OneLiteral (p : Pos) : Node → Prop
  | here (k s cs) : s.pos = p → OneLiteral p (.scalar k s cs)
  | plain (n) : OneLiteral p n → OneLiteral p (.plain [n])
  | param (n) : OneLiteral p n → OneLiteral p (.param n)

/-- A call of the function `define`, in any case, global or not, with arguments. -/
def CallsDefine (env : Env) (f : KPhp.Expr.Name) (args : List Node) : Prop :=
  (f.front ++ [f.last]).map (fun i => lowerStr env.u i.text) = [q! "define"] ∧ args ≠ []

/-! ### Theorems -/

mutual
theorem findScalar_eq (n : Node) (r : Option Pos) : findScalar n r = (scalars n).getLast?.or r := by
  cases n with
  | scalar k s cs => simp [findScalar, scalars]
  | varName | typeHint | const | classConst => simp [findScalar, scalars]
  | plain cs | index cs | newObj _ cs | array cs | params cs | encapsed cs | encapsVar _ _ cs | prop _ _ cs | staticMember _ _ cs | yield _ cs =>
    rw [findScalar, scalars]; exact findScalars_eq cs r
  | assign _ a cs | «variable» a _ cs | staticMemberExpr _ a cs | instanceOf a _ cs =>
    rw [findScalar, scalars, findScalars_eq cs, findScalar_eq a, List.getLast?_append, Option.or_assoc]
  | param c | cast _ c | addRest _ c | relRest c | eqRest _ c | call _ c _ | staticCall _ _ c | ret c =>
    rw [findScalar, scalars]; exact findScalar_eq c r
  | staticCallExpr _ a e => rw [findScalar, scalars, findScalar_eq e, findScalar_eq a, List.getLast?_append, Option.or_assoc]
  | closure _ body sig _ => rw [findScalar, scalars, findScalars_eq body, findScalars_eq sig, List.getLast?_append, Option.or_assoc]
theorem findScalars_eq (ns : List Node) (r : Option Pos) : findScalars ns r = (scalarsList ns).getLast?.or r := by
  cases ns with
  | nil => simp [findScalars, scalarsList]
  | cons n ns => rw [findScalars, scalarsList, findScalars_eq ns, findScalar_eq n, List.getLast?_append, Option.or_assoc]
end

theorem calls_iff (env : Env) (f : KPhp.Expr.Name) (args : List Node) : isDefine env f args.length = true ↔ CallsDefine env f args := by
  rw [KPhp.Expr.isDefine_iff, CallsDefine]
  simp [KPhp.Expr.Name.folded]

/-- **C85 (exactly).** A call declares the constant `w` iff it calls `define` and the last scalar in its first argument is a string whose text without the first and last character is `w`. -/
theorem constant_iff (env : Env) (string : Pos → Option QString) (f : KPhp.Expr.Name) (args : List Node) (w : QString) :
    constantOf env string f args = some w ↔
      CallsDefine env f args ∧ ∃ a rest p t, args = a :: rest ∧ (scalars a).getLast? = some p ∧ string p = some t ∧ w = (t.drop 1).take (t.length - 2) := by
  unfold constantOf
  cases args with
  | nil =>
    constructor
    · intro h; split at h <;> cases h
    · rintro ⟨-, a, rest, p, t, h, -⟩; cases h
  | cons a rest =>
    by_cases hd : isDefine env f (a :: rest).length = true
    · rw [if_pos hd]
      dsimp only
      rw [findScalar_eq, Option.or_none]
      constructor
      · intro h
        split at h
        · rename_i p hp
          obtain ⟨t, ht, he⟩ := Option.map_eq_some_iff.1 h
          exact ⟨(calls_iff env f _).1 hd, a, rest, p, t, rfl, hp, ht, he.symm⟩
        · cases h
      · rintro ⟨-, a', rest', p, t, ha, hp, ht, rfl⟩
        cases ha
        rw [hp]; dsimp only
        rw [ht]; rfl
    · rw [if_neg hd]
      constructor
      · intro h; cases h
      · rintro ⟨h, -⟩; exact absurd ((calls_iff env f _).2 h) hd

theorem literal_scalars {p : Pos} {n : Node} (h : OneLiteral p n) : scalars n = [p] := by
  induction h with
  | here k s cs hp => rw [scalars, hp]
  | plain n _ ih => simp [scalars, scalarsList, ih]
  | param n _ ih => simp [scalars, ih]

/-- **C85.** `define('X', …)` declares `X`. -/
theorem literal_constant_partial (env : Env) (string : Pos → Option QString) (f : KPhp.Expr.Name) (a : Node) (rest : List Node) (p : Pos) (q q' : QChar) (w : QString)
    (hf : CallsDefine env f (a :: rest)) (ha : OneLiteral p a) (hs : string p = some (q :: w ++ [q'])) : constantOf env string f (a :: rest) = some w := by
  rw [constant_iff]
  refine ⟨hf, a, rest, p, _, rfl, by rw [literal_scalars ha]; rfl, hs, ?_⟩
  simp

/-- **C85.** Nothing else but `define` declares a constant this way. -/
theorem other_function (env : Env) (string : Pos → Option QString) (f : KPhp.Expr.Name) (args : List Node) (h : ¬ CallsDefine env f args) : constantOf env string f args = none := by
  cases hc : constantOf env string f args with
  | none => rfl
  | some w => exact absurd ((constant_iff env string f args w).1 hc).1 h

/-- **Finding.** A name put together of several strings declares the last of them: `define('A' . 'B', 1)` declares `B`. -/
theorem concatenated (env : Env) (string : Pos → Option QString) (f : KPhp.Expr.Name) (a b : Node) (rest : List Node) (p : Pos) (q q' : QChar) (w : QString)
    (hf : CallsDefine env f (.param (.plain [a, .addRest .concat b]) :: rest)) (hb : OneLiteral p b) (hs : string p = some (q :: w ++ [q'])) :
    constantOf env string f (.param (.plain [a, .addRest .concat b]) :: rest) = some w := by
  rw [constant_iff]
  refine ⟨hf, _, rest, p, _, rfl, ?_, hs, by simp⟩
  simp [scalars, scalarsList, literal_scalars hb]

/-- **Finding.** The name is computed by a function: its argument is declared. -/
theorem computed (env : Env) (string : Pos → Option QString) (f g : KPhp.Expr.Name) (b : Node) (rest : List Node) (p : Pos) (q q' : QChar) (w : QString)
    (hf : CallsDefine env f (.param (.plain [.call g (.params [b]) 1]) :: rest)) (hb : OneLiteral p b) (hs : string p = some (q :: w ++ [q'])) :
    constantOf env string f (.param (.plain [.call g (.params [b]) 1]) :: rest) = some w := by
  rw [constant_iff]
  refine ⟨hf, _, rest, p, _, rfl, ?_, hs, by simp⟩
  simp [scalars, scalarsList, literal_scalars hb]

/-! ### Where it is declared -/

open KPhp.Scopes (Ctx Frame Kind Within Code Outer NsName Event inNamespace sites fileSites Agrees nsAfter outerSites build fileKeys fileTokens build_good fileFrame nsSites)

/-- The context the constant is put into (declarationbuilder.cpp:1356-1362): outwards to the first namespace, or to the file.  The first argument bounds the number of steps. -/
def target (cs : List Ctx) : Nat → Nat → Option Nat
  | 0, _ => none
  | n + 1, c =>
    match cs[c]? with
    | none => none
    | some x =>
      if x.kind = .namespace then some c
      else match x.parent with
        | some q => target cs n q
        | none => some c

theorem target_within {cs : List Ctx} {around : List Frame} (ha : ∃ f l, around = f :: l ∧ (f.kind = .namespace ∨ l = [])) : ∀ (pre : List Frame) (c n : Nat), Within cs c (pre ++ around) → (∀ f ∈ pre, f.kind ≠ .namespace) →
    c < n → ∃ c', target cs n c = some c' ∧ Within cs c' around := by
  obtain ⟨g, l, rfl, hg⟩ := ha
  intro pre
  induction pre with
  | nil =>
    intro c n hw _ hn
    obtain ⟨n, rfl⟩ : ∃ k, n = k + 1 := ⟨n - 1, by omega⟩
    refine ⟨c, ?_, hw⟩
    cases hw with
    | file hx hp => rw [target, hx]; dsimp only; rw [hp]; split <;> rfl
    | inner hx hp hlt hw' =>
      rcases hg with hg | rfl
      · rw [target, hx]; dsimp only; rw [if_pos hg]
      · cases hw'
  | cons f pre ih =>
    intro c n hw hpre hn
    obtain ⟨n, rfl⟩ : ∃ k, n = k + 1 := ⟨n - 1, by omega⟩
    generalize hfs : f :: pre ++ g :: l = fs at hw
    cases hw with
    | file hx hp => exact absurd hfs (by simp)
    | inner hx hp hlt hw' =>
      rename_i q x fs'
      simp only [List.cons_append, List.cons.injEq] at hfs
      obtain ⟨rfl, rfl⟩ := hfs
      obtain ⟨c', h1, h2⟩ := ih q n hw' (fun f hf => hpre f (by simp [hf])) (by omega)
      refine ⟨c', ?_, h2⟩
      rw [target, hx]; dsimp only
      rw [if_neg (hpre _ (List.mem_cons_self ..)), hp]
      exact h1

theorem sites_around (u : CharClass) (i : Bool) (c : Code) : ∀ (around : List Frame) (x : Event × List Frame), x ∈ sites u i around c →
    ∃ pre, x.2 = pre ++ around ∧ ∀ f ∈ pre, f.kind ≠ .namespace := by
  have key : ∀ (around : List Frame) (fr : Frame) (c : Code) (x : Event × List Frame), fr.kind ≠ .namespace →
      (∀ (around : List Frame) (x : Event × List Frame), x ∈ sites u i around c → ∃ pre, x.2 = pre ++ around ∧ ∀ f ∈ pre, f.kind ≠ .namespace) →
      x ∈ sites u i (fr :: around) c → ∃ pre, x.2 = pre ++ around ∧ ∀ f ∈ pre, f.kind ≠ .namespace := by
    intro around fr c x hf ih hx
    obtain ⟨pre, h1, h2⟩ := ih _ _ hx
    refine ⟨pre ++ [fr], by simp [h1], fun f hm => ?_⟩
    rcases List.mem_append.1 hm with hm | hm
    · exact h2 f hm
    · simp at hm; subst hm; exact hf
  induction c with
  | empty => intro around x hx; cases hx
  | leaf l => intro around x hx; simp [sites] at hx; subst hx; exact ⟨[], rfl, by simp⟩
  | seq a b iha ihb =>
    intro around x hx
    rcases List.mem_append.1 (show x ∈ sites u i around a ++ sites u i around b from hx) with hx | hx
    · exact iha _ _ hx
    · exact ihb _ _ hx
  | closure id params hasUses uses body ih1 ih2 ih3 =>
    intro around x hx
    simp only [sites, List.mem_cons, List.mem_append] at hx
    rcases hx with rfl | hx | hx | hx
    · exact ⟨[], rfl, by simp⟩
    · exact key _ _ _ _ (by simp) ih1 hx
    · split at hx
      · exact key _ _ _ _ (by simp) ih2 hx
      · cases hx
    · split at hx
      · cases hx
      · exact key _ _ _ _ (by simp) ih3 hx
  | function id name params body ih1 ih2 =>
    intro around x hx
    simp only [sites, List.mem_cons, List.mem_append] at hx
    rcases hx with rfl | hx | hx
    · exact ⟨[], rfl, by simp⟩
    · exact key _ _ _ _ (by simp) ih1 hx
    · split at hx
      · cases hx
      · exact key _ _ _ _ (by simp) ih2 hx
  | type id k name members ih =>
    intro around x hx
    simp only [sites, List.mem_cons] at hx
    rcases hx with rfl | hx
    · exact ⟨[], rfl, by simp⟩
    · exact key _ _ _ _ (by simp) ih hx
  | method id name params hasBody body ih1 ih2 =>
    intro around x hx
    simp only [sites, List.mem_cons, List.mem_append] at hx
    rcases hx with rfl | hx | hx
    · exact ⟨[], rfl, by simp⟩
    · exact key _ _ _ _ (by simp) ih1 hx
    · split at hx
      · cases hx
      · exact key _ _ _ _ (by simp) ih2 hx

theorem agrees_mem {cs : List Ctx} : ∀ {l : List (Event × Nat)} {l' : List (Event × List Frame)}, Agrees cs l l' → ∀ {e : Event} {fs : List Frame}, (e, fs) ∈ l' →
    ∃ c, (e, c) ∈ l ∧ Within cs c fs
  | [], [], _, _, _, h => by cases h
  | (e1, c1) :: l, (e2, f2) :: l', h, e, fs, hm => by
    obtain ⟨rfl, hw, h⟩ := h
    rcases List.mem_cons.1 hm with hm | hm
    · cases hm; exact ⟨c1, by simp, hw⟩
    · obtain ⟨c, h1, h2⟩ := agrees_mem h hm
      exact ⟨c, by simp [h1], h2⟩
  | [], _ :: _, h, _, _, _ => h.elim
  | _ :: _, [], h, _, _, hm => by cases hm

/-- `c` is code of the file, in namespace `ns`: behind `namespace A;`, or in the block of `namespace A { … }`. -/
inductive InFile : List Outer → NsName → Code → Prop
  | code (f1 f2 c) : InFile (f1 ++ .code c :: f2) (f1.foldl nsAfter []) c
  | block (f1 f2 n b) : InFile (f1 ++ .nsBlock n b :: f2) n b

theorem fileSites_mem (u : CharClass) (i : Bool) (x : Event × List Frame) : ∀ (f1 : List Outer) (ns : NsName) (f2 : List Outer),
    x ∈ fileSites u i (f1.foldl nsAfter ns) f2 → x ∈ fileSites u i ns (f1 ++ f2)
  | [], _, _, h => h
  | o :: f1, ns, f2, h => by
    have := fileSites_mem u i x f1 (nsAfter ns o) f2 h
    cases o with
    | code c => exact List.mem_append_right _ this
    | nsDecl n => exact List.mem_append_right _ this
    | nsBlock n b => exact List.mem_append_right _ this

theorem inFile_sites {u : CharClass} {i : Bool} {f : List Outer} {ns : NsName} {c : Code} (h : InFile f ns c) {x : Event × List Frame}
    (hx : x ∈ sites u i (inNamespace u ns) c) : x ∈ fileSites u i [] f := by
  cases h with
  | code f1 f2 => exact fileSites_mem u i x f1 [] _ (List.mem_append_left _ hx)
  | block f1 f2 => exact fileSites_mem u i x f1 [] _ (List.mem_append_left _ (List.mem_append_right _ hx))

theorem inNamespace_head (u : CharClass) (ns : NsName) : ∃ f l, inNamespace u ns = f :: l ∧ (f.kind = .namespace ∨ l = []) := by
  rcases List.eq_nil_or_concat ns with rfl | ⟨l, x, rfl⟩
  · exact ⟨_, _, rfl, .inr rfl⟩
  · refine ⟨⟨some ⟨x.1, .whole⟩, .namespace, lowerStr u x.2⟩, (l.map fun (id, n) => (⟨some ⟨id, .whole⟩, .namespace, lowerStr u n⟩ : Frame)).reverse ++ [fileFrame], ?_, .inl rfl⟩
    simp [inNamespace]

/-- **C85.** Wherever in the code of a namespace `define` is called, however deep in functions, classes and closures: the constant is declared in the context of that namespace (for code without namespace: of the file). -/
theorem declared_in (u : CharClass) (i : Bool) (f : List Outer) (hk : (fileKeys f).Nodup) (ht : (fileTokens f).Nodup) :
    ∃ s1 s2, build u i f = some (s1, s2) ∧ ∀ ns c, InFile f ns c → ∀ e fs, (e, fs) ∈ sites u i (inNamespace u ns) c →
      ∃ k k', (e, k) ∈ s2.log ∧ Within s2.ctxs k fs ∧ target s2.ctxs s2.ctxs.length k = some k' ∧ Within s2.ctxs k' (inNamespace u ns) := by
  obtain ⟨s1, s2, hb, -, -, -, -, -, ha, hc, hl⟩ := build_good u i f hk ht
  refine ⟨s1, s2, hb, fun ns c hin e fs hx => ?_⟩
  rw [hc, hl]
  obtain ⟨k, h1, h2⟩ := agrees_mem ha (inFile_sites hin hx)
  obtain ⟨pre, h3, h4⟩ := sites_around u i c _ _ hx
  dsimp only at h3
  subst h3
  obtain ⟨k', h5, h6⟩ := target_within (inNamespace_head u ns) pre k s1.ctxs.length h2 h4 h2.lt
  exact ⟨k, k', h1, h2, h5, h6⟩

/-- **Finding.** In a namespace this is not the file, where PHP declares all constants of `define`. -/
theorem not_global {u : CharClass} {cs : List Ctx} {ns : NsName} {k : Nat} (hn : ns ≠ []) (h : Within cs k (inNamespace u ns)) : ¬ Within cs k [fileFrame] := by
  intro h'
  have := congrArg List.length (h.unique h')
  simp [inNamespace] at this
  exact hn this

/-! ### `yield` -/

/-- Where the error is reported (declarationbuilder.cpp:1691-1694): at each `yield` whose context is not of the kind `Other`. -/
def yieldReports (cs : List Ctx) (log : List (Event × Nat)) : List Nat :=
  log.filterMap fun
    | (.leaf (.yield p), c) => if (cs[c]?.map (·.kind)) = some .other then none else some p
    | _ => none

/-- The `yield`s of a text that stand in no body of a function, method or closure; `inside`: the text itself does. -/
def loose (inside : Bool) : Code → List Nat
  | .leaf (.yield p) => if inside then [] else [p]
  | .leaf _ | .empty => []
  | .seq a b => loose inside a ++ loose inside b
  | .closure _ params _ _ body => loose false params ++ loose true body
  | .function _ _ params body => loose false params ++ loose true body
  | .type _ _ _ members => loose false members
  | .method _ _ params hasBody body => loose false params ++ (if hasBody then loose true body else [])

def fileLoose : List Outer → List Nat
  | [] => []
  | .code c :: f => loose false c ++ fileLoose f
  | .nsDecl _ :: f => fileLoose f
  | .nsBlock _ b :: f => loose false b ++ fileLoose f

/-- In `use (…)` of a closure stand variables only (php.g:594-600). -/
def UsesPlain : Code → Prop
  | .empty | .leaf _ => True
  | .seq a b => UsesPlain a ∧ UsesPlain b
  | .closure _ params hasUses uses body => UsesPlain params ∧ UsesPlain body ∧ (hasUses = true → loose false uses = [] ∧ loose true uses = [] ∧ UsesPlain uses)
  | .function _ _ params body => UsesPlain params ∧ UsesPlain body
  | .type _ _ _ members => UsesPlain members
  | .method _ _ params _ body => UsesPlain params ∧ UsesPlain body

def FilePlain : List Outer → Prop
  | [] => True
  | .code c :: f | .nsBlock _ c :: f => UsesPlain c ∧ FilePlain f
  | .nsDecl _ :: f => FilePlain f

/-- the same on the sites -/
def siteReport : Event × List Frame → Option Nat
  | (.leaf (.yield p), f :: _) => if f.kind = .other then none else some p
  | _ => none

theorem siteReports (u : CharClass) (c : Code) : ∀ (fr : Frame) (around : List Frame), UsesPlain c →
    (sites u false (fr :: around) c).filterMap siteReport = loose (decide (fr.kind = .other)) c := by
  induction c with
  | empty => intros; rfl
  | leaf l =>
    intro fr around _
    cases l with
    | yield p =>
      rw [sites, List.filterMap_cons, List.filterMap_nil, loose]
      by_cases h : fr.kind = .other <;> simp [siteReport, h]
    | _ => rfl
  | seq a b iha ihb => intro fr around h; rw [sites, List.filterMap_append, iha _ _ h.1, ihb _ _ h.2, loose]
  | closure id params hasUses uses body ih1 ih2 ih3 =>
    intro fr around h
    rw [sites, List.filterMap_cons_none rfl, List.filterMap_append, List.filterMap_append, ih1 _ _ h.1, loose]
    have h2 : List.filterMap siteReport (if hasUses = true then sites u false (⟨some ⟨id, .uses⟩, .other, []⟩ :: fr :: around) uses else []) = [] := by
      split
      · rename_i hu
        obtain ⟨-, hl, hp⟩ := h.2.2 hu
        rw [ih2 _ _ hp]; exact hl
      · rfl
    rw [h2, if_neg (by simp), ih3 _ _ h.2.1]
    rfl
  | function id name params body ih1 ih2 =>
    intro fr around h
    rw [sites, List.filterMap_cons_none rfl, List.filterMap_append, ih1 _ _ h.1, if_neg (by simp), ih2 _ _ h.2, loose]
    rfl
  | type id k name members ih =>
    intro fr around h
    rw [sites, List.filterMap_cons_none rfl, ih _ _ h, loose]
    rfl
  | method id name params hasBody body ih1 ih2 =>
    intro fr around h
    rw [sites, List.filterMap_cons_none rfl, List.filterMap_append, ih1 _ _ h.1, loose]
    cases hasBody with
    | true => rw [if_neg (by simp), ih2 _ _ h.2]; rfl
    | false => rfl

theorem agrees_reports {cs : List Ctx} : ∀ {l : List (Event × Nat)} {l' : List (Event × List Frame)}, Agrees cs l l' → yieldReports cs l = l'.filterMap siteReport
  | [], [], _ => rfl
  | (e, c) :: l, (e', fs) :: l', h => by
    obtain ⟨rfl, hw, h⟩ := h
    have ih := agrees_reports h
    unfold yieldReports at ih ⊢
    have h1 : (match ((e, c) : Event × Nat) with
        | (.leaf (.yield p), c) => if (cs[c]?.map (·.kind)) = some .other then none else some p
        | _ => none) = siteReport (e, fs) := by
      have hk : ∃ f r, fs = f :: r ∧ cs[c]?.map (·.kind) = some f.kind := by
        cases hw with
        | file hx _ => exact ⟨_, _, rfl, by rw [hx]; rfl⟩
        | inner hx _ _ _ => exact ⟨_, _, rfl, by rw [hx]; rfl⟩
      obtain ⟨f, r, rfl, hk⟩ := hk
      cases e with
      | leaf l =>
        cases l with
        | yield p => simp [siteReport, hk]
        | _ => rfl
      | _ => rfl
    rw [List.filterMap_cons, List.filterMap_cons, ih, h1]
  | [], _ :: _, h => h.elim
  | _ :: _, [], h => h.elim

theorem nsSites_reports (u : CharClass) : ∀ (ns : NsName) (around : List Frame), (nsSites u around ns).filterMap siteReport = []
  | [], _ => rfl
  | (id, n) :: ns, around => by rw [nsSites, List.filterMap_cons_none rfl, nsSites_reports u ns]

theorem file_reports (u : CharClass) : ∀ (f : List Outer) (ns : NsName), FilePlain f →
    (fileSites u false ns f).filterMap siteReport = fileLoose f
  | [], _, _ => rfl
  | o :: f, ns, h => by
    have hs : ∀ ns c, UsesPlain c → (sites u false (inNamespace u ns) c).filterMap siteReport = loose false c := by
      intro ns c hc
      have hk : ∃ f l, inNamespace u ns = f :: l ∧ f.kind ≠ .other := by
        rcases List.eq_nil_or_concat ns with rfl | ⟨l, x, rfl⟩
        · exact ⟨_, _, rfl, by simp [fileFrame]⟩
        · refine ⟨⟨some ⟨x.1, .whole⟩, .namespace, lowerStr u x.2⟩, (l.map fun (id, n) => (⟨some ⟨id, .whole⟩, .namespace, lowerStr u n⟩ : Frame)).reverse ++ [fileFrame], ?_, by simp⟩
          simp [inNamespace]
      obtain ⟨f, l, e, hk⟩ := hk
      rw [e, siteReports u c _ _ hc]
      simp [hk]
    cases o with
    | code c =>
      rw [fileSites, List.filterMap_append, hs _ _ h.1, file_reports u f _ h.2, fileLoose]
    | nsDecl n => rw [fileSites, List.filterMap_append, nsSites_reports, file_reports u f _ h, fileLoose]; rfl
    | nsBlock n b =>
      rw [fileSites, List.filterMap_append, List.filterMap_append, nsSites_reports, hs _ _ h.1, file_reports u f _ h.2, fileLoose]; rfl

/-- **C86.** Exactly the `yield`s that stand in no body of a function, method or closure are reported, in their order. -/
theorem yields_reported (u : CharClass) (f : List Outer) (hk : (fileKeys f).Nodup) (ht : (fileTokens f).Nodup) (hp : FilePlain f) :
    ∃ s1 s2, build u false f = some (s1, s2) ∧ yieldReports s2.ctxs s2.log = fileLoose f := by
  obtain ⟨s1, s2, hb, -, -, -, -, -, ha, hc, hl⟩ := build_good u false f hk ht
  refine ⟨s1, s2, hb, ?_⟩
  rw [hc, hl, agrees_reports ha, file_reports u f [] hp]

/-! ### Concrete cases -/

/-- `namespace N; function f($a = yield) { yield; function () { yield; }; } yield;` -/
def exFile : List Outer :=
  [.nsDecl [(1, q! "N")], .code (.seq (.function 2 (q! "f") (.leaf (.yield 3)) (.seq (.leaf (.yield 4)) (.closure 5 .empty false .empty (.leaf (.yield 6))))) (.leaf (.yield 7)))]
example : fileLoose exFile = [3, 7] := by decide
example : (fileKeys exFile).Nodup ∧ (fileTokens exFile).Nodup := by decide
example : (build asciiClass false exFile).map (fun s => yieldReports s.2.ctxs s.2.log) = some [3, 7] := by decide +kernel
example : FilePlain exFile := by simp [FilePlain, UsesPlain, exFile]
/-- `Define('X')` -/
example (env : Env) (hu : env.u = asciiClass) :
    constantOf env (fun p => if p = 5 then some (q! "'X'") else none) ⟨0, false, [], ⟨0, q! "Define"⟩⟩ [.param (.plain [.scalar .string ⟨5, q! "'X'"⟩ []])] = some (q! "X") :=
  literal_constant_partial env _ _ _ _ 5 (c! '\'') (c! '\'') _ ⟨by rw [hu]; decide, by simp⟩ (.param _ (.plain _ (.here _ _ _ rfl))) rfl

end KPhp.Define
