import Verif.Duchain.ScopeNames
/-!
# Variables: where they are declared and what they denote (C63)

Models `DeclarationBuilder::declareVariable`, `declareFoundVariable`, `visitStaticVar`, `visitCatchItem`, `visitGlobalVar`,
`visitParameter`, `visitLexicalVar` (duchain/builders/declarationbuilder.cpp:816-851, 899-925, 1006-1167, 1411-1550) and
`ExpressionVisitor::processVariable`, `findVariableDeclaration` (duchain/expressionvisitor.cpp:42-118, 1031-1046), over the contexts of
`Scopes.lean`.  Positions are numbers of tokens; the end of a token is the start of the next one.

Trusted platform behaviour (KDevPlatform `DUContext::findDeclarations`): the declarations of that name in the context itself that start before
the position; if there are none, those of the contexts it imports, the last import first; if there are none and the search is not
restricted by `DontSearchInParent`, those of the context around it; aliases are replaced by what they stand for; in a namespace the context itself is
not searched; the context of the file also has the declarations of the files it imports.

Simplified: the file is compiled for the first time; no variable of the file has the comment `@superglobal`; types are left out.
-/
namespace KPhp.Denote
open Scopes (Kind Ctx Leaf Event)

/-- What a variable denotes: a declaration of the file (an index), one of another file, or (for `$this`) a class, given by its context. -/
inductive Target
  | own (i : Nat)
  | foreign (id : Nat)
  | klass (ctx : Nat)
deriving DecidableEq, Repr

/-- A declaration of kind `Instance`: `isVar` for a `VariableDeclaration`; `alias` for an `AliasDeclaration`. -/
structure Var where
  name : QString
  pos : Nat
  ctx : Nat
  isVar : Bool
  alias : Option Target
deriving DecidableEq, Repr

/-- A variable of another file. -/
structure Foreign where
  id : Nat
  superglobal : Bool
deriving DecidableEq, Repr

/-- The global variables of the imported files by name. -/
abbrev World := QString → List Foreign

/-- The position, if given, is after the start of the declaration. -/
def before : Option Nat → Nat → Bool
  | none, _ => true
  | some l, p => p < l

/-- `findLocalDeclarations`: those of one context; `i` is the index of the first. -/
def localsFrom (c : Nat) (x : QString) (lim : Option Nat) : Nat → List Var → List Target
  | _, [] => []
  | i, v :: vs =>
    if v.ctx = c ∧ v.name = x ∧ before lim v.pos then v.alias.getD (.own i) :: localsFrom c x lim (i + 1) vs
    else localsFrom c x lim (i + 1) vs

def locals (vars : List Var) (c : Nat) (x : QString) (lim : Option Nat) : List Target := localsFrom c x lim 0 vars

/-- What is in the context itself. -/
def here (w : World) (vars : List Var) (c : Nat) (kind : Kind) (x : QString) (lim : Option Nat) : List Target :=
  match kind with
  | .namespace => []
  | .global => (w x).map (fun f => .foreign f.id) ++ locals vars c x lim
  | _ => locals vars c x lim

/-- `DUContext::findDeclarations` (see the head of this file); `up` is false with `DontSearchInParent`.  The platform limits the depth of
the search, too. -/
def findIn (w : World) (cs : List Ctx) (vars : List Var) (x : QString) (lim : Option Nat) : Nat → Bool → Nat → List Target
  | 0, _, _ => []
  | fuel + 1, up, c =>
    match cs[c]? with
    | none => []
    | some k =>
      let h := here w vars c k.kind x lim
      if h ≠ [] then h
      else
        let i := k.imports.reverse.flatMap (findIn w cs vars x lim fuel false)
        if i ≠ [] then i
        else if up then
          match k.parent with
          | some p => findIn w cs vars x lim fuel true p
          | none => []
        else []

def find (w : World) (cs : List Ctx) (vars : List Var) (up : Bool) (c : Nat) (x : QString) (lim : Option Nat) : List Target :=
  findIn w cs vars x lim (cs.length + 1) up c

/-- `dynamic_cast<VariableDeclaration*>`. -/
def isVariable (vars : List Var) : Target → Bool
  | .own i => (vars[i]?.map (·.isVar)).getD false
  | .foreign _ => true
  | .klass _ => false

/-- The class directly around the context. -/
def classAround (cs : List Ctx) (c : Nat) : Option Nat :=
  match cs[c]? with
  | none => none
  | some k =>
    match k.parent with
    | none => none
    | some p =>
      match cs[p]? with
      | none => none
      | some kp => if kp.kind = .klass then some p else none

/-- `openDefinition` and declarationbuilder.cpp:1163-1165: variables are not namespaced. -/
def home (cs : List Ctx) (c : Nat) : Nat :=
  match cs[c]? with
  | some k => if k.kind = .namespace then 0 else c
  | none => c

/-- A namespace is around the context. -/
def inNs (cs : List Ctx) : Nat → Nat → Bool
  | 0, _ => false
  | fuel + 1, c =>
    match cs[c]? with
    | none => false
    | some k =>
      if k.kind = .namespace then true
      else
        match k.parent with
        | some p => inNs cs fuel p
        | none => false

/-- `declareVariable` (declarationbuilder.cpp:1006-1167). -/
def declareVariable (w : World) (cs : List Ctx) (vars : List Var) (c : Nat) (x : QString) (p : Nat) : List Var :=
  if x = q! "this" ∧ (classAround cs c).isSome then vars
  else if (find w cs vars false c x (some p)).any (isVariable vars) then vars
  else vars ++ [⟨x, p, home cs c, true, none⟩]

/-- `declareFoundVariable` (declarationbuilder.cpp:1426-1470) for a variable that is not an array element.  The additional search for
global variables finds nothing else. -/
def declareFound (w : World) (cs : List Ctx) (vars : List Var) (c : Nat) (x : QString) (p : Nat) : List Var :=
  if find w cs vars true c x none ≠ [] then vars
  else declareVariable w cs vars c x p

/-- `visitLexicalVar` (declarationbuilder.cpp:899-925). -/
def declareLexical (w : World) (cs : List Ctx) (vars : List Var) (c : Nat) (x : QString) (p : Nat) : List Var :=
  match find w cs vars true c x none with
  | [] => vars
  | t :: _ => vars ++ [⟨x, p, c, true, some t⟩]

/-- `findDeclarationImport(GlobalVariableDeclarationType, …)` (helper.cpp:165-257): the name is looked up behind the namespace. -/
def globalTargets (w : World) (cs : List Ctx) (vars : List Var) (c : Nat) (x : QString) : List Target :=
  if inNs cs (cs.length + 1) c then [] else ((w x).map (fun f => Target.foreign f.id) ++ locals vars 0 x none).filter (isVariable vars)

/-- `visitGlobalVar` (declarationbuilder.cpp:1514-1539). -/
def declareGlobal (w : World) (cs : List Ctx) (vars : List Var) (c : Nat) (x : QString) (p : Nat) : List Var :=
  match globalTargets w cs vars c x with
  | [] => vars
  | t :: _ => vars ++ [⟨x, p, c, true, some t⟩]

/-- One thing is seen in a context. -/
def step (w : World) (cs : List Ctx) (vars : List Var) (e : Event × Nat) : List Var :=
  match e.1 with
  | .leaf (.assign x p) => declareVariable w cs vars e.2 x p
  | .leaf (.target x p) => declareFound w cs vars e.2 x p
  | .leaf (.fresh x p) => vars ++ [⟨x, p, e.2, true, none⟩]
  | .leaf (.param x p) => vars ++ [⟨x, p, e.2, true, none⟩]
  | .leaf (.lexical x p) => declareLexical w cs vars e.2 x p
  | .leaf (.globalVar x p) => declareGlobal w cs vars e.2 x p
  | .leaf (.property x) => vars ++ [⟨x, 0, e.2, false, none⟩]
  | .leaf (.constant x) => vars ++ [⟨x, 0, e.2, false, none⟩]
  | _ => vars

/-- The declarations of the second walk over a file. -/
def declared (w : World) (cs : List Ctx) (log : List (Event × Nat)) : List Var := log.foldl (step w cs) []

/-- `findVariableDeclaration` (expressionvisitor.cpp:1031-1046). -/
def lastVar (vars : List Var) (l : List Target) : Option Target := l.reverse.find? (isVariable vars)

/-- Arguments (expressionvisitor.cpp:76-92). -/
def argument (cs : List Ctx) (vars : List Var) (x : QString) : List Nat → Option Target
  | [] => none
  | i :: is =>
    match cs[i]? with
    | some k =>
      if k.kind = .function then
        match locals vars i x none with
        | [] => argument cs vars x is
        | t :: _ => some t
      else argument cs vars x is
    | none => argument cs vars x is

/-- `processVariable` (expressionvisitor.cpp:42-118) in the context `c` for the variable whose token is `pos`. -/
def resolve (w : World) (cs : List Ctx) (vars : List Var) (c : Nat) (x : QString) (pos : Nat) : Option Target :=
  match cs[c]? with
  | none => none
  | some k =>
    (if x = q! "this" then (classAround cs c).map .klass else lastVar vars (find w cs vars false c x (some (pos + 1))))
    |>.or (if k.kind = .namespace then lastVar vars (find w cs vars true c x (some (pos + 1))) else none)
    |>.or (argument cs vars x k.imports)
    |>.or (((w x).find? (·.superglobal)).map (fun f => .foreign f.id))

/-! ### Specification -/

/-- The contexts of one function, method or closure: the body, the parameters and the lexical variables. -/
structure Func (cs : List Ctx) (b p : Nat) (us : List Nat) : Prop where
  body : ∃ k, cs[b]? = some k ∧ k.kind = .other ∧ k.imports = p :: us
  params : ∃ k, cs[p]? = some k ∧ k.kind = .function ∧ k.imports = []
  uses : ∀ u ∈ us, ∃ k, cs[u]? = some k ∧ k.kind = .other ∧ k.imports = []
  file : b ≠ 0 ∧ p ≠ 0 ∧ 0 ∉ us

/-- The statement declares the variable. -/
inductive Introduces (x : QString) : Leaf → Prop
  | assign (p : Nat) : Introduces x (.assign x p)
  | target (p : Nat) : Introduces x (.target x p)
  | fresh (p : Nat) : Introduces x (.fresh x p)
  | globalVar (p : Nat) : Introduces x (.globalVar x p)
  | param (p : Nat) : Introduces x (.param x p)
  | lexical (p : Nat) : Introduces x (.lexical x p)
  | property : Introduces x (.property x)
  | constant : Introduces x (.constant x)

/-- Only statements stand in a body. -/
inductive InBody : Leaf → Prop
  | read (x : QString) (p : Nat) : InBody (.read x p)
  | assign (x : QString) (p : Nat) : InBody (.assign x p)
  | target (x : QString) (p : Nat) : InBody (.target x p)
  | fresh (x : QString) (p : Nat) : InBody (.fresh x p)
  | globalVar (x : QString) (p : Nat) : InBody (.globalVar x p)
  | yield (p : Nat) : InBody (.yield p)
  | name (n : Names.NameAst) (p : Nat) : InBody (.name n p)

/-- The target is a variable of the function: declared in its body, one of its parameters, what one of its lexical variables stands for or what
one of its `global` statements stands for. -/
def OfFunction (vars : List Var) (body params : Nat) (uses : List Nat) (x : QString) (t : Target) : Prop :=
  ∃ (i : Nat) (v : Var), vars[i]? = some v ∧ v.name = x ∧ (v.ctx = body ∨ v.ctx = params ∨ v.ctx ∈ uses) ∧ t = v.alias.getD (.own i)

/-! ### Proofs -/

theorem mem_localsFrom {c : Nat} {x : QString} {lim : Option Nat} {t : Target} : ∀ {vs : List Var} {i : Nat},
    t ∈ localsFrom c x lim i vs ↔ ∃ (j : Nat) (v : Var), vs[j]? = some v ∧ v.ctx = c ∧ v.name = x ∧ before lim v.pos = true ∧ t = v.alias.getD (.own (i + j))
  | [], i => by simp [localsFrom]
  | v :: vs, i => by
    have ih := mem_localsFrom (c := c) (x := x) (lim := lim) (t := t) (vs := vs) (i := i + 1)
    have hshift : (∃ (j : Nat) (w : Var), vs[j]? = some w ∧ w.ctx = c ∧ w.name = x ∧ before lim w.pos = true ∧ t = w.alias.getD (.own (i + 1 + j))) ↔
        ∃ (j : Nat) (w : Var), (v :: vs)[j + 1]? = some w ∧ w.ctx = c ∧ w.name = x ∧ before lim w.pos = true ∧ t = w.alias.getD (.own (i + (j + 1))) := by
      have : ∀ j, i + 1 + j = i + (j + 1) := fun j => by omega
      simp [this]
    have key : (∃ (j : Nat) (w : Var), (v :: vs)[j]? = some w ∧ w.ctx = c ∧ w.name = x ∧ before lim w.pos = true ∧ t = w.alias.getD (.own (i + j))) ↔
        ((v.ctx = c ∧ v.name = x ∧ before lim v.pos = true ∧ t = v.alias.getD (.own i)) ∨ t ∈ localsFrom c x lim (i + 1) vs) := by
      rw [ih, hshift]
      constructor
      · rintro ⟨j, w, h1, h2⟩
        cases j with
        | zero =>
          simp only [List.getElem?_cons_zero, Option.some.injEq] at h1
          subst h1
          exact .inl (by simpa using h2)
        | succ j => exact .inr ⟨j, w, h1, h2⟩
      · rintro (h | ⟨j, w, h⟩)
        · exact ⟨0, v, rfl, by simpa using h⟩
        · exact ⟨j + 1, w, h⟩
    rw [key]
    simp only [localsFrom]
    split
    · rename_i hc
      rw [List.mem_cons]
      constructor
      · rintro (rfl | h)
        · exact .inl ⟨hc.1, hc.2.1, hc.2.2, rfl⟩
        · exact .inr h
      · rintro (h | h)
        · exact .inl h.2.2.2
        · exact .inr h
    · rename_i hc
      constructor
      · exact .inr
      · rintro (h | h)
        · exact absurd ⟨h.1, h.2.1, h.2.2.1⟩ hc
        · exact h

theorem mem_locals {vars : List Var} {c : Nat} {x : QString} {lim : Option Nat} {t : Target} :
    t ∈ locals vars c x lim ↔ ∃ (i : Nat) (v : Var), vars[i]? = some v ∧ v.ctx = c ∧ v.name = x ∧ before lim v.pos = true ∧ t = v.alias.getD (.own i) := by
  rw [locals, mem_localsFrom]; simp

theorem findIn_leaf {w : World} {cs : List Ctx} {vars : List Var} {x : QString} {lim : Option Nat} {fuel c : Nat} {k : Ctx}
    (hk : cs[c]? = some k) (hkind : k.kind = .function ∨ k.kind = .other) (hi : k.imports = []) :
    findIn w cs vars x lim (fuel + 1) false c = locals vars c x lim := by
  rw [findIn, hk]
  have hh : here w vars c k.kind x lim = locals vars c x lim := by rcases hkind with h | h <;> simp [here, h]
  simp only [hi, hh, List.reverse_nil, List.flatMap_nil]
  split
  · rfl
  · rename_i h; simp only [ne_eq, Classical.not_not] at h; simp [h]

/-- The search in the body of a function. -/
theorem find_body {w : World} {cs : List Ctx} {vars : List Var} {x : QString} {lim : Option Nat} {b p : Nat} {us : List Nat} (hf : Func cs b p us) :
    find w cs vars false b x lim = if locals vars b x lim ≠ [] then locals vars b x lim
      else (p :: us).reverse.flatMap (fun i => locals vars i x lim) := by
  obtain ⟨k, hk, hkk, hki⟩ := hf.body
  obtain ⟨kp, hp, hpk, hpi⟩ := hf.params
  have hlen : 0 < cs.length := by
    have := (List.getElem?_eq_some_iff.mp hk).1
    omega
  obtain ⟨n, hn⟩ : ∃ n, cs.length = n + 1 := ⟨cs.length - 1, by omega⟩
  rw [find, findIn, hk, hn]
  have hh : here w vars b k.kind x lim = locals vars b x lim := by simp [here, hkk]
  have hi : k.imports.reverse.flatMap (findIn w cs vars x lim (n + 1) false) = (p :: us).reverse.flatMap (fun i => locals vars i x lim) := by
    rw [hki]
    simp only [List.flatMap]
    congr 1
    apply List.map_congr_left
    intro i hi
    rw [List.mem_reverse, List.mem_cons] at hi
    rcases hi with rfl | hi
    · exact findIn_leaf hp (.inl hpk) hpi
    · obtain ⟨ku, hu, huk, hui⟩ := hf.uses i hi
      exact findIn_leaf hu (.inr huk) hui
  simp only [hh, hi]
  split
  · rfl
  · split
    · rfl
    · rename_i h; simp only [ne_eq, Classical.not_not] at h; rw [h]; rfl

theorem lastVar_mem {vars : List Var} {l : List Target} {t : Target} (h : lastVar vars l = some t) : t ∈ l ∧ isVariable vars t = true := by
  have h1 := List.mem_of_find?_eq_some h
  have h2 := List.find?_some h
  exact ⟨List.mem_reverse.mp h1, h2⟩

theorem argument_mem {cs : List Ctx} {vars : List Var} {x : QString} {t : Target} : ∀ {is : List Nat}, argument cs vars x is = some t →
    ∃ i ∈ is, t ∈ locals vars i x none
  | [], h => by cases h
  | i :: is, h => by
    simp only [argument] at h
    have hrec : argument cs vars x is = some t → ∃ j ∈ i :: is, t ∈ locals vars j x none := by
      intro h
      obtain ⟨j, h1, h2⟩ := argument_mem h
      exact ⟨j, List.mem_cons_of_mem _ h1, h2⟩
    split at h
    · split at h
      · split at h
        · exact hrec h
        · rename_i he
          refine ⟨i, by simp, ?_⟩
          rw [he, Option.some.inj h]; simp
      · exact hrec h
    · exact hrec h

/-- What a variable in the body of a function denotes is a variable of this function or a superglobal. -/
theorem resolve_sound {w : World} {cs : List Ctx} {vars : List Var} {b p : Nat} {us : List Nat} (hf : Func cs b p us) {x : QString} {pos : Nat}
    (hx : x ≠ q! "this") {t : Target} (h : resolve w cs vars b x pos = some t) :
    OfFunction vars b p us x t ∨ ∃ f ∈ w x, f.superglobal = true ∧ t = .foreign f.id := by
  obtain ⟨k, hk, hkk, hki⟩ := hf.body
  simp only [resolve, hk, if_neg hx, hkk, hki] at h
  simp only [reduceCtorEq, if_false, Option.or_none] at h
  rw [Option.or_eq_some_iff, Option.or_eq_some_iff] at h
  rcases h with (h | ⟨_, h⟩) | ⟨_, h⟩
  · obtain ⟨h, _⟩ := lastVar_mem h
    rw [find_body hf] at h
    left
    split at h
    · obtain ⟨i, v, h1, h2, h3, _, h4⟩ := mem_locals.mp h
      exact ⟨i, v, h1, h3, .inl h2, h4⟩
    · obtain ⟨j, hj, hm⟩ := List.mem_flatMap.mp h
      obtain ⟨i, v, h1, h2, h3, _, h4⟩ := mem_locals.mp hm
      rw [List.mem_reverse, List.mem_cons] at hj
      refine ⟨i, v, h1, h3, ?_, h4⟩
      rcases hj with rfl | hj
      · exact .inr (.inl h2)
      · exact .inr (.inr (h2 ▸ hj))
  · obtain ⟨j, hj, hm⟩ := argument_mem h
    obtain ⟨i, v, h1, h2, h3, _, h4⟩ := mem_locals.mp hm
    left
    rw [List.mem_cons] at hj
    refine ⟨i, v, h1, h3, ?_, h4⟩
    rcases hj with rfl | hj
    · exact .inr (.inl h2)
    · exact .inr (.inr (h2 ▸ hj))
  · right
    obtain ⟨f, h1, rfl⟩ := Option.map_eq_some_iff.mp h
    exact ⟨f, List.mem_of_find?_eq_some h1, by simpa using List.find?_some h1, rfl⟩

/-- A step only adds at most one declaration, of what is introduced there. -/
theorem step_grows (w : World) (cs : List Ctx) (vars : List Var) (e : Event × Nat) :
    step w cs vars e = vars ∨ ∃ v l, step w cs vars e = vars ++ [v] ∧ e.1 = .leaf l ∧ Introduces v.name l ∧ (v.ctx = home cs e.2 ∨ v.ctx = e.2) := by
  have hvar : ∀ c x p, declareVariable w cs vars c x p = vars ∨ declareVariable w cs vars c x p = vars ++ [⟨x, p, home cs c, true, none⟩] := by
    intro c x p
    unfold declareVariable
    split
    · exact .inl rfl
    · split
      · exact .inl rfl
      · exact .inr rfl
  obtain ⟨e, c⟩ := e
  unfold step
  split <;> simp only at *
  · rename_i x p he
    subst he
    rcases hvar c x p with h | h
    · exact .inl h
    · exact .inr ⟨_, _, h, rfl, .assign p, .inl rfl⟩
  · rename_i x p he
    subst he
    unfold declareFound
    split
    · exact .inl rfl
    · rcases hvar c x p with h | h
      · exact .inl h
      · exact .inr ⟨_, _, h, rfl, .target p, .inl rfl⟩
  · rename_i x p he; subst he; exact .inr ⟨_, _, rfl, rfl, .fresh p, .inr rfl⟩
  · rename_i x p he; subst he; exact .inr ⟨_, _, rfl, rfl, .param p, .inr rfl⟩
  · rename_i x p he
    subst he
    unfold declareLexical
    split
    · exact .inl rfl
    · exact .inr ⟨_, _, rfl, rfl, .lexical p, .inr rfl⟩
  · rename_i x p he
    subst he
    unfold declareGlobal
    split
    · exact .inl rfl
    · exact .inr ⟨_, _, rfl, rfl, .globalVar p, .inr rfl⟩
  · rename_i x he; subst he; exact .inr ⟨_, _, rfl, rfl, .property, .inr rfl⟩
  · rename_i x he; subst he; exact .inr ⟨_, _, rfl, rfl, .constant, .inr rfl⟩
  · exact .inl trivial

theorem declared_snoc (w : World) (cs : List Ctx) (log : List (Event × Nat)) (e : Event × Nat) :
    declared w cs (log ++ [e]) = step w cs (declared w cs log) e := by simp [declared, List.foldl_append]

/-- Induction over the log, from its beginning. -/
theorem log_induction {P : List (Event × Nat) → Prop} (nil : P []) (snoc : ∀ l e, P l → P (l ++ [e])) (l : List (Event × Nat)) : P l := by
  have h : ∀ r : List (Event × Nat), P r.reverse := by
    intro r
    induction r with
    | nil => exact nil
    | cons e r ih => rw [List.reverse_cons]; exact snoc _ _ ih
  have := h l.reverse
  rwa [List.reverse_reverse] at this

/-- Every declaration comes from a statement that introduces it. -/
theorem declared_from (w : World) (cs : List Ctx) (log : List (Event × Nat)) :
    ∀ v ∈ declared w cs log, ∃ l c, (.leaf l, c) ∈ log ∧ Introduces v.name l ∧ (v.ctx = home cs c ∨ v.ctx = c) := by
  induction log using log_induction with
  | nil => intro v hv; cases hv
  | snoc log e ih =>
    intro v hv
    rw [declared_snoc] at hv
    have old : v ∈ declared w cs log → ∃ l c, (.leaf l, c) ∈ log ++ [e] ∧ Introduces v.name l ∧ (v.ctx = home cs c ∨ v.ctx = c) := by
      intro hv
      obtain ⟨l, c, h1, h2⟩ := ih v hv
      exact ⟨l, c, List.mem_append_left _ h1, h2⟩
    rcases step_grows w cs (declared w cs log) e with h | ⟨v', l, h, he, hi, hc⟩
    · rw [h] at hv; exact old hv
    · rw [h] at hv
      rcases List.mem_append.mp hv with hv | hv
      · exact old hv
      · rw [List.mem_singleton.mp hv]
        obtain ⟨e1, c⟩ := e
        exact ⟨l, c, by simp [← he], hi, hc⟩

theorem home_eq {cs : List Ctx} {c c' : Nat} (h : c' = home cs c ∨ c' = c) (hc : c' ≠ 0) : c' = c := by
  rcases h with h | h
  · unfold home at h
    split at h
    · split at h
      · exact absurd h hc
      · exact h
    · exact h
  · exact h

/-- **C63.** In terms of contexts: if a variable in the body of a function denotes something, it is a superglobal, or something in the body, the
parameter list or the list of lexical variables of this very function introduces it.  Variables of the file, of other functions and of functions
around this one are never found. -/
theorem resolve_own {w : World} {cs : List Ctx} {log : List (Event × Nat)} {b p : Nat} {us : List Nat} (hf : Func cs b p us) {x : QString} {pos : Nat}
    (hx : x ≠ q! "this") {t : Target} (h : resolve w cs (declared w cs log) b x pos = some t) :
    (∃ l c, (.leaf l, c) ∈ log ∧ Introduces x l ∧ (c = b ∨ c = p ∨ c ∈ us)) ∨ ∃ f ∈ w x, f.superglobal = true ∧ t = .foreign f.id := by
  rcases resolve_sound hf hx h with ⟨i, v, h1, h2, h3, _⟩ | h
  · left
    obtain ⟨l, c, h4, h5, h6⟩ := declared_from w cs log v (List.mem_of_getElem? h1)
    have h0 : v.ctx ≠ 0 := by
      obtain ⟨g1, g2, g3⟩ := hf.file
      rcases h3 with h | h | h
      · rw [h]; exact g1
      · rw [h]; exact g2
      · intro h0; rw [h0] at h; exact g3 h
    have := home_eq h6 h0
    exact ⟨l, c, h4, h2 ▸ h5, this ▸ h3⟩
  · exact .inr h

/-- Declarations are only added. -/
theorem step_prefix (w : World) (cs : List Ctx) (vars : List Var) (e : Event × Nat) : ∃ l, step w cs vars e = vars ++ l := by
  rcases step_grows w cs vars e with h | ⟨v, _, h, _⟩
  · exact ⟨[], by simp [h]⟩
  · exact ⟨[v], h⟩

theorem foldl_prefix (w : World) (cs : List Ctx) : ∀ (log : List (Event × Nat)) (vars : List Var), ∃ l, log.foldl (step w cs) vars = vars ++ l
  | [], vars => ⟨[], by simp⟩
  | e :: log, vars => by
    obtain ⟨l, h⟩ := step_prefix w cs vars e
    obtain ⟨l', h'⟩ := foldl_prefix w cs log (step w cs vars e)
    exact ⟨l ++ l', by rw [List.foldl_cons, h', h, List.append_assoc]⟩

theorem isVariable_append {vars l : List Var} {t : Target} (h : isVariable vars t = true) : isVariable (vars ++ l) t = true := by
  cases t with
  | own i =>
    simp only [isVariable] at h ⊢
    cases hi : vars[i]? with
    | none => simp [hi] at h
    | some v =>
      rw [List.getElem?_append_left (List.getElem?_eq_some_iff.mp hi).1, hi]
      simpa [hi] using h
  | foreign _ => rfl
  | klass _ => exact h

theorem before_mono {lim lim' : Option Nat} (h : ∀ q, before lim q = true → before lim' q = true) {vars l : List Var} {c : Nat} {x : QString} {t : Target}
    (ht : t ∈ locals vars c x lim) : t ∈ locals (vars ++ l) c x lim' := by
  rw [mem_locals] at ht ⊢
  obtain ⟨i, v, h1, h2, h3, h4, h5⟩ := ht
  exact ⟨i, v, by rw [List.getElem?_append_left (List.getElem?_eq_some_iff.mp h1).1]; exact h1, h2, h3, h v.pos h4, h5⟩

theorem lastVar_some {vars : List Var} {l : List Target} {t : Target} (h : t ∈ l) (hv : isVariable vars t = true) : ∃ t', lastVar vars l = some t' := by
  cases hl : lastVar vars l with
  | some t' => exact ⟨t', rfl⟩
  | none =>
    rw [lastVar, List.find?_eq_none] at hl
    exact absurd hv (hl t (List.mem_reverse.mpr h))

/-- What is declared in a body are variables. -/
theorem body_variables {w : World} {cs : List Ctx} {b : Nat} (hb : b ≠ 0) (log : List (Event × Nat)) (hl : ∀ l, (.leaf l, b) ∈ log → InBody l) :
    ∀ (i : Nat) (v : Var), (declared w cs log)[i]? = some v → v.ctx = b → isVariable (declared w cs log) (v.alias.getD (.own i)) = true := by
  induction log using log_induction with
  | nil => intro i v h; simp [declared] at h
  | snoc log e ih =>
    have ih := ih (fun l hm => hl l (List.mem_append_left _ hm))
    intro i v hi hc
    rw [declared_snoc] at hi ⊢
    have old : ∀ r, (declared w cs log)[i]? = some v → isVariable (declared w cs log ++ r) (v.alias.getD (.own i)) = true :=
      fun r h => isVariable_append (ih i v h hc)
    have new : ∀ v', step w cs (declared w cs log) e = declared w cs log ++ [v'] →
        (v' = v → isVariable (declared w cs log ++ [v]) (v.alias.getD (.own (declared w cs log).length)) = true) →
        isVariable (step w cs (declared w cs log) e) (v.alias.getD (.own i)) = true := by
      intro v' h hv
      rw [h] at hi ⊢
      by_cases hlt : i < (declared w cs log).length
      · rw [List.getElem?_append_left hlt] at hi
        exact old _ hi
      · rw [List.getElem?_append_right (by omega)] at hi
        obtain ⟨h1, h2⟩ := List.getElem?_eq_some_iff.mp hi
        have h3 : i = (declared w cs log).length := by simp at h1; omega
        have h4 : v' = v := by simpa [h3] using h2
        subst h4
        rw [h3]; exact hv rfl
    have own : v.alias = none → v.isVar = true → isVariable (declared w cs log ++ [v]) (v.alias.getD (.own (declared w cs log).length)) = true := by
      intro h1 h2
      rw [h1]
      simp [isVariable, h2]
    have mem : ∀ l, e = (.leaf l, b) → InBody l := fun l he => hl l (by simp [he])
    rcases step_grows w cs (declared w cs log) e with h | ⟨v', l, h, he, hi', hc'⟩
    · rw [h] at hi ⊢
      have := old [] hi
      simpa using this
    · refine new v' h ?_
      rintro rfl
      have hcb : b = e.2 := by
        have := home_eq hc' (by rw [hc]; exact hb)
        rw [← this, hc]
      have heb : e = (.leaf l, b) := by rw [← he, hcb]
      have hin := mem l heb
      subst heb
      cases hin with
      | read y p => cases hi'
      | yield p => cases hi'
      | name n p => cases hi'
      | assign y p =>
        simp only [step, declareVariable] at h
        split at h
        · have := congrArg List.length h; simp at this
        · split at h
          · have := congrArg List.length h; simp at this
          · have := List.append_cancel_left h
            simp only [List.cons.injEq, and_true] at this
            exact own (by rw [← this]) (by rw [← this])
      | target y p =>
        simp only [step, declareFound, declareVariable] at h
        split at h
        · have := congrArg List.length h; simp at this
        · split at h
          · have := congrArg List.length h; simp at this
          · split at h
            · have := congrArg List.length h; simp at this
            · have := List.append_cancel_left h
              simp only [List.cons.injEq, and_true] at this
              exact own (by rw [← this]) (by rw [← this])
      | fresh y p =>
        simp only [step] at h
        have := List.append_cancel_left h
        simp only [List.cons.injEq, and_true] at this
        exact own (by rw [← this]) (by rw [← this])
      | globalVar y p =>
        simp only [step, declareGlobal] at h
        split at h
        · have := congrArg List.length h; simp at this
        · rename_i t ts hg
          have := List.append_cancel_left h
          simp only [List.cons.injEq, and_true] at this
          have ht : isVariable (declared w cs log) t = true := by
            have hm : t ∈ globalTargets w cs (declared w cs log) b y := by rw [hg]; simp
            unfold globalTargets at hm
            split at hm
            · cases hm
            · exact (List.mem_filter.mp hm).2
          rw [← this]
          exact isVariable_append ht

/-- The variable of a function that is visible at a place is found there. -/
theorem resolve_complete {w : World} {cs : List Ctx} {log : List (Event × Nat)} {b p : Nat} {us : List Nat} (hf : Func cs b p us)
    (hl : ∀ l, (.leaf l, b) ∈ log → InBody l) {x : QString} (hx : x ≠ q! "this") {pos : Nat} {t : Target} {c : Nat} (hc : c = b ∨ c ∈ p :: us)
    (ht : t ∈ locals (declared w cs log) c x (some (pos + 1))) (hv : isVariable (declared w cs log) t = true) :
    ∃ t', resolve w cs (declared w cs log) b x pos = some t' ∧ OfFunction (declared w cs log) b p us x t' := by
  have hlast : ∃ t', lastVar (declared w cs log) (find w cs (declared w cs log) false b x (some (pos + 1))) = some t' := by
    rw [find_body hf]
    split
    · rename_i hne
      obtain ⟨t0, h0⟩ := List.exists_mem_of_ne_nil _ hne
      obtain ⟨i, v, h1, h2, _, _, rfl⟩ := mem_locals.mp h0
      exact lastVar_some h0 (body_variables hf.file.1 log hl i v h1 h2)
    · rename_i hne
      rcases hc with rfl | hc
      · simp only [ne_eq, Classical.not_not] at hne
        rw [hne] at ht; cases ht
      · exact lastVar_some (List.mem_flatMap.mpr ⟨c, List.mem_reverse.mpr hc, ht⟩) hv
  obtain ⟨t', ht'⟩ := hlast
  obtain ⟨k, hk, hkk, hki⟩ := hf.body
  have hr : resolve w cs (declared w cs log) b x pos = some t' := by
    simp [resolve, hk, hx, ht']
  refine ⟨t', hr, ?_⟩
  obtain ⟨hm, _⟩ := lastVar_mem ht'
  rw [find_body hf] at hm
  split at hm
  · obtain ⟨i, v, h1, h2, h3, _, h4⟩ := mem_locals.mp hm
    exact ⟨i, v, h1, h3, .inl h2, h4⟩
  · obtain ⟨j, hj, hm⟩ := List.mem_flatMap.mp hm
    obtain ⟨i, v, h1, h2, h3, _, h4⟩ := mem_locals.mp hm
    rw [List.mem_reverse, List.mem_cons] at hj
    refine ⟨i, v, h1, h3, ?_, h4⟩
    rcases hj with rfl | hj
    · exact .inr (.inl h2)
    · exact .inr (.inr (h2 ▸ hj))

/-- The declaration that a step adds. -/
theorem added_local {w : World} {cs : List Ctx} {a b : List (Event × Nat)} {e : Event × Nat} {v : Var}
    (h : step w cs (declared w cs a) e = declared w cs a ++ [v]) (ha : v.alias = none) (hv : v.isVar = true) {pos : Nat} (hp : v.pos ≤ pos) :
    ∃ t, t ∈ locals (declared w cs (a ++ e :: b)) v.ctx v.name (some (pos + 1)) ∧ isVariable (declared w cs (a ++ e :: b)) t = true := by
  obtain ⟨r, hr⟩ := foldl_prefix w cs b (step w cs (declared w cs a) e)
  have hd : declared w cs (a ++ e :: b) = declared w cs a ++ v :: r := by
    show (a ++ e :: b).foldl (step w cs) [] = _
    rw [List.foldl_append, List.foldl_cons]
    refine hr.trans ?_
    rw [h]; simp
  refine ⟨.own (declared w cs a).length, ?_, ?_⟩
  · rw [mem_locals]
    refine ⟨(declared w cs a).length, v, by rw [hd]; simp, rfl, rfl, ?_, by simp [ha]⟩
    simp only [before, decide_eq_true_eq]; omega
  · simp [isVariable, hd, hv]

/-- **C63.** In terms of contexts: after a variable is assigned in the body of a function, it denotes a variable of this function everywhere
behind. -/
theorem assigned_found {w : World} {cs : List Ctx} {log : List (Event × Nat)} {b p : Nat} {us : List Nat} (hf : Func cs b p us)
    (hl : ∀ l, (.leaf l, b) ∈ log → InBody l) {x : QString} (hx : x ≠ q! "this") {q pos : Nat} (hq : q ≤ pos)
    (h : (.leaf (.assign x q), b) ∈ log ∨ (.leaf (.fresh x q), b) ∈ log ∨ (.leaf (.param x q), p) ∈ log) :
    ∃ t, resolve w cs (declared w cs log) b x pos = some t ∧ OfFunction (declared w cs log) b p us x t := by
  have hhome : home cs b = b := by
    obtain ⟨k, hk, hkk, _⟩ := hf.body
    simp [home, hk, hkk]
  rcases h with h | h | h
  · obtain ⟨a, r, rfl⟩ := List.append_of_mem h
    have hs : step w cs (declared w cs a) (.leaf (.assign x q), b) = declareVariable w cs (declared w cs a) b x q := rfl
    unfold declareVariable at hs
    rw [if_neg (fun h => hx h.1)] at hs
    split at hs
    · rename_i hany
      obtain ⟨t, ht, hv⟩ := List.any_eq_true.mp hany
      obtain ⟨r', hr'⟩ := foldl_prefix w cs ((.leaf (.assign x q), b) :: r) (declared w cs a)
      have hd : declared w cs (a ++ (.leaf (.assign x q), b) :: r) = declared w cs a ++ r' := by
        show (a ++ (.leaf (.assign x q), b) :: r).foldl (step w cs) [] = _
        rw [List.foldl_append]; exact hr'
      rw [find_body hf] at ht
      have hm : ∃ c, (c = b ∨ c ∈ p :: us) ∧ t ∈ locals (declared w cs a) c x (some q) := by
        split at ht
        · exact ⟨b, .inl rfl, ht⟩
        · obtain ⟨c, hc, hm⟩ := List.mem_flatMap.mp ht
          exact ⟨c, .inr (List.mem_reverse.mp hc), hm⟩
      obtain ⟨c, hc, hm⟩ := hm
      refine resolve_complete hf hl hx hc (t := t) ?_ ?_
      · rw [hd]
        refine before_mono ?_ hm
        intro j hj
        simp only [before, decide_eq_true_eq] at hj ⊢
        omega
      · rw [hd]; exact isVariable_append hv
    · rw [hhome] at hs
      obtain ⟨t, ht, hv⟩ := added_local (b := r) hs rfl rfl (pos := pos) hq
      exact resolve_complete hf hl hx (.inl rfl) ht hv
  · obtain ⟨a, r, rfl⟩ := List.append_of_mem h
    have hs : step w cs (declared w cs a) (.leaf (.fresh x q), b) = declared w cs a ++ [⟨x, q, b, true, none⟩] := rfl
    obtain ⟨t, ht, hv⟩ := added_local (b := r) hs rfl rfl (pos := pos) hq
    exact resolve_complete hf hl hx (.inl rfl) ht hv
  · obtain ⟨a, r, rfl⟩ := List.append_of_mem h
    have hs : step w cs (declared w cs a) (.leaf (.param x q), p) = declared w cs a ++ [⟨x, q, p, true, none⟩] := rfl
    obtain ⟨t, ht, hv⟩ := added_local (b := r) hs rfl rfl (pos := pos) hq
    exact resolve_complete hf hl hx (.inr (by simp)) ht hv

end KPhp.Denote
