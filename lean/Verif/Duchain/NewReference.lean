import Verif.Duchain.ExprEval
import Verif.Parser.Layout
/-
# Classes named by variables and properties (C94)

Models `ExpressionVisitor::visitClassNameReference` (duchain/expressionvisitor.cpp:707-823), what comes after `new` and
`instanceof` (php.g:857-886): `new X::$p`, `new $o->p->q`, `new $o::$p`, `new $o->$p[0]`, …; together with the parts of
`visitVarExpressionNewObject` and `visitRelationalExpression` that follow it.  The form `new X` is in C56-C58, too
(`new_named`, `new_static` show that the models agree).

Simplifications:
* The expressions inside of a reference (indexes, `${…}`, constructor arguments) are trees of any type `N`, visited by
  any function `v`.
* Lookups are parameters, as in C56.  `none` is a crash: a null pointer is dereferenced, or `QList::last` is called on an
  empty list.
-/
namespace KPhp.Expr.NewRef


/-- compoundVariableWithSimpleIndirectReference (php.g:685-686): `$v`, `$$v`, `${e}` -/
inductive Var (N : Type)
  | named (v : Ident)
  | indirect (v : Ident)
  | expr (e : N)

/-- staticProperty (php.g:865-866): `::$v[…]` -/
structure StaticProp (N : Type) where
  pos : Pos
  var : Var N
  offsets : List N

/-- classProperty, objectProperty, objectDimList, variableName, variableWithoutObjects (php.g:868-886) -/
inductive Property (N : Type)
  /-- `::$v[…]` -/
  | static (p : StaticProp N)
  /-- `->name[…]` -/
  | member (name : Ident) (offsets : List N)
  /-- `->{e}[…]` -/
  | computed (e : N) (offsets : List N)
  /-- `->$v[…]` -/
  | dynamic (v : Var N) (offsets : List N)

/-- classNameReference (php.g:857-863) -/
inductive Ref (N : Type)
  | static (p : Pos) (prop : Option (StaticProp N × List (Property N)))
  | named (n : Name) (prop : Option (StaticProp N × List (Property N)))
  | var (v : Var N) (offsets : List N) (props : List (Property N))

/-- What is looked up outside of the expression. -/
structure Ctx where
  env : Env
  /-- `findDeclarations` of a variable in the current context -/
  locals : Ident → List Decl
  /-- the declaration has an internal context, of type `Class` (expressionvisitor.cpp:778-785) -/
  inner : Decl → Bool

section
variable {N : Type} (C : Ctx) (v : N → St → St)

/-- expressionvisitor.cpp:984-1006 `useDeclaration`, the declarations found for the name given -/
def useIn (ds : List Decl) (i : Ident) (s : St) : St := (s.setDecls ds).use i.pos ds.getLast?

/-- the loops over index expressions (expressionvisitor.cpp:721-726, 811-823) -/
def visitAll : List N → St → St
  | [], s => s
  | n :: ns, s => visitAll ns (v n s)

/-- expressionvisitor.cpp:807-823 `visitClassNameReferenceDimListItems`: the index expressions that are visited -/
def dims : Property N → List N
  | .static p => p.offsets
  | .member _ o => o
  | .computed _ o => o
  | .dynamic _ _ => []

/-- expressionvisitor.cpp:788-799: the use of a property of a class whose context was found -/
def useProperty (cls : Decl) (p : Property N) (s : St) : St :=
  match p with
  | .static ⟨_, .named i, _⟩ => useIn (C.env.members cls i.text) i s
  | .member i _ => useIn (C.env.members cls i.text) i s
  | _ => s

/-- expressionvisitor.cpp:750-756: `::${e}` is visited first -/
def visitStaticExpr (p : Property N) (s : St) : St :=
  match p with
  | .static ⟨pos, .expr e, _⟩ => (v e s).use pos none
  | _ => s

/-- expressionvisitor.cpp:762-786: the class of the object found so far, if its context was found -/
def classIn (d : Decl) : Option Decl :=
  match d.type with
  | some (.struct c) =>
    match C.env.classOf c with
    | some cls => if C.inner cls then some cls else none
    | none => none
  | _ => none

/-- expressionvisitor.cpp:748-803: a property that is not named by a variable -/
def stepObject (p : Property N) (s : St) : Option St :=
  if s.res.decls.isEmpty then some s
  else
    let s := visitStaticExpr v p s
    match s.res.decls.getLast? with
    | none => none
    | some d =>
      match classIn C d with
      | some cls => some (visitAll v (dims p) (useProperty C cls p s))
      | none => some (visitAll v (dims p) s)

/-- expressionvisitor.cpp:739-803: one property -/
def step (p : Property N) (s : St) : Option St :=
  match p with
  | .dynamic (.named i) _ => some (useIn (C.locals i) i s)
  | .dynamic (.expr e) _ => some (v e s)
  | p => stepObject C v p s

/-- expressionvisitor.cpp:738-804: the loop -/
def steps : List (Property N) → St → Option St
  | [], s => some s
  | p :: ps, s =>
    match step C v p s with
    | some s' => steps ps s'
    | none => none

/-- expressionvisitor.cpp:732-806 -/
def properties (ps : List (Property N)) (s : St) : Option St :=
  if ps.isEmpty then some s else if s.res.decls.isEmpty then some s else steps C v ps s

/-- expressionvisitor.cpp:709-727: `X::$v[…]` -/
def staticPart (n : Name) (p : StaticProp N) (s : St) : St :=
  let (s, d) := s.useClass C.env n
  let s := match contextOf C.env d with
    | some c =>
      match p.var with
      | .named i => useIn (C.env.members c i.text) i s
      | .expr e => (v e s).use n.pos none
      | .indirect _ => s
    | none => s
  visitAll v p.offsets s

/-- expressionvisitor.cpp:157-163: the variable a reference starts with -/
def baseVar (x : Var N) (s : St) : St :=
  match x with
  | .named i =>
    let (s, d) := processVariable C.env i s
    s.setDecl d
  | .indirect _ => s
  | .expr e => v e s

/-- expressionvisitor.cpp:707-806 `visitClassNameReference`; for `static` the identifier is a null pointer
(helper.cpp:441-443 dereferences it) -/
def visitRef : Ref N → St → Option St
  | .static _ none, s => some s
  | .static _ (some _), _ => none
  | .named _ none, s => some s
  | .named n (some (p, ps)), s => properties C v ps (staticPart C v n p s)
  | .var x offsets ps, s => properties C v ps (visitAll v offsets (baseVar C v x s))

/-- expressionvisitor.cpp:198-213 `visitVarExpressionNewObject`; `args`: the constructor arguments -/
def visitNew (r : Ref N) (args : List N) (s : St) : Option St :=
  match visitRef C v r s with
  | none => none
  | some s =>
    let s := visitAll v args s
    match r with
    | .static p _ =>
      let d := C.env.find p .klass ⟨false, [q! "static"]⟩
      some ((s.use p d).setDecl d)
    | .named n _ =>
      let (s, d) := s.useClass C.env n
      some (s.setDecl d)
    | .var .. => some s

/-- expressionvisitor.cpp:873-884 `visitRelationalExpression` of `e instanceof r` -/
def visitInstanceOf (e : N) (r : Ref N) (s : St) : Option St :=
  match visitRef C v r (v e s) with
  | none => none
  | some s =>
    match r with
    | .named n _ => some ((s.useClass C.env n).1.setType (some (.integral .boolean)))
    | _ => some s
end

/-! ## Specification -/

/-- The property of an object of class `cls` that is written `->name` or `::$name` (without an index), and what it refers
to: the last declaration of that name in the class. -/
inductive Written {N : Type} (C : Ctx) : Decl → Property N → Ident → Prop
  | member (cls i) : Written C cls (.member i []) i
  | static (cls pos i) : Written C cls (.static ⟨pos, .named i, []⟩) i

/-- The declaration is an object of a class with a context. -/
def Object (C : Ctx) (d cls : Decl) : Prop := ∃ c, d.type = some (.struct c) ∧ C.env.classOf c = some cls ∧ C.inner cls = true

/-- `d` followed by properties, the uses this makes, and the declaration it ends with. -/
inductive Path {N : Type} (C : Ctx) : Decl → List (Property N) → List (Pos × Option Decl) → Decl → Prop
  | done (d) : Path C d [] [] d
  | next (d cls p i l e ps us d') : Object C d cls → Written C cls p i → C.env.members cls i.text = l ++ [e] →
      Path C e ps us d' → Path C d (p :: ps) ((i.pos, some e) :: us) d'

section
variable {N : Type} {C : Ctx} {v : N → St → St}

theorem classIn_some {d cls : Decl} (h : Object C d cls) : classIn C d = some cls := by
  obtain ⟨c, h1, h2, h3⟩ := h
  simp [classIn, h1, h2, h3]

theorem classIn_iff {d cls : Decl} : classIn C d = some cls ↔ Object C d cls := by
  refine ⟨fun h => ?_, classIn_some⟩
  unfold classIn at h
  split at h
  · rename_i c hc
    split at h
    · rename_i k hk
      split at h
      · rename_i hi; cases h; exact ⟨c, hc, hk, hi⟩
      · simp at h
    · simp at h
  · simp at h

theorem classIn_none {d : Decl} (h : ∀ cls, ¬ Object C d cls) : classIn C d = none := by
  cases hc : classIn C d with
  | none => rfl
  | some cls => exact absurd (classIn_iff.1 hc) (h cls)

theorem written_step {d cls : Decl} {p : Property N} {i : Ident} (ho : Object C d cls) (hw : Written C cls p i) {s : St}
    (hd : s.res.decls.getLast? = some d) : step C v p s = some (useIn (C.env.members cls i.text) i s) := by
  have hne : s.res.decls.isEmpty = false := by
    cases h : s.res.decls with
    | nil => rw [h] at hd; simp at hd
    | cons => rfl
  cases hw with
  | member => simp [step, stepObject, hne, visitStaticExpr, hd, classIn_some ho, dims, visitAll, useProperty]
  | static pos => simp [step, stepObject, hne, visitStaticExpr, hd, classIn_some ho, dims, visitAll, useProperty]

/-- **C94.** Along a path of properties, a use of each one is reported, at its name and for its declaration, in their
order and nothing else; the result is the declaration the path ends with. -/
theorem path_steps {d d' : Decl} {ps : List (Property N)} {us : List (Pos × Option Decl)} (h : Path C d ps us d') :
    ∀ (s : St), s.res.decls.getLast? = some d → s.res.type = d.type →
      ∃ s', steps C v ps s = some s' ∧ s'.uses = s.uses ++ us ∧ s'.res.decls.getLast? = some d' ∧ s'.res.type = d'.type := by
  induction h with
  | done d => intro s hd ht; exact ⟨s, rfl, by simp, hd, ht⟩
  | next d cls p i l e ps us d' ho hw hm hp ih =>
    intro s hd ht
    have hs := written_step (v := v) ho hw hd
    have hl : (C.env.members cls i.text).getLast? = some e := by rw [hm]; simp
    obtain ⟨s', h1, h2, h3, h4⟩ := ih (useIn (C.env.members cls i.text) i s) (by simp [useIn, St.setDecls, St.use, hl])
      (by simp [useIn, St.setDecls, St.use, hl])
    refine ⟨s', by simp only [steps, hs]; exact h1, ?_, h3, h4⟩
    rw [h2]
    simp [useIn, St.setDecls, St.use, hl]

/-- **C94.** `new $o->p->q(…)`: the uses are those of the variable, of each property on the way, and of the arguments;
the type is that of the last property (of the variable, if there is none), whatever it holds. -/
theorem new_path {i : Ident} {d d' : Decl} {ps : List (Property N)} {us : List (Pos × Option Decl)}
    (hv : C.env.findVar i = some d) (h : Path C d ps us d') (s : St) :
    ∃ s', visitNew C v (.var (.named i) [] ps) [] s = some s' ∧
      s'.uses = (processVariable C.env i s).1.uses ++ us ∧ s'.res.type = d'.type := by
  have hb : baseVar C v (.named i) s = (processVariable C.env i s).1.setDecl (some d) := by
    simp [baseVar, processVariable, hv]
  have h1 : ((processVariable C.env i s).1.setDecl (some d)).res.decls.getLast? = some d := by simp [St.setDecl, St.setDecls]
  have h2 : ((processVariable C.env i s).1.setDecl (some d)).res.type = d.type := by simp
  obtain ⟨s', e1, e2, _, e4⟩ := path_steps (v := v) h _ h1 h2
  have he : ((processVariable C.env i s).1.setDecl (some d)).res.decls.isEmpty = false := by simp [St.setDecl, St.setDecls]
  refine ⟨s', ?_, by rw [e2]; rfl, e4⟩
  cases ps with
  | nil =>
    cases h
    simp only [steps, Option.some.injEq] at e1
    simp [visitNew, visitRef, properties, visitAll, hb, e1]
  | cons p ps => simp [visitNew, visitRef, properties, visitAll, hb, he, e1]

/-- **C94.** A name the class does not declare is reported as unresolved, and nothing behind it is looked at. -/
theorem missing_stops {d cls : Decl} {p : Property N} {i : Ident} (ps : List (Property N)) (ho : Object C d cls)
    (hw : Written C cls p i) (hm : C.env.members cls i.text = []) (hps : ∀ q ∈ ps, ∀ x o, q ≠ .dynamic x o) {s : St}
    (hd : s.res.decls.getLast? = some d) :
    ∃ s', steps C v (p :: ps) s = some s' ∧ s'.uses = s.uses ++ [(i.pos, none)] ∧ s'.res.type = none := by
  have hs := written_step (v := v) ho hw hd
  have hstop : ∀ (ps : List (Property N)), (∀ q ∈ ps, ∀ x o, q ≠ .dynamic x o) → ∀ t : St, t.res.decls = [] →
      steps C v ps t = some t := by
    intro ps
    induction ps with
    | nil => intro _ t _; rfl
    | cons q qs ih =>
      intro hq t ht
      have : step C v q t = some t := by
        cases q with
        | dynamic x o => exact absurd rfl (hq _ (by simp) x o)
        | _ => simp [step, stepObject, ht]
      simp only [steps, this]
      exact ih (fun q' h' => hq q' (by simp [h'])) t ht
  refine ⟨useIn [] i s, ?_, by simp [useIn, St.use, St.setDecls], by simp [useIn, St.use, St.setDecls]⟩
  simp only [steps, hs, hm]
  exact hstop ps hps _ (by simp [useIn, St.use, St.setDecls])

/-- **C94.** The variable of `->$v` is a use, of the last declaration of that name in the current context. -/
theorem dynamic_reported (i : Ident) (o : List N) (s : St) :
    ∃ s', step C v (.dynamic (.named i) o) s = some s' ∧ s'.uses = s.uses ++ [(i.pos, (C.locals i).getLast?)] :=
  ⟨_, rfl, rfl⟩

/-- **C94.** `new X::$p`: uses of the class, its namespaces and of the property. -/
theorem static_part_reported (n : Name) (pos : Pos) (i : Ident) (s : St) {c : Decl}
    (hc : C.env.find n.pos .klass (n.folded C.env.u) = some c) (hx : C.env.hasContext c = true) :
    (staticPart C v n ⟨pos, .named i, []⟩ s).uses =
      (s.useClass C.env n).1.uses ++ [(i.pos, (C.env.members c i.text).getLast?)] := by
  have h2 : (s.useClass C.env n).2 = some c := by rw [useClass_snd, hc]
  unfold staticPart
  revert h2
  generalize s.useClass C.env n = q
  obtain ⟨s1, d1⟩ := q
  intro h2
  simp only at h2
  subst h2
  simp [contextOf, hx, visitAll, useIn, St.use, St.setDecls]

/-! ## Nothing reported is lost -/

theorem le_useIn (ds : List Decl) (i : Ident) (s : St) : Le s (useIn ds i s) := (le_setDecls _ _).trans (le_use _ _ _)

theorem le_visitAll (hv : ∀ n s, Le s (v n s)) : ∀ (ns : List N) (s : St), Le s (visitAll v ns s)
  | [], s => .refl s
  | n :: ns, s => (hv n s).trans (le_visitAll hv ns _)

theorem le_useProperty (cls : Decl) (p : Property N) (s : St) : Le s (useProperty C cls p s) := by
  unfold useProperty; split
  · exact le_useIn _ _ _
  · exact le_useIn _ _ _
  · exact .refl s

theorem le_visitStaticExpr (hv : ∀ n s, Le s (v n s)) (p : Property N) (s : St) : Le s (visitStaticExpr v p s) := by
  unfold visitStaticExpr; split
  · exact (hv _ _).trans (le_use _ _ _)
  · exact .refl s

theorem le_step (hv : ∀ n s, Le s (v n s)) (p : Property N) (s s' : St) (h : step C v p s = some s') : Le s s' := by
  have hobj : ∀ p s s', stepObject C v p s = some s' → Le s s' := by
    intro p s s' h
    unfold stepObject at h
    split at h
    · cases h; exact .refl s
    · simp only at h
      split at h
      · cases h
      · split at h
        · cases h
          exact (le_visitStaticExpr hv p s).trans ((le_useProperty _ p _).trans (le_visitAll hv _ _))
        · cases h
          exact (le_visitStaticExpr hv p s).trans (le_visitAll hv _ _)
  unfold step at h
  split at h
  · cases h; exact le_useIn _ _ _
  · cases h; exact hv _ _
  · exact hobj _ s s' h

theorem le_steps (hv : ∀ n s, Le s (v n s)) : ∀ (ps : List (Property N)) (s s' : St), steps C v ps s = some s' → Le s s'
  | [], s, s', h => by cases h; exact .refl s
  | p :: ps, s, s', h => by
    simp only [steps] at h
    cases hp : step C v p s with
    | none => rw [hp] at h; cases h
    | some t =>
      rw [hp] at h
      exact (le_step hv p s t hp).trans (le_steps hv ps t s' h)

theorem le_properties (hv : ∀ n s, Le s (v n s)) (ps : List (Property N)) (s s' : St) (h : properties C v ps s = some s') : Le s s' := by
  unfold properties at h
  split at h
  · cases h; exact .refl s
  · split at h
    · cases h; exact .refl s
    · exact le_steps hv ps s s' h

theorem le_staticPart (hv : ∀ n s, Le s (v n s)) (n : Name) (p : StaticProp N) (s : St) : Le s (staticPart C v n p s) := by
  have h0 := le_useClass (env := C.env) s n
  unfold staticPart
  revert h0
  generalize s.useClass C.env n = q
  obtain ⟨s1, d1⟩ := q
  intro h0
  simp only at h0 ⊢
  refine h0.trans (Le.trans ?_ (le_visitAll hv _ _))
  split
  · split
    · exact le_useIn _ _ _
    · exact (hv _ _).trans (le_use _ _ _)
    · exact .refl _
  · exact .refl _

/-- **C94.** Reported uses stay reported, and unresolved names stay noticed, whatever follows. -/
theorem reference_keeps (hv : ∀ n s, Le s (v n s)) (r : Ref N) (s s' : St) (h : visitRef C v r s = some s') : Le s s' := by
  cases r with
  | static p o =>
    cases o with
    | none => cases h; exact .refl s
    | some x => simp [visitRef] at h
  | named n o =>
    cases o with
    | none => cases h; exact .refl s
    | some x =>
      obtain ⟨p, ps⟩ := x
      exact (le_staticPart hv n p s).trans (le_properties hv ps _ s' h)
  | var x o ps =>
    refine Le.trans ?_ (le_properties hv ps _ s' h)
    refine Le.trans ?_ (le_visitAll hv o _)
    cases x with
    | named i => exact (le_processVariable i s).trans (le_setDecl _ _)
    | indirect i => exact .refl s
    | expr e => exact hv e s

/-! ## Nothing else is reported -/

/-- The positions of the names written in a variable, a property and a reference. -/
inductive Var.At : Var N → Pos → Prop
  | named (i) : Var.At (.named i) i.pos
inductive Property.At : Property N → Pos → Prop
  | static (pos x o q) : Var.At x q → Property.At (.static ⟨pos, x, o⟩) q
  | staticExpr (pos e o) : Property.At (.static ⟨pos, .expr e, o⟩) pos
  | member (i o) : Property.At (.member i o) i.pos
  | dynamic (x o q) : Var.At x q → Property.At (.dynamic x o) q
inductive Ref.At : Ref N → Pos → Prop
  | classLast (n o) : Ref.At (.named n o) n.last.pos
  | classFront (n o) (i) : i ∈ n.front → Ref.At (.named n o) i.pos
  | class (n p ps) (e) : p.var = .expr e → Ref.At (.named n (some (p, ps))) n.pos
  | staticProp (n p ps q) : Var.At p.var q → Ref.At (.named n (some (p, ps))) q
  | staticProps (n p ps x q) : x ∈ ps → Property.At x q → Ref.At (.named n (some (p, ps))) q
  | var (x o ps q) : Var.At x q → Ref.At (.var x o ps) q
  | props (x o ps y q) : y ∈ ps → Property.At y q → Ref.At (.var x o ps) q

/-- The expressions written in them. -/
inductive Var.Part : Var N → N → Prop
  | expr (e) : Var.Part (.expr e) e
inductive Property.Part : Property N → N → Prop
  | static (pos x o e) : Var.Part x e → Property.Part (.static ⟨pos, x, o⟩) e
  | staticIndex (pos x o e) : e ∈ o → Property.Part (.static ⟨pos, x, o⟩) e
  | memberIndex (i o e) : e ∈ o → Property.Part (.member i o) e
  | computedIndex (x o e) : e ∈ o → Property.Part (.computed x o) e
  | dynamic (x o e) : Var.Part x e → Property.Part (.dynamic x o) e
inductive Ref.Part : Ref N → N → Prop
  | staticProp (n p ps e) : Var.Part p.var e → Ref.Part (.named n (some (p, ps))) e
  | staticIndex (n p ps e) : e ∈ p.offsets → Ref.Part (.named n (some (p, ps))) e
  | staticProps (n p ps x e) : x ∈ ps → Property.Part x e → Ref.Part (.named n (some (p, ps))) e
  | var (x o ps e) : Var.Part x e → Ref.Part (.var x o ps) e
  | index (x o ps e) : e ∈ o → Ref.Part (.var x o ps) e
  | props (x o ps y e) : y ∈ ps → Property.Part y e → Ref.Part (.var x o ps) e

/-- All uses in `s'` that are not in `s` are at a position of `A`, or those of a part in `B` (`K`: the uses an expression
may report). -/
def Adds (K : N → Pos × Option Decl → Prop) (A : Pos → Prop) (B : N → Prop) (s s' : St) : Prop :=
  ∀ x ∈ s'.uses, x ∈ s.uses ∨ A x.1 ∨ ∃ e, B e ∧ K e x

section
variable {K : N → Pos × Option Decl → Prop} {A A' : Pos → Prop} {B B' : N → Prop}
theorem Adds.refl (s : St) : Adds K A B s s := fun _ h => .inl h
theorem Adds.trans {a b c : St} (h : Adds K A B a b) (h' : Adds K A B b c) : Adds K A B a c := by
  intro x hx
  rcases h' x hx with h1 | h1
  · exact h x h1
  · exact .inr h1
theorem Adds.mono {a b : St} (h : Adds K A B a b) (hA : ∀ p, A p → A' p) (hB : ∀ e, B e → B' e) : Adds K A' B' a b := by
  intro x hx
  rcases h x hx with h1 | h1 | ⟨e, h1, h2⟩
  · exact .inl h1
  · exact .inr (.inl (hA _ h1))
  · exact .inr (.inr ⟨e, hB e h1, h2⟩)
theorem adds_use (s : St) (p : Pos) (d) (h : A p) : Adds K A B s (s.use p d) := by
  intro x hx
  simp only [St.use, List.mem_append, List.mem_singleton] at hx
  rcases hx with hx | rfl
  · exact .inl hx
  · exact .inr (.inl h)
theorem adds_useIn (ds : List Decl) (i : Ident) (s : St) (h : A i.pos) : Adds K A B s (useIn ds i s) :=
  adds_use (s.setDecls ds) i.pos _ h
theorem adds_child (hv : ∀ n s x, x ∈ (v n s).uses → x ∈ s.uses ∨ K n x) (e : N) (s : St) (h : B e) : Adds K A B s (v e s) := by
  intro x hx
  rcases hv e s x hx with h1 | h1
  · exact .inl h1
  · exact .inr (.inr ⟨e, h, h1⟩)
theorem adds_visitAll (hv : ∀ n s x, x ∈ (v n s).uses → x ∈ s.uses ∨ K n x) : ∀ (es : List N) (s : St), (∀ e ∈ es, B e) →
    Adds K A B s (visitAll v es s)
  | [], s, _ => .refl s
  | e :: es, s, h => (adds_child hv e s (h e (by simp))).trans (adds_visitAll hv es _ (fun e' he => h e' (by simp [he])))

theorem adds_step (hv : ∀ n s x, x ∈ (v n s).uses → x ∈ s.uses ∨ K n x) (p : Property N) (s s' : St)
    (h : step C v p s = some s') : Adds K p.At p.Part s s' := by
  have hobj : ∀ s s', stepObject C v p s = some s' → Adds K p.At p.Part s s' := by
    intro s s' h
    have h1 : Adds K p.At p.Part s (visitStaticExpr v p s) := by
      unfold visitStaticExpr; split
      · exact (adds_child hv _ _ (.static _ _ _ _ (.expr _))).trans (adds_use _ _ _ (.staticExpr _ _ _))
      · exact .refl s
    have h2 : ∀ cls t, Adds K p.At p.Part t (useProperty C cls p t) := by
      intro cls t
      unfold useProperty; split
      · exact adds_useIn _ _ _ (.static _ _ _ _ (.named _))
      · exact adds_useIn _ _ _ (.member _ _)
      · exact .refl t
    have h3 : ∀ t, Adds K p.At p.Part t (visitAll v (dims p) t) := by
      intro t
      refine adds_visitAll hv _ t ?_
      intro e he
      cases p with
      | static q => obtain ⟨a, b, c⟩ := q; exact .staticIndex _ _ _ _ he
      | member i o => exact .memberIndex _ _ _ he
      | computed x o => exact .computedIndex _ _ _ he
      | dynamic x o => simp [dims] at he
    unfold stepObject at h
    split at h
    · cases h; exact .refl s
    · simp only at h
      split at h
      · cases h
      · split at h
        · cases h; exact h1.trans ((h2 _ _).trans (h3 _))
        · cases h; exact h1.trans (h3 _)
  unfold step at h
  split at h
  · cases h; exact adds_useIn _ _ _ (.dynamic _ _ _ (.named _))
  · cases h; exact adds_child hv _ _ (.dynamic _ _ _ (.expr _))
  · exact hobj s s' h

theorem adds_steps (hv : ∀ n s x, x ∈ (v n s).uses → x ∈ s.uses ∨ K n x) : ∀ (ps : List (Property N)) (s s' : St),
    steps C v ps s = some s' → (∀ p ∈ ps, ∀ q, p.At q → A q) → (∀ p ∈ ps, ∀ e, p.Part e → B e) → Adds K A B s s'
  | [], s, s', h, _, _ => by cases h; exact .refl s
  | p :: ps, s, s', h, hA, hB => by
    simp only [steps] at h
    cases hp : step C v p s with
    | none => rw [hp] at h; cases h
    | some t =>
      rw [hp] at h
      exact ((adds_step hv p s t hp).mono (hA p (by simp)) (hB p (by simp))).trans
        (adds_steps hv ps t s' h (fun q hq => hA q (by simp [hq])) (fun q hq => hB q (by simp [hq])))

theorem adds_properties (hv : ∀ n s x, x ∈ (v n s).uses → x ∈ s.uses ∨ K n x) (ps : List (Property N)) (s s' : St)
    (h : properties C v ps s = some s') (hA : ∀ p ∈ ps, ∀ q, p.At q → A q) (hB : ∀ p ∈ ps, ∀ e, p.Part e → B e) :
    Adds K A B s s' := by
  unfold properties at h
  split at h
  · cases h; exact .refl s
  · split at h
    · cases h; exact .refl s
    · exact adds_steps hv ps s s' h hA hB

theorem adds_useClass (n : Name) (s : St) (h1 : A n.last.pos) (h2 : ∀ i ∈ n.front, A i.pos) :
    Adds K A B s (s.useClass C.env n).1 := by
  intro x hx
  rw [useClass_uses] at hx
  rcases List.mem_append.1 hx with hx | hx
  · exact .inl hx
  · simp only [classUses, List.mem_cons] at hx
    rcases hx with rfl | hx
    · exact .inr (.inl h1)
    · have hns : ∀ (is : List Ident) (done : List QString) (y : Pos × Option Decl), y ∈ nsUses C.env n.isGlobal done is →
          ∃ i ∈ is, y.1 = i.pos := by
        intro is
        induction is with
        | nil => intro done y hy; simp [nsUses] at hy
        | cons i is ih =>
          intro done y hy
          simp only [nsUses, List.mem_cons] at hy
          rcases hy with rfl | hy
          · exact ⟨i, by simp, rfl⟩
          · obtain ⟨j, hj, he⟩ := ih _ y hy; exact ⟨j, by simp [hj], he⟩
      obtain ⟨i, hi, he⟩ := hns _ _ _ hx
      exact .inr (.inl (he ▸ h2 i hi))

/-- **C94.** A reference reports uses at the names that are written in it, and those of the expressions in it, and nothing
else. -/
theorem reference_reports_only (hv : ∀ n s x, x ∈ (v n s).uses → x ∈ s.uses ∨ K n x) (r : Ref N) (s s' : St)
    (h : visitRef C v r s = some s') : Adds K r.At r.Part s s' := by
  cases r with
  | static p o =>
    cases o with
    | none => cases h; exact .refl s
    | some x => simp [visitRef] at h
  | named n o =>
    cases o with
    | none => cases h; exact .refl s
    | some x =>
      obtain ⟨p, ps⟩ := x
      refine Adds.trans ?_ (adds_properties hv ps _ s' h (fun q hq a ha => .staticProps _ _ _ q a hq ha)
        (fun q hq a ha => .staticProps _ _ _ q a hq ha))
      have h0 : Adds K (Ref.At (.named n (some (p, ps)))) (Ref.Part (.named n (some (p, ps)))) s (s.useClass C.env n).1 :=
        adds_useClass n s (.classLast _ _) (fun i hi => .classFront _ _ i hi)
      unfold staticPart
      revert h0
      generalize s.useClass C.env n = q
      obtain ⟨s1, d1⟩ := q
      intro h0
      simp only at h0 ⊢
      refine h0.trans (Adds.trans ?_ (adds_visitAll hv _ _ (fun e he => .staticIndex _ _ _ e he)))
      split
      · split
        · rename_i i hi; exact adds_useIn _ _ _ (.staticProp _ _ _ _ (hi ▸ .named i))
        · rename_i e he
          exact (adds_child hv _ _ (.staticProp _ _ _ _ (he ▸ .expr e))).trans (adds_use _ _ _ (.class _ _ _ e he))
        · exact .refl _
      · exact .refl _
  | var x o ps =>
    refine Adds.trans ?_ (adds_properties hv ps _ s' h (fun q hq a ha => .props _ _ _ q a hq ha)
      (fun q hq a ha => .props _ _ _ q a hq ha))
    refine Adds.trans ?_ (adds_visitAll hv o _ (fun e he => .index _ _ _ e he))
    cases x with
    | named i =>
      simp only [baseVar, processVariable]
      split
      · exact adds_use _ _ _ (.var _ _ _ _ (.named i))
      · exact Adds.refl _
    | indirect i => exact .refl s
    | expr e => exact adds_child hv e s (.var _ _ _ _ (.expr e))
end

/-! ## No crash -/

/-- The property is `::${…}`. -/
def Property.IsStaticExpr : Property N → Prop
  | .static ⟨_, .expr _, _⟩ => True
  | _ => False

/-- The reference contains neither `static::` nor, behind an object, `::${…}`. -/
def Ref.Plain : Ref N → Prop
  | .static _ o => o = none
  | .named _ none => True
  | .named _ (some (_, ps)) => ∀ p ∈ ps, ¬ p.IsStaticExpr
  | .var _ _ ps => ∀ p ∈ ps, ¬ p.IsStaticExpr

theorem step_total (p : Property N) (hp : ¬ p.IsStaticExpr) (s : St) : ∃ s', step C v p s = some s' := by
  have hobj : ∃ s', stepObject C v p s = some s' := by
    have hse : visitStaticExpr v p s = s := by
      unfold visitStaticExpr
      split
      · exact absurd trivial hp
      · rfl
    unfold stepObject
    by_cases he : s.res.decls.isEmpty
    · exact ⟨s, by rw [if_pos he]⟩
    · rw [if_neg he]
      simp only [hse]
      cases hl : s.res.decls.getLast? with
      | none =>
        have : s.res.decls = [] := by simpa using hl
        simp [this] at he
      | some d =>
        simp only
        cases classIn C d with
        | none => exact ⟨_, rfl⟩
        | some c => exact ⟨_, rfl⟩
  unfold step
  split
  · exact ⟨_, rfl⟩
  · exact ⟨_, rfl⟩
  · exact hobj

theorem steps_total : ∀ (ps : List (Property N)) (_ : ∀ p ∈ ps, ¬ p.IsStaticExpr) (s : St), ∃ s', steps C v ps s = some s'
  | [], _, s => ⟨s, rfl⟩
  | p :: ps, h, s => by
    obtain ⟨t, ht⟩ := step_total (C := C) (v := v) p (h p (by simp)) s
    obtain ⟨s', hs⟩ := steps_total ps (fun q hq => h q (by simp [hq])) t
    exact ⟨s', by simp only [steps, ht, hs]⟩

/-- **C94.** Every reference without `static::` and without `::${…}` behind an object is visited to its end. -/
theorem reference_total (r : Ref N) (h : r.Plain) (s : St) : ∃ s', visitRef C v r s = some s' := by
  have hp : ∀ (ps : List (Property N)) (_ : ∀ p ∈ ps, ¬ p.IsStaticExpr) (s : St), ∃ s', properties C v ps s = some s' := by
    intro ps hps s
    unfold properties
    split
    · exact ⟨s, rfl⟩
    · split
      · exact ⟨s, rfl⟩
      · exact steps_total ps hps s
  cases r with
  | static p o => cases o with
    | none => exact ⟨s, rfl⟩
    | some x => simp [Ref.Plain] at h
  | named n o => cases o with
    | none => exact ⟨s, rfl⟩
    | some x => obtain ⟨p, ps⟩ := x; exact hp ps h _
  | var x o ps => exact hp ps h _

/-- **C94 (crash).** `new static::$p` (where `static` was not made a name by the lexer, see `static_reference_parsed`)
dereferences a null pointer. -/
theorem static_crashes (p : Pos) (sp : StaticProp N) (ps : List (Property N)) (args : List N) (s : St) :
    visitNew C v (.static p (some (sp, ps))) args s = none := rfl

/-- **C94 (crash).** `new $o::${e}` calls `last` on an empty list exactly if `$o` is declared and visiting `e` leaves no
declaration. -/
theorem static_expr_crashes (i : Ident) (pos : Pos) (e : N) (o : List N) (s : St) :
    visitRef C v (.var (.named i) [] [.static ⟨pos, .expr e, o⟩]) s = none ↔
      ∃ d, C.env.findVar i = some d ∧ (v e ((processVariable C.env i s).1.setDecl (some d))).res.decls = [] := by
  cases hf : C.env.findVar i with
  | none =>
    have : (processVariable C.env i s).2 = none := hf
    simp [visitRef, properties, visitAll, baseVar, processVariable, hf, St.setDecl, St.setDecls]
  | some d =>
    have hb : baseVar C v (.named i) s = (processVariable C.env i s).1.setDecl (some d) := by
      simp [baseVar, processVariable, hf]
    have he : ((processVariable C.env i s).1.setDecl (some d)).res.decls.isEmpty = false := by simp [St.setDecl, St.setDecls]
    simp only [visitRef, visitAll, hb, properties, he, Option.some.injEq, exists_eq_left', List.isEmpty_cons,
      Bool.false_eq_true, ↓reduceIte, steps, step, stepObject, visitStaticExpr, St.use]
    generalize v e ((processVariable C.env i s).1.setDecl (some d)) = t
    cases hl : t.res.decls.getLast? with
    | none =>
      have : t.res.decls = [] := by simpa using hl
      simp [this]
    | some d' =>
      have hne : t.res.decls ≠ [] := by intro h; rw [h] at hl; simp at hl
      simp only [hne, iff_false]
      cases classIn C d' <;> simp

end

/-! ## Agreement with C56 for plain names -/

theorem visitAll_visit (env : Env) (ns : List Node) (s : St) : visitAll (visit env) ns s = visitList env ns s := by
  induction ns generalizing s with
  | nil => simp [visitAll, visitList]
  | cons n ns ih => simp only [visitAll, visitList, ih]

theorem new_named (C : Ctx) (n : Name) (args : List Node) (s : St) :
    visitNew C (visit C.env) (.named n none) args s = some (visit C.env (.newObj (.named n) args) s) := by
  simp [visitNew, visitRef, visit, visitAll_visit]

theorem new_static (C : Ctx) (p : Pos) (args : List Node) (s : St) :
    visitNew C (visit C.env) (.static p none) args s = some (visit C.env (.newObj (.static p) args) s) := by
  simp [visitNew, visitRef, visit, visitAll_visit]

/-! ## Findings -/

section
variable {N : Type} {C : Ctx} {v : N → St → St}

/-- **C94 (finding).** `new X::$p` has the type of `X`, not that of the property: the class name is taken for the class of
the object. -/
theorem static_property_typed_as_class (n : Name) (p : StaticProp N) (ps : List (Property N)) (args : List N) (s s' : St)
    (h : visitNew C v (.named n (some (p, ps))) args s = some s') :
    s'.res.type = (C.env.find n.pos .klass (n.folded C.env.u)).bind (·.type) := by
  unfold visitNew at h
  cases hr : visitRef C v (.named n (some (p, ps))) s with
  | none => rw [hr] at h; cases h
  | some t =>
    rw [hr] at h
    simp only [Option.some.injEq] at h
    rw [← h]
    simp

/-- **C94 (finding).** In `new X::$p` the use of `X` is reported twice. -/
theorem class_reported_twice (n : Name) (pos : Pos) (i : Ident) (s : St) {c : Decl}
    (hc : C.env.find n.pos .klass (n.folded C.env.u) = some c) (hx : C.env.hasContext c = true) (hf : n.front = []) :
    ∃ s', visitNew C v (.named n (some (⟨pos, .named i, []⟩, []))) [] s = some s' ∧
      s'.uses = s.uses ++ [(n.last.pos, some c), (i.pos, (C.env.members c i.text).getLast?), (n.last.pos, some c)] := by
  have h1 := static_part_reported (v := v) n pos i s hc hx
  refine ⟨_, rfl, ?_⟩
  have key : ∀ t : St, ((t.useClass C.env n).1).uses = t.uses ++ [(n.last.pos, some c)] := by
    intro t
    rw [useClass_uses]
    simp [classUses, nsUses, hf, hc]
  show ((staticPart C v n ⟨pos, .named i, []⟩ s).useClass C.env n).1.uses = _
  rw [key, h1, key]
  simp

/-- **C94 (finding).** An index is visited between the properties, and what it refers to replaces the object: in
`new $o->p[$i]->q` the name `q` is looked up in the class of `$i`. -/
theorem index_replaces_object {d cls di clsi : Decl} {p q : Ident} (e : N) {s : St} (l : List Decl) (dp : Decl)
    (hd : s.res.decls.getLast? = some d) (ho : Object C d cls) (hm : C.env.members cls p.text = l ++ [dp])
    (he : ∀ t, (v e t).res.decls = [di]) (hu : ∀ t, (v e t).uses = t.uses) (hi : Object C di clsi) :
    ∃ s', steps C v [.member p [e], .member q []] s = some s' ∧
      s'.uses = s.uses ++ [(p.pos, some dp), (q.pos, (C.env.members clsi q.text).getLast?)] := by
  have hne : s.res.decls.isEmpty = false := by
    cases h : s.res.decls with
    | nil => rw [h] at hd; simp at hd
    | cons => rfl
  refine ⟨useIn (C.env.members clsi q.text) q (v e (useIn (C.env.members cls p.text) p s)), ?_, ?_⟩
  · simp [steps, step, stepObject, hne, visitStaticExpr, hd, classIn_some ho, dims, visitAll, useProperty, he, classIn_some hi]
  · have : (useIn (C.env.members cls p.text) p s).uses = s.uses ++ [(p.pos, some dp)] := by
      simp [useIn, St.use, St.setDecls, hm]
    show (St.use _ _ _).uses = _
    have h2 : ∀ (t : St) (ds : List Decl) (x y), ((t.setDecls ds).use x y).uses = t.uses ++ [(x, y)] := fun _ _ _ _ => rfl
    rw [h2, hu, this]
    simp

/-- **C94 (finding).** `$o->$p[…]`: the index is not visited, so nothing in it is reported; and the next property is looked
up in the class of `$p` itself, not in what the property holds. -/
theorem dynamic_index_ignored (i : Ident) (o o' : List N) (s : St) :
    step C v (.dynamic (.named i) o) s = step C v (.dynamic (.named i) o') s ∧
      ∃ s', step C v (.dynamic (.named i) o) s = some s' ∧ s'.res.decls = C.locals i := ⟨rfl, _, rfl, rfl⟩

/-- **C94 (finding).** The expression of `$o->{e}` is not visited. -/
theorem computed_name_ignored (e e' : N) (o : List N) (s : St) :
    step C v (.computed e o) s = step C v (.computed e' o) s := rfl

/-- **C94 (finding).** An object whose type is not certain has no properties here (outside of a class reference the only
class among the alternatives counts, C56): nothing is reported. -/
theorem unsure_not_resolved {d : Decl} {ts : List Ty} (hd : d.type = some (.unsure ts)) (p : Ident) {s : St}
    (hs : s.res.decls.getLast? = some d) : step C v (.member p []) s = some s := by
  have hne : s.res.decls.isEmpty = false := by
    cases h : s.res.decls with
    | nil => rw [h] at hs; simp at hs
    | cons => rfl
  have hc : classIn C d = none := by simp [classIn, hd]
  simp [step, stepObject, hne, visitStaticExpr, hs, hc, dims, visitAll]

/-- **C94.** `$x instanceof X`, also with properties, is boolean. -/
theorem instanceof_named (e : N) (n : Name) (o) (s s' : St) (h : visitInstanceOf C v e (.named n o) s = some s') :
    s'.res.type = some (.integral .boolean) := by
  unfold visitInstanceOf at h
  cases hr : visitRef C v (.named n o) (v e s) with
  | none => rw [hr] at h; cases h
  | some t => rw [hr] at h; simp only [Option.some.injEq] at h; rw [← h]; rfl

/-- **C94 (finding).** `$x instanceof $c` has the type of `$c`, not `bool`. -/
theorem instanceof_variable (e : N) (i : Ident) (s : St) :
    ∃ s', visitInstanceOf C v e (.var (.named i) [] []) s = some s' ∧
      s'.res.type = (C.env.findVar i).bind (·.type) := by
  refine ⟨_, rfl, ?_⟩
  simp only [visitAll, baseVar, processVariable]
  rw [setDecl_type]
end

/-- **C94.** The text of the crash: a comment between `static` and `::` keeps the lexer from making `static` a name, and
`new` takes the keyword with a property. -/
theorem static_reference_parsed :
    HasTokens asciiClass (q! "<?php new static/**/::$p;")
      [.OPEN_TAG, .NEW, .STATIC, .PAAMAYIM_NEKUDOTAYIM, .VARIABLE, .SEMICOLON] ∧
    ∃ s, ReadAs asciiClass (q! "<?php new static/**/::$p;") s := by
  have h : HasTokens asciiClass (q! "<?php new static/**/::$p;")
      [.OPEN_TAG, .NEW, .STATIC, .PAAMAYIM_NEKUDOTAYIM, .VARIABLE, .SEMICOLON] := ⟨12, _, rfl, by decide +kernel⟩
  refine ⟨h, ?_⟩
  have hp : (@Stmt.parseFile Stmt.all [.OPEN_TAG, .NEW, .STATIC, .PAAMAYIM_NEKUDOTAYIM, .VARIABLE, .SEMICOLON]).isSome = true := by
    decide +kernel
  obtain ⟨s, hs⟩ := Option.isSome_iff_exists.1 hp
  exact ⟨s, (readAs_iff h s).2 ((Stmt.php_read_iff _ s).1 hs)⟩

/-! ## Concrete cases -/
namespace Example

/-- class `A` with a property `$p` that holds an `A` and a property `$s` that holds a string -/
def clsA : Decl := ⟨1, some (.struct 1), false, false, 0, 0⟩
def propP : Decl := ⟨2, some (.struct 1), false, false, 1, 0⟩
def propS : Decl := ⟨3, some (.integral .string), false, false, 1, 0⟩
def varO : Decl := ⟨4, some (.struct 1), false, false, 0, 0⟩

def ctx : Ctx where
  env :=
    { u := asciiClass
      find := fun _ k q => if k = .klass ∧ q = ⟨false, [q! "a"]⟩ then some clsA else none
      findVar := fun v => if v.text = q! "o" then some varO else none
      classOf := fun k => if k = 1 then some clsA else none
      hasContext := fun d => d.id == 1
      members := fun _ n => if n = q! "p" then [propP] else if n = q! "s" then [propS] else []
      returnType := fun _ => none
      stdclass := fun _ => []
      lexical := fun _ => none }
  locals := fun _ => []
  inner := fun d => d.id == 1

/-- `$o->p::$s` -/
theorem path : Path (N := Node) ctx varO [.member ⟨20, q! "p"⟩ [], .static ⟨22, .named ⟨24, q! "s"⟩, []⟩]
    [(20, some propP), (24, some propS)] propS :=
  .next _ clsA _ _ [] propP _ _ _ ⟨1, rfl, rfl, rfl⟩ (.member _ _) rfl
    (.next _ clsA _ _ [] propS _ _ _ ⟨1, rfl, rfl, rfl⟩ (.static _ _ _) rfl (.done _))

example : ((visitNew ctx (visit ctx.env) (.var (.named ⟨10, q! "o"⟩) []
      [.member ⟨20, q! "p"⟩ [], .static ⟨22, .named ⟨24, q! "s"⟩, []⟩]) [] start).map (fun s => (s.uses, s.res.type))) =
    some ([(10, some varO), (20, some propP), (24, some propS)], some (.integral .string)) := by decide +kernel

/-- `new $o->x->p`: `x` is unknown, `p` is not looked at -/
example : ((visitNew ctx (visit ctx.env) (.var (.named ⟨10, q! "o"⟩) []
      [.member ⟨20, q! "x"⟩ [], .member ⟨24, q! "p"⟩ []]) [] start).map (·.uses)) =
    some [(10, some varO), (20, none)] := by decide +kernel

/-- `new $o::${$unknown}` crashes -/
theorem crash : visitNew ctx (visit ctx.env) (.var (.named ⟨10, q! "o"⟩) []
    [.static ⟨12, .expr (.varName ⟨16, q! "unknown"⟩), []⟩]) [] start = none := by
  have : visitRef ctx (visit ctx.env) (.var (.named ⟨10, q! "o"⟩) [] [.static ⟨12, .expr (.varName ⟨16, q! "unknown"⟩), []⟩]) start = none :=
    (static_expr_crashes (C := ctx) (v := visit ctx.env) _ _ _ _ _).2 ⟨varO, rfl, rfl⟩
  simp [visitNew, this]

/-- the visitor of C56 fulfils the assumptions of `reference_keeps` and `reference_reports_only` -/
example : ∀ n s, Le s (visit ctx.env n s) := fun n s => le_visit n s
example : ∀ n s x, x ∈ (visit ctx.env n s).uses → x ∈ s.uses ∨ PIn ctx.env n x := fun n s x => (only_visit n s).1 x

/-- `new A::$s`: the type is `A` -/
example : ((visitNew ctx (visit ctx.env) (.named ⟨10, false, [], ⟨10, q! "A"⟩⟩ (some (⟨11, .named ⟨13, q! "s"⟩, []⟩, []))) []
    start).map (fun s => (s.uses, s.res.type))) =
    some ([(10, some clsA), (13, some propS), (10, some clsA)], some (.struct 1)) := by decide +kernel

example : Ref.Plain (N := Node) (.var (.named ⟨10, q! "o"⟩) [] [.member ⟨20, q! "p"⟩ []]) := by
  simp [Ref.Plain, Property.IsStaticExpr]
end Example

end KPhp.Expr.NewRef
