import Verif.Completion.Forbid
/-!
# Variables offered in an expression, and call tips (C81, C82)

Models the end of `CodeCompletionContext::completionItems` (completion/context.cpp:1436-1475 over the order of declarations, and 1540-1585), on top of `isValidCompletionItem` (`Forbid.lean`).

Trusted platform behaviour: `DUContext::allDeclarations` lists the declarations of a context, then those of the contexts it imports, then those of its parent in the same way, and so on;
`DUContext::findDeclarations(identifier)` gives the declarations with the identifier of the context itself, if there are none those of the imported contexts (base classes, found in the same way, without
their parents), if there are none those of the parent scopes.  All contexts of calls that enclose the cursor are contexts of function calls (second constructor, context.cpp:770-787), innermost first.
-/
namespace KPhp.CallTips
open KPhp.Completion KPhp.Completion.Forbid

/-! ## Variables (C81) -/

/-- A context: its own declarations and those of the contexts it imports. -/
structure Level where
  own : List Dec
  imported : List Dec

/-- `DUContext::allDeclarations` for the contexts from the one of the cursor outwards. -/
def allDeclarations (ls : List Level) : List Dec := ls.flatMap fun l => l.own ++ l.imported

/-- completion/context.cpp:1438-1475 -/
def offered (e : Env) (ls : List Level) : List Dec := visible e (allDeclarations ls)

/-- A variable of the context of the cursor, before the cursor. -/
structure LocalVariable (e : Env) (d : Dec) : Prop where
  kind : d.kind = .Instance
  here : d.ctx = e.ctx
  range : d.rangeEmpty = false
  notMember : d.inClass = false
  before : d.behind = false

/-- What is declared with the name of `d` and is no variable of another function. -/
def Rival (e : Env) (d d' : Dec) : Prop :=
  d'.kind = .Instance ∧ d'.ident = d.ident ∧ (d'.ctx = e.ctx ∨ e.imports d'.ctx = true ∨ d'.superglobal ≠ some false)

theorem local_valid (e : Env) (h : e.op = .NoMemberAccess) (d : Dec) (hd : LocalVariable e d) : isValid e d = true := by
  have := normal_completion e d h
  unfold isValid
  rw [h]
  have h1 : classChoose .NoMemberAccess = false := by decide
  simp [h1, hd.range, hd.kind, globalValid, hd.notMember, hd.before]

/-- **C81.** A variable of the function, written before the cursor, is offered iff nothing else with its name is declared behind it in its context, in what that imports or further outside: no property
or constant of the class or of the file, no parameter, no superglobal variable. -/
theorem local_offered_iff_partial (e : Env) (h : e.op = .NoMemberAccess) (pre post imported : List Dec) (d : Dec) (outer : List Level) (hd : LocalVariable e d)
    (hu : (allDeclarations (⟨pre ++ d :: post, imported⟩ :: outer)).Nodup) :
    d ∈ offered e (⟨pre ++ d :: post, imported⟩ :: outer) ↔ ∀ d' ∈ post ++ imported ++ allDeclarations outer, ¬ Rival e d d' := by
  unfold offered
  rw [visible_iff]
  have hall : allDeclarations (⟨pre ++ d :: post, imported⟩ :: outer) = pre ++ d :: (post ++ imported ++ allDeclarations outer) := by
    simp [allDeclarations]
  rw [hall] at hu ⊢
  constructor
  · rintro ⟨p, q, he, _, ho⟩ d' hd' ⟨h1, h2, h3⟩
    have : q = post ++ imported ++ allDeclarations outer := by
      clear hall ho
      revert hu he
      generalize post ++ imported ++ allDeclarations outer = r
      induction pre generalizing p with
      | nil =>
        intro hu he
        cases p with
        | nil => simp at he; exact he.symm
        | cons x p =>
          simp at he
          obtain ⟨rfl, he⟩ := he
          simp [he] at hu
      | cons y pre ih =>
        intro hu he
        cases p with
        | nil =>
          simp at he
          obtain ⟨rfl, he⟩ := he
          simp at hu
        | cons x p =>
          simp at he
          exact ih p (List.nodup_cons.1 hu).2 he.2
    subst this
    exact (ho hd.kind).2 d' hd' h1 h3 h2
  · intro hr
    exact ⟨pre, _, rfl, local_valid e h d hd, fun _ => ⟨Or.inl hd.here, fun d' hd' h1 h3 h2 => hr d' hd' ⟨h1, h2, h3⟩⟩⟩

/-- Nothing of another function is offered but superglobals. -/
theorem no_foreign_variable (e : Env) (ls : List Level) (d : Dec) (hd : d ∈ offered e ls) (hk : d.kind = .Instance) :
    d.ctx = e.ctx ∨ e.imports d.ctx = true ∨ d.superglobal ≠ some false := by
  obtain ⟨_, _, _, _, h⟩ := (visible_iff e _ d).1 hd
  exact (h hk).1

/-- **C81 (each name once).** -/
theorem offered_once (e : Env) (ls : List Level) : ((offered e ls).filter fun d => d.kind == .Instance).Pairwise fun a b => a.ident ≠ b.ident := variable_once e (allDeclarations ls)

/-- A declaration in a context without number 0 (that of the cursor). -/
def variableIn (ctx ident : Nat) : Dec := ⟨.Instance, ident, false, ident, false, none, none, ctx, false, false, false, false, some false⟩
/-- A property in the context of a class. -/
def propertyIn (ctx ident : Nat) : Dec := ⟨.Instance, ident, false, ident, false, none, none, ctx, true, false, false, false, none⟩

/-- **C81 (finding).** In a method, a local variable with the name of a property of the class is not offered: only the property is. -/
theorem hidden_by_property : offered ⟨.NoMemberAccess, [], none, 0, some 1, fun _ => false⟩ [⟨[variableIn 0 7, variableIn 0 8], []⟩, ⟨[propertyIn 1 7], []⟩] = [propertyIn 1 7, variableIn 0 8] := by decide

/-- The hypotheses of `local_offered_iff_partial` can be met. -/
example : LocalVariable ⟨.NoMemberAccess, [], none, 0, some 1, fun _ => false⟩ (variableIn 0 8) ∧
    (allDeclarations [⟨[variableIn 0 7] ++ variableIn 0 8 :: [], []⟩, ⟨[propertyIn 1 7], []⟩]).Nodup := ⟨⟨rfl, rfl, rfl, rfl, rfl⟩, by decide⟩

/-! ## Call tips (C82) -/

/-- A declaration in the scope of a class or around it: identifier (in lower case for functions and classes), is it a function, and which declaration it is. -/
structure Entry where
  name : QString
  isFunction : Bool
  id : Nat
deriving DecidableEq, Repr

/-- The scope of a class with those of its bases, in the order they are searched. -/
inductive Scope
  | mk (own : List Entry) (bases : List Scope)

mutual
/-- `findDeclarations` in a class and its bases -/
def findIn (n : QString) : Scope → List Entry
  | .mk own bases =>
    let l := own.filter fun f => f.name == n
    if l.isEmpty then findBases n bases else l
def findBases (n : QString) : List Scope → List Entry
  | [] => []
  | b :: bs => findIn n b ++ findBases n bs
end

/-- `internalContext()->findDeclarations(n)`; `around`: what is found with a name in the scopes around the class. -/
def findDeclarations (n : QString) (c : Scope) (around : QString → List Entry) : List Entry :=
  let l := findIn n c
  if l.isEmpty then around n else l

/-- What a call calls: the first declaration its expression stands for. -/
structure Callee where
  dec : Dec
  id : Nat
  /-- a class, with its name -/
  cls : Option (QString × Scope)
  /-- the type is a function type -/
  functionType : Bool

/-- The function of the constructor of a class (completion/context.cpp:1560-1575). -/
def constructor (n : QString) (c : Scope) (around : QString → List Entry) : Option Nat :=
  match (findDeclarations (q! "__construct") c around).find? Entry.isFunction with
  | some f => some f.id
  | none => ((findDeclarations n c around).find? Entry.isFunction).map Entry.id

/-- The call tip for one call, if there is any (completion/context.cpp:1550-1585); `none` for a callee that is not known. -/
def tip (e : Env) (around : QString → List Entry) : Option Callee → Option Nat
  | none => none                                                                        -- :1551
  | some c =>
    if !isValid e c.dec then none                                                       -- :1555
    else if c.dec.isFunction then some c.id
    else match c.cls with
      | some (n, s) => constructor n s around
      | none => if c.functionType then some c.id else none                              -- :1577

/-- The call tips for the calls around the cursor, from the innermost outwards (completion/context.cpp:1540-1590). -/
def callTips (e : Env) (around : QString → List Entry) (calls : List (Option Callee)) : List Nat := calls.filterMap (tip e around)

/-! ### Specification -/

/-- `f` is declared with the name in the class, or else in a base. -/
inductive Nearest (n : QString) : Scope → Entry → Prop
  | own {own : List Entry} {bases : List Scope} {f : Entry} : f ∈ own → f.name = n → Nearest n (.mk own bases) f
  | inherited {own : List Entry} {bases : List Scope} {b : Scope} {f : Entry} : (∀ g ∈ own, g.name ≠ n) → b ∈ bases → Nearest n b f → Nearest n (.mk own bases) f

/-- What keeps a call tip from being shown: text of another file, or a function without name; and when no member is being completed, private members elsewhere than directly in a method of their class
and what is declared behind the cursor in its context and is no function. -/
def Hidden (e : Env) (d : Dec) : Prop :=
  d.rangeEmpty = true ∨ (d.kind = .Type ∧ d.unnamed = true) ∨
  e.op = .NoMemberAccess ∧ ((d.inClass = true ∧ d.privateMember = true ∧ e.parentCtx ≠ some d.ctx) ∨ (d.isFunction = false ∧ d.ctx = e.ctx ∧ d.behind = true))

/-- The operations of a completion inside of a call. -/
def InCall (op : Operation) : Prop := op = .NoMemberAccess ∨ op = .MemberAccess ∨ op = .StaticMemberAccess

/-! ### Theorems -/

theorem valid_iff (e : Env) (h : InCall e.op) (d : Dec) : isValid e d = true ↔ ¬ Hidden e d := by
  unfold isValid Hidden
  have hp : (e.parentCtx != some d.ctx) = true ↔ e.parentCtx ≠ some d.ctx := by simp
  have hc : (e.ctx == d.ctx) = true ↔ d.ctx = e.ctx := by rw [beq_iff_eq]; exact eq_comm
  rcases h with h | h | h
  · rw [h]
    have h1 : classChoose .NoMemberAccess = false := by decide
    have hg : globalValid e d = false ↔ ((d.inClass = true ∧ d.privateMember = true ∧ e.parentCtx ≠ some d.ctx) ∨ (d.isFunction = false ∧ d.ctx = e.ctx ∧ d.behind = true)) := by
      unfold globalValid
      rw [Bool.and_eq_false_iff, Bool.not_eq_false', Bool.not_eq_false']
      simp only [Bool.and_eq_true, hp, hc, Bool.not_eq_true']
      rw [and_assoc, and_assoc]
      exact or_congr (and_congr Iff.rfl And.comm) Iff.rfl
    rw [← hg]
    simp only [h1]
    cases h4 : d.rangeEmpty <;> cases h5 : d.kind <;> cases h6 : d.unnamed <;> cases h7 : globalValid e d <;> simp
  · rw [h]
    have h1 : classChoose .MemberAccess = false := by decide
    simp only [h1]
    cases h4 : d.rangeEmpty <;> cases h5 : d.kind <;> cases h6 : d.unnamed <;> simp
  · rw [h]
    have h1 : classChoose .StaticMemberAccess = false := by decide
    simp only [h1]
    cases h4 : d.rangeEmpty <;> cases h5 : d.kind <;> cases h6 : d.unnamed <;> simp

mutual
theorem mem_findIn (n : QString) (f : Entry) : ∀ c : Scope, f ∈ findIn n c ↔ Nearest n c f
  | .mk own bases => by
    rw [findIn]
    by_cases hl : ∀ g ∈ own, g.name ≠ n
    · have he : (own.filter fun f => f.name == n) = [] := by
        rw [List.filter_eq_nil_iff]; intro g hg; simpa using hl g hg
      rw [he]
      simp only [List.isEmpty_nil, if_true]
      rw [mem_findBases n f bases]
      constructor
      · rintro ⟨b, hb, hn⟩; exact .inherited hl hb hn
      · intro h
        cases h with
        | own h1 h2 => exact absurd h2 (hl _ h1)
        | inherited _ hb hn => exact ⟨_, hb, hn⟩
    · obtain ⟨g, hg, hgn⟩ : ∃ g ∈ own, g.name = n := by
        apply Classical.byContradiction
        intro h
        exact hl fun g hg hgn => h ⟨g, hg, hgn⟩
      have hne : (own.filter fun f => f.name == n).isEmpty = false := by
        cases hf : own.filter fun f => f.name == n with
        | nil => rw [List.filter_eq_nil_iff] at hf; exact absurd (by simpa using hgn) (hf g hg)
        | cons => rfl
      rw [hne]
      simp only [Bool.false_eq_true, if_false, List.mem_filter, beq_iff_eq]
      constructor
      · rintro ⟨h1, h2⟩; exact .own h1 h2
      · intro h
        cases h with
        | own h1 h2 => exact ⟨h1, h2⟩
        | inherited h1 _ _ => exact absurd hgn (h1 g hg)
theorem mem_findBases (n : QString) (f : Entry) : ∀ bs : List Scope, f ∈ findBases n bs ↔ ∃ b ∈ bs, Nearest n b f
  | [] => by simp [findBases]
  | b :: bs => by rw [findBases, List.mem_append, mem_findIn n f b, mem_findBases n f bs]; simp
end

theorem find_some {l : List Entry} {f : Entry} (h : l.find? Entry.isFunction = some f) : f ∈ l ∧ f.isFunction = true :=
  ⟨List.mem_of_find?_eq_some h, List.find?_some h⟩

/-- **C82 (constructor).** For a class that declares or inherits a function `__construct`, one that is nearest is shown. -/
theorem constructor_nearest (n : QString) (c : Scope) (around : QString → List Entry) (h : ∃ f, Nearest (q! "__construct") c f ∧ f.isFunction = true) :
    ∃ f, Nearest (q! "__construct") c f ∧ f.isFunction = true ∧ constructor n c around = some f.id := by
  obtain ⟨f, hf, hfn⟩ := h
  unfold constructor findDeclarations
  rw [← mem_findIn] at hf
  have hne : (findIn (q! "__construct") c).isEmpty = false := by
    cases hl : findIn (q! "__construct") c with
    | nil => rw [hl] at hf; cases hf
    | cons => rfl
  simp only [hne, Bool.false_eq_true, if_false]
  cases hx : (findIn (q! "__construct") c).find? Entry.isFunction with
  | none => rw [List.find?_eq_none] at hx; exact absurd hfn (hx f hf)
  | some g =>
    obtain ⟨h1, h2⟩ := find_some hx
    exact ⟨g, (mem_findIn _ _ _).1 h1, h2, rfl⟩

/-- **C82 (no constructor).** For a class where neither it nor a base declares anything named `__construct` or like the class, what is shown is a function of the scopes around it with one of these names,
if there is one. -/
theorem no_constructor (n : QString) (c : Scope) (around : QString → List Entry) (h1 : ∀ f, ¬ Nearest (q! "__construct") c f) (h2 : ∀ f, ¬ Nearest n c f)
    (h3 : ∀ f ∈ around (q! "__construct"), f.isFunction = false) : constructor n c around = ((around n).find? Entry.isFunction).map Entry.id := by
  have e1 : findIn (q! "__construct") c = [] := List.eq_nil_iff_forall_not_mem.2 fun f hf => h1 f ((mem_findIn _ _ _).1 hf)
  have e2 : findIn n c = [] := List.eq_nil_iff_forall_not_mem.2 fun f hf => h2 f ((mem_findIn _ _ _).1 hf)
  unfold constructor findDeclarations
  simp only [e1, e2, List.isEmpty_nil, if_true]
  rw [List.find?_eq_none.2 (by intro f hf; simp [h3 f hf])]

/-- **C82 (class without any constructor).** With no function of that name around it either, no tip is shown; with functions in the class named like it, one that is nearest. -/
theorem old_constructor (n : QString) (c : Scope) (around : QString → List Entry) (h1 : ∀ f, ¬ Nearest (q! "__construct") c f) (h3 : around (q! "__construct") = [])
    (h : ∃ f, Nearest n c f ∧ f.isFunction = true) : ∃ f, Nearest n c f ∧ f.isFunction = true ∧ constructor n c around = some f.id := by
  have e1 : findIn (q! "__construct") c = [] := List.eq_nil_iff_forall_not_mem.2 fun f hf => h1 f ((mem_findIn _ _ _).1 hf)
  obtain ⟨f, hf, hfn⟩ := h
  rw [← mem_findIn] at hf
  unfold constructor findDeclarations
  simp only [e1, List.isEmpty_nil, if_true, h3, List.find?_nil]
  have hne : (findIn n c).isEmpty = false := by
    cases hl : findIn n c with
    | nil => rw [hl] at hf; cases hf
    | cons => rfl
  simp only [hne, Bool.false_eq_true, if_false]
  cases hx : (findIn n c).find? Entry.isFunction with
  | none => rw [List.find?_eq_none] at hx; exact absurd hfn (hx f hf)
  | some g =>
    obtain ⟨h1, h2⟩ := find_some hx
    exact ⟨g, (mem_findIn _ _ _).1 h1, h2, rfl⟩

/-- **C82 (one call).** A tip is shown iff the callee is known, not hidden, and a function, a class with a constructor, or anything of a function type; it is then the function, the constructor or the
callee itself. -/
theorem tip_iff_partial (e : Env) (h : InCall e.op) (around : QString → List Entry) (c : Option Callee) (i : Nat) :
    tip e around c = some i ↔ ∃ x, c = some x ∧ ¬ Hidden e x.dec ∧
      ((x.dec.isFunction = true ∧ i = x.id) ∨
       (x.dec.isFunction = false ∧ ∃ n s, x.cls = some (n, s) ∧ constructor n s around = some i) ∨
       (x.dec.isFunction = false ∧ x.cls = none ∧ x.functionType = true ∧ i = x.id)) := by
  cases c with
  | none => simp [tip]
  | some x =>
    simp only [Option.some.injEq, exists_eq_left']
    unfold tip
    rw [← valid_iff e h]
    by_cases hv : isValid e x.dec = true
    · simp only [hv, Bool.not_true, Bool.false_eq_true, if_false, true_and]
      cases hf : x.dec.isFunction
      · simp only [Bool.false_eq_true, if_false, false_and, false_or, true_and]
        cases hc : x.cls with
        | none =>
          cases x.functionType
          · simp
          · simpa using (Eq.comm : x.id = i ↔ i = x.id)
        | some p =>
          obtain ⟨n, s⟩ := p
          constructor
          · intro h; exact Or.inl ⟨n, s, rfl, h⟩
          · rintro (⟨n', s', he, h⟩ | ⟨h, _⟩)
            · injection he with he; injection he with h1 h2; subst h1; subst h2; exact h
            · cases h
      · simpa using (Eq.comm : x.id = i ↔ i = x.id)
    · simp [hv]

/-- **C82 (all calls).** The tips are those of the calls around the cursor, from the innermost outwards: a call without tip does not keep those around it from being shown. -/
theorem tips_in_order (e : Env) (around : QString → List Entry) (inner outer : List (Option Callee)) (c : Option Callee) :
    callTips e around (inner ++ c :: outer) = callTips e around inner ++ (tip e around c).toList ++ callTips e around outer := by
  unfold callTips
  rw [List.filterMap_append, List.filterMap_cons]
  cases tip e around c <;> simp

/-! ### Findings and examples -/

/-- A class declared in context `ctx`, behind the cursor or not. -/
def classAt (ctx : Nat) (behind : Bool) : Dec := ⟨.Type, 5, false, 5, false, some ⟨.Class, false, false, false⟩, none, ctx, false, false, false, behind, none⟩

/-- **C82 (finding).** A class that is declared further down in the file gets no call tip for its constructor, at the top level of the file. -/
theorem class_behind : ∃ s, (∃ f, Nearest (q! "__construct") s f ∧ f.isFunction = true) ∧
    tip ⟨.NoMemberAccess, [], none, 0, none, fun _ => false⟩ (fun _ => []) (some ⟨classAt 0 true, 1, some (q! "foo", s), false⟩) = none ∧
    tip ⟨.NoMemberAccess, [], none, 0, none, fun _ => false⟩ (fun _ => []) (some ⟨classAt 0 false, 1, some (q! "foo", s), false⟩) = some 2 :=
  ⟨.mk [⟨q! "__construct", true, 2⟩] [], ⟨_, .own (List.mem_singleton.2 rfl) rfl, rfl⟩, by decide +kernel, by decide +kernel⟩

/-- **C82 (finding).** For a class without constructor the function of the same name is shown. -/
theorem function_for_class : constructor (q! "foo") (.mk [] []) (fun n => if n = q! "foo" then [⟨q! "foo", false, 1⟩, ⟨q! "foo", true, 2⟩] else []) = some 2 := by decide +kernel

/-- **C82 (finding).** In a closure in a method no tip is shown for a private method of the class (`parentCtx` is the context of the method). -/
theorem private_in_closure (ctx : Nat) (pctx : Nat) (h : pctx ≠ ctx) : Hidden ⟨.NoMemberAccess, [], none, 9, some pctx, fun _ => false⟩
    ⟨.Type, 1, false, 1, false, none, none, ctx, true, true, true, false, none⟩ := by
  refine Or.inr (Or.inr ⟨rfl, Or.inl ⟨rfl, rfl, ?_⟩⟩)
  intro he
  injection he with he
  exact h he

/-- A constructor that is inherited, under a call of a function. -/
example : callTips ⟨.NoMemberAccess, [], none, 0, none, fun _ => false⟩ (fun _ => [])
    [some ⟨classAt 0 false, 1, some (q! "b", .mk [⟨q! "m", true, 5⟩] [.mk [⟨q! "__construct", true, 2⟩] []]), false⟩, none,
     some ⟨⟨.Type, 3, false, 3, false, none, none, 0, false, false, true, true, none⟩, 3, none, false⟩] = [2, 3] := by decide +kernel

end KPhp.CallTips
