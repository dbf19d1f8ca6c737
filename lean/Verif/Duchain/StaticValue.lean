import Verif.Duchain.ExprEval
/-!
# Values of properties and static variables (C102)

The values that must be known before the program runs (php.g:999-1016 `staticScalar`): literals, constants, signs, arrays of such values.  They have a visitor function of their own
(`ExpressionVisitor::visitStaticScalar`, expressionvisitor.cpp:501-531); constants are visited as in any expression (`ExprEval.lean`).
-/
namespace KPhp.Expr
set_option linter.unusedVariables false
open KPhp.Names (QId DeclType)

/-- `staticScalar` and the list of its array values (php.g:999-1016). -/
inductive Static
  /-- a number, a string or a magic constant without index (php.g:922-934) -/
  | scalar (k : Scalar)
  /-- a string literal with indices: `'abc'[…]` (php.g:924) -/
  | str (index : List Node)
  /-- `A\B` -/
  | const (n : Name)
  /-- `A\B::C` -/
  | classConst (cls : Name) (k : Ident)
  /-- `+ …`, `- …` -/
  | sign (minus : Bool) (a : Static)
  | arr (items : Static)
  /-- the values of an array: one more in front; with a key -/
  | nil
  | item (v rest : Static)
  | pair (k v rest : Static)
deriving Inhabited

/-- expressionvisitor.cpp:501-531; the parts are visited first, in the order of the rule (`DefaultVisitor::visitStaticScalar`).  Strings are not taken for class names here
(expressionvisitor.cpp:484-497 is only for `scalar`). -/
def visitStatic (env : Env) : Static → St → St
  | .scalar k, s => s.setType (some k.ty)
  | .str l, s => (visitList env l s).setType (some (.integral .string))
  | .const n, s => visit env (.const n) s
  | .classConst cls k, s => visit env (.classConst cls k) s
  | .sign _ a, s => (visitStatic env a s).setType (some (.integral .int))       -- :524-525
  | .arr l, s => (visitStatic env l s).setType (some (.integral .array))        -- :526-527
  | .nil, s => s
  | .item v rest, s => visitStatic env rest (visitStatic env v s)
  | .pair k v rest, s => visitStatic env rest (visitStatic env v (visitStatic env k s))

/-- `getTypeForNode` (typebuilder.cpp:249-270): the type of the doc comment, else that of the value, else mixed. -/
def nodeType (env : Env) (doc : Option Ty) : Option Static → Ty
  | none => .integral .mixed
  | some a => (doc.or (visitStatic env a start).res.type).getD (.integral .mixed)

/-- where a value stands -/
inductive Site | property | staticVar
deriving DecidableEq, Repr

/-- `visitClassVariable` without type in the declaration (typebuilder.cpp:348-358), `visitStaticVar` (typebuilder.cpp:485-492).  The `@var` of a property is that of its statement. -/
def valueType (env : Env) (doc : Option Ty) (v : Option Static) : Site → Ty
  | .property => match doc, v with
    | some t, _ => t
    | none, some a => nodeType env none (some a)
    | none, none => .integral .null
  | .staticVar => nodeType env doc v

/-- `UseBuilder::visitStaticScalar` (usebuilder.cpp:154-159): only where the current context is that of a class. -/
def valueUses (env : Env) (a : Static) : Site → List (Pos × Option Decl)
  | .property => (visitStatic env a start).uses
  | .staticVar => []

/-! ### Specification: what a value is in PHP -/

def isBool (u : CharClass) (n : Name) : Prop := n.front = [] ∧ (lowerStr u n.last.text = q! "true" ∨ lowerStr u n.last.text = q! "false")
def isNull (u : CharClass) (n : Name) : Prop := n.front = [] ∧ lowerStr u n.last.text = q! "null"

/-- The value has the type. -/
inductive Denotes (env : Env) : Static → Ty → Prop
  | int : Denotes env (.scalar .int) (.integral .int)
  | float : Denotes env (.scalar .float) (.integral .float)
  | string : Denotes env (.scalar .string) (.integral .string)
  | char (l) : Denotes env (.str l) (.integral .string)
  | array (l) : Denotes env (.arr l) (.integral .array)
  | bool (n) : isBool env.u n → Denotes env (.const n) (.integral .boolean)
  | null (n) : isNull env.u n → Denotes env (.const n) (.integral .null)
  | constant (n d t) : ¬ isBool env.u n → ¬ isNull env.u n → env.find n.pos .constant (n.constId env.u) = some d → d.type = some t → Denotes env (.const n) t
  | globalConstant (n d t) : ¬ isBool env.u n → ¬ isNull env.u n → env.find n.pos .constant (n.constId env.u) = none →
      env.find n.pos .constant { n.constId env.u with global := true } = some d → d.type = some t → Denotes env (.const n) t
  | classConst (n k c l d t) : env.find n.pos .klass (n.folded env.u) = some c → env.hasContext c = true → ciEq env.u k.text (q! "class") = false →
      env.members c k.text = l ++ [d] → d.type = some t → Denotes env (.classConst n k) t
  | className (n k) : ciEq env.u k.text (q! "class") = true → Denotes env (.classConst n k) (.integral .string)
  | signedInt (m a) : Denotes env a (.integral .int) → Denotes env (.sign m a) (.integral .int)
  | signedFloat (m a) : Denotes env a (.integral .float) → Denotes env (.sign m a) (.integral .float)

/-- What is not understood: signs in front of floats, `\true`, `\false`, `\null`, and `A::class` for a class that is not known. -/
def Deviates (env : Env) (a : Static) : Prop :=
  (∃ m b, a = .sign m b ∧ Denotes env b (.integral .float)) ∨
  (∃ n, a = .const n ∧ n.isGlobal = true ∧ (isBool env.u n ∨ isNull env.u n)) ∨
  (∃ n k, a = .classConst n k ∧ ciEq env.u k.text (q! "class") = true ∧ ∀ c, env.find n.pos .klass (n.folded env.u) = some c → env.hasContext c = false)

/-! ### Names -/

theorem name_text (n : Name) : n.front = [] → n.isGlobal = false → n.text = n.last.text := fun h g => by simp [Name.text, h, g]

theorem slash_in_text {n : Name} (h : n.isGlobal = true ∨ n.front ≠ []) : c! '\\' ∈ n.text := by
  rcases h with h | h
  · simp [Name.text, h]
  · obtain ⟨i, l, hl⟩ := List.exists_cons_of_ne_nil h
    simp [Name.text, hl]

theorem noWord_iff {u : CharClass} (hs : u.Lawful) (n : Name) (h : n.isGlobal = true ∨ n.front ≠ []) {w : QString} (hw : c! '\\' ∉ w) : lowerStr u n.text ≠ w := by
  intro e
  have := slash_in_text h
  refine hw (e ▸ ?_)
  have hm := List.mem_map_of_mem (f := u.toLower) this
  rw [hs.lower_ascii _ (by decide)] at hm
  exact hm

theorem noWord {env : Env} (hs : env.u.Lawful) {n : Name} (h1 : ¬ isBool env.u n) (h2 : ¬ isNull env.u n) : NoWord env n := by
  by_cases h : n.isGlobal = true ∨ n.front ≠ []
  · exact ⟨noWord_iff hs n h (by decide), noWord_iff hs n h (by decide), noWord_iff hs n h (by decide)⟩
  · have hg : n.isGlobal = false := by
      cases e : n.isGlobal
      · rfl
      · exact absurd (.inl e) h
    have hf : n.front = [] := Classical.byContradiction fun e => h (.inr e)
    simp only [NoWord, name_text n hf hg]
    exact ⟨fun e => h1 ⟨hf, .inl e⟩, fun e => h1 ⟨hf, .inr e⟩, fun e => h2 ⟨hf, e⟩⟩

/-! ### Types -/

/-- **C102 (types, partial).** The type found for a value is the type it has in PHP, whatever was visited before, if the value is not one of those that are not understood.  Missing: these, for which it is false. -/
theorem value_type_partial (env : Env) (hs : env.u.Lawful) {a : Static} {t : Ty} (h : Denotes env a t) (hd : ¬ Deviates env a) (s : St) :
    (visitStatic env a s).res.type = some t := by
  have setT : ∀ (s : St) t, (s.setType t).res.type = t := fun _ _ => rfl
  have glob : ∀ n : Name, a = .const n → (isBool env.u n ∨ isNull env.u n) → n.isGlobal = false := fun n e hn => by
    cases e' : n.isGlobal
    · rfl
    · exact absurd (.inr (.inl ⟨n, e, e', hn⟩)) hd
  cases h with
  | int => rfl
  | float => rfl
  | string => rfl
  | char => rfl
  | array => rfl
  | bool n hn =>
    have hg := glob n rfl (.inl hn)
    have : lowerStr env.u n.text = q! "true" ∨ lowerStr env.u n.text = q! "false" := by rw [name_text n hn.1 hg]; exact hn.2
    simp only [visitStatic, visit, useConstant, if_pos this, setT]
  | null n hn =>
    have hg := glob n rfl (.inr hn)
    have e : lowerStr env.u n.text = q! "null" := by rw [name_text n hn.1 hg]; exact hn.2
    have : ¬ (lowerStr env.u n.text = q! "true" ∨ lowerStr env.u n.text = q! "false") := by rw [e]; decide
    simp only [visitStatic, visit, useConstant, if_neg this, if_pos e, setT]
  | constant n d t h1 h2 h3 h4 =>
    have hw := noWord hs h1 h2
    have : ¬ (lowerStr env.u n.text = q! "true" ∨ lowerStr env.u n.text = q! "false") := fun h => h.elim hw.1 hw.2.1
    simp [visitStatic, visit, useConstant, this, hw.2.2, h3, St.useNamespaces, St.use, St.setDecl, St.setDecls, h4]
  | globalConstant n d t h1 h2 h3 h5 h4 =>
    have hw := noWord hs h1 h2
    have : ¬ (lowerStr env.u n.text = q! "true" ∨ lowerStr env.u n.text = q! "false") := fun h => h.elim hw.1 hw.2.1
    simp [visitStatic, visit, useConstant, this, hw.2.2, h3, h5, St.useNamespaces, St.use, St.setDecl, St.setDecls, h4]
  | classConst n k c l d t h1 h2 h3 h4 h5 =>
    simp [visitStatic, visit, St.useClass, St.useNamespaces, St.use, accessConstant, contextOf, h1, h2, h3, h4, St.setDecls, h5]
  | className n k h1 =>
    obtain ⟨c, h2, h3⟩ : ∃ c, env.find n.pos .klass (n.folded env.u) = some c ∧ env.hasContext c = true := by
      refine Classical.byContradiction fun h => hd (.inr (.inr ⟨n, k, rfl, h1, fun c hc => ?_⟩))
      cases e : env.hasContext c
      · rfl
      · exact absurd ⟨c, hc, e⟩ h
    simp [visitStatic, visit, St.useClass, St.useNamespaces, St.use, accessConstant, contextOf, h1, h2, h3, St.setDecls, setT]
  | signedInt => rfl
  | signedFloat m a h => exact absurd (.inl ⟨m, a, rfl, h⟩) hd

/-- **C102 (counterexample).** A value with a sign is always taken for an integer: `-1.5` is not a float. -/
theorem signed_float (env : Env) (m : Bool) {a : Static} (h : Denotes env a (.integral .float)) (s : St) :
    Denotes env (.sign m a) (.integral .float) ∧ (visitStatic env (.sign m a) s).res.type = some (.integral .int) := ⟨.signedFloat m a h, rfl⟩

/-- **C102 (counterexample).** `A::class` has no type if the class is not known, though it is a string. -/
theorem class_of_unknown (env : Env) (n : Name) (k : Ident) (hk : ciEq env.u k.text (q! "class") = true) (hn : env.find n.pos .klass (n.folded env.u) = none) (s : St) :
    Denotes env (.classConst n k) (.integral .string) ∧ (visitStatic env (.classConst n k) s).res.type = none :=
  ⟨.className n k hk, by simp [visitStatic, visit, St.useClass, St.useNamespaces, St.use, accessConstant, contextOf, hn, St.setType]⟩

/-- **C102 (counterexample).** `\true` is looked up as a constant; if none is declared, it has no type, though it is a boolean. -/
theorem global_true (env : Env) (hs : env.u.Lawful) (n : Name) (hg : n.isGlobal = true) (hb : isBool env.u n) (h1 : ∀ q, env.find n.pos .constant q = none)
    (h2 : ∀ q, env.find n.pos .function q = none) (s : St) : Denotes env (.const n) (.integral .boolean) ∧ (visitStatic env (.const n) s).res.type = none := by
  refine ⟨.bool n hb, ?_⟩
  have hw : NoWord env n := ⟨noWord_iff hs n (.inl hg) (by decide), noWord_iff hs n (.inl hg) (by decide), noWord_iff hs n (.inl hg) (by decide)⟩
  have : ¬ (lowerStr env.u n.text = q! "true" ∨ lowerStr env.u n.text = q! "false") := fun h => h.elim hw.1 hw.2.1
  simp [visitStatic, visit, useConstant, this, hw.2.2, h1, h2, St.useNamespaces, St.use, St.setDecl, St.setDecls]

/-- **C102 (declared type).** A doc comment decides; without one, a property has the type of its value, null if it has none; a static variable the type of its value, mixed if it has none. -/
theorem declared_value_partial (env : Env) (hs : env.u.Lawful) (site : Site) :
    (∀ t a, valueType env (some t) (some a) site = t) ∧
    (∀ a t, Denotes env a t → ¬ Deviates env a → valueType env none (some a) site = t) ∧
    valueType env none none .property = .integral .null ∧ valueType env none none .staticVar = .integral .mixed := by
  refine ⟨fun t a => by cases site <;> rfl, fun a t h hd => ?_, rfl, rfl⟩
  have := value_type_partial env hs h hd start
  cases site <;> simp [valueType, nodeType, this]

/-! ### Uses -/

/-- the word true, false or null alone (`\\true` is looked up like a name) -/
abbrev isWord (u : CharClass) (n : Name) : Prop :=
  n.isGlobal = false ∧ n.front = [] ∧ (lowerStr u n.last.text = q! "true" ∨ lowerStr u n.last.text = q! "false" ∨ lowerStr u n.last.text = q! "null")

/-- `p` is the position of a name in the value and stands for `d`. -/
inductive Stands (env : Env) : Static → Pos → Option Decl → Prop
  | const (n) : ¬ isWord env.u n → Stands env (.const n) n.last.pos (constantDecl env n)
  | namespace (n g i q) : (g = n.isGlobal ∨ g = true) → Namespace env g n i q → Stands env (.const n) i.pos (env.find i.pos .namespace q)
  | cls (n k) : Stands env (.classConst n k) n.last.pos (env.find n.pos .klass (n.folded env.u))
  | clsNamespace (n k i q) : Namespace env n.isGlobal n i q → Stands env (.classConst n k) i.pos (env.find i.pos .namespace q)
  | member (n k c) : env.find n.pos .klass (n.folded env.u) = some c → env.hasContext c = true → Stands env (.classConst n k) k.pos (env.members c k.text).getLast?
  | sign (m a p d) : Stands env a p d → Stands env (.sign m a) p d
  | arr (a p d) : Stands env a p d → Stands env (.arr a) p d
  | item (v r p d) : Stands env v p d → Stands env (.item v r) p d
  | rest (v r p d) : Stands env r p d → Stands env (.item v r) p d
  | key (k v r p d) : Stands env k p d → Stands env (.pair k v r) p d
  | val (k v r p d) : Stands env v p d → Stands env (.pair k v r) p d
  | tail (k v r p d) : Stands env r p d → Stands env (.pair k v r) p d

/-- The names of a value in the order of the text, the last part of a name in front of its others.  The words true, false and null are no names; what follows `::` is looked up if the class is known. -/
def names (env : Env) : Static → List Pos
  | .const n => if isWord env.u n then []
    else n.last.pos :: n.front.map (·.pos)
  | .classConst n k => n.last.pos :: n.front.map (·.pos) ++ (if ((env.find n.pos .klass (n.folded env.u)).map env.hasContext).getD false then [k.pos] else [])
  | .sign _ a => names env a
  | .arr a => names env a
  | .item v r => names env v ++ names env r
  | .pair k v r => names env k ++ (names env v ++ names env r)
  | _ => []

/-- no index behind a string -/
def noIndex : Static → Bool
  | .str l => l.isEmpty
  | .sign _ a | .arr a => noIndex a
  | .item v r => noIndex v && noIndex r
  | .pair k v r => noIndex k && noIndex v && noIndex r
  | _ => true

theorem nsUses_pos (env : Env) (g : Bool) (is : List Ident) : ∀ done, (nsUses env g done is).map (·.1) = is.map (·.pos) := by
  induction is with
  | nil => exact fun _ => rfl
  | cons i is ih => exact fun done => by simp [nsUses, ih]

/-- the uses that the visit of `a` adds -/
def Adds (env : Env) (a : Static) (s s' : St) : Prop := ∃ l, s'.uses = s.uses ++ l ∧ l.map (·.1) = names env a ∧ ∀ x ∈ l, Stands env a x.1 x.2

theorem adds_const (env : Env) (hs : env.u.Lawful) (n : Name) (s : St) : Adds env (.const n) s (visitStatic env (.const n) s) := by
  by_cases hw : isWord env.u n
  · refine ⟨[], ?_, by simp [names, hw], by simp⟩
    obtain ⟨hg, hf, h⟩ := hw
    rw [← name_text n hf hg] at h
    by_cases h1 : lowerStr env.u n.text = q! "true" ∨ lowerStr env.u n.text = q! "false"
    · simp only [visitStatic, visit, useConstant, if_pos h1, St.setType, List.append_nil]
    · have h2 : lowerStr env.u n.text = q! "null" := (h.resolve_left fun e => h1 (.inl e)).resolve_left fun e => h1 (.inr e)
      simp only [visitStatic, visit, useConstant, if_neg h1, if_pos h2, St.setType, List.append_nil]
  · have hN : NoWord env n := by
      by_cases h : n.isGlobal = true ∨ n.front ≠ []
      · exact ⟨noWord_iff hs n h (by decide), noWord_iff hs n h (by decide), noWord_iff hs n h (by decide)⟩
      · have hg : n.isGlobal = false := by
          cases e : n.isGlobal
          · rfl
          · exact absurd (.inl e) h
        have hf : n.front = [] := Classical.byContradiction fun e => h (.inr e)
        simp only [NoWord, name_text n hf hg]
        exact ⟨fun e => hw ⟨hg, hf, .inl e⟩, fun e => hw ⟨hg, hf, .inr (.inl e)⟩, fun e => hw ⟨hg, hf, .inr (.inr e)⟩⟩
    obtain ⟨g, h1, h2⟩ := useConstant_eq n s hN
    refine ⟨_, by simp only [visitStatic, visit]; exact h1, by simp [names, hw, nsUses_pos], fun x hx => ?_⟩
    rcases List.mem_cons.1 hx with rfl | hx
    · exact .const n hw
    · obtain ⟨i, q, hi, rfl⟩ := (namespace_uses g n x).1 hx
      exact .namespace n g i q h2 hi

theorem adds_class (env : Env) (n : Name) (k : Ident) (s : St) : Adds env (.classConst n k) s (visitStatic env (.classConst n k) s) := by
  have hu := useClass_uses s n (env := env)
  have hd : (s.useClass env n).2 = env.find n.pos .klass (n.folded env.u) := by simp [St.useClass]
  have old : ∀ x ∈ classUses env n, Stands env (.classConst n k) x.1 x.2 := fun x hx => by
    rcases List.mem_cons.1 hx with rfl | hx
    · exact .cls n k
    · obtain ⟨i, q, hi, rfl⟩ := (namespace_uses _ n x).1 hx
      exact .clsNamespace n k i q hi
  have pos : (classUses env n).map (·.1) = n.last.pos :: n.front.map (·.pos) := by simp [classUses, nsUses_pos]
  have no : contextOf env (env.find n.pos .klass (n.folded env.u)) = none → ((env.find n.pos .klass (n.folded env.u)).map env.hasContext).getD false = false →
      Adds env (.classConst n k) s (visitStatic env (.classConst n k) s) := fun h h' => by
    refine ⟨classUses env n, ?_, by simp [names, pos, h'], old⟩
    simp only [visitStatic, visit, accessConstant, hd, h]
    exact hu
  cases hc : env.find n.pos .klass (n.folded env.u) with
  | none => exact no (by rw [hc]; rfl) (by rw [hc]; rfl)
  | some c =>
    cases hh : env.hasContext c with
    | false => exact no (by simp [hc, contextOf, hh]) (by simp [hc, hh])
    | true =>
      refine ⟨classUses env n ++ [(k.pos, (env.members c k.text).getLast?)], ?_, by simp [names, pos, hc, hh], fun x hx => ?_⟩
      · have e : contextOf env (s.useClass env n).2 = some c := by simp [hd, hc, contextOf, hh]
        simp only [visitStatic, visit, accessConstant, e]
        split <;> simp [St.setType, St.use, St.setDecls, hu]
      · rcases List.mem_append.1 hx with hx | hx
        · exact old x hx
        · cases List.mem_singleton.1 hx
          exact .member n k c hc hh

theorem adds_seq {env : Env} {a b c : Static} {s s1 s2 : St} (h1 : Adds env a s s1) (h2 : Adds env b s1 s2) (hn : names env c = names env a ++ names env b)
    (ha : ∀ p d, Stands env a p d → Stands env c p d) (hb : ∀ p d, Stands env b p d → Stands env c p d) : Adds env c s s2 := by
  obtain ⟨l1, e1, n1, m1⟩ := h1
  obtain ⟨l2, e2, n2, m2⟩ := h2
  refine ⟨l1 ++ l2, by rw [e2, e1, List.append_assoc], by rw [List.map_append, n1, n2, hn], fun x hx => ?_⟩
  rcases List.mem_append.1 hx with hx | hx
  · exact ha _ _ (m1 x hx)
  · exact hb _ _ (m2 x hx)

theorem adds_static (env : Env) (hs : env.u.Lawful) : ∀ (a : Static) (s : St), noIndex a = true → Adds env a s (visitStatic env a s)
  | .scalar k, s, _ => ⟨[], by simp [visitStatic, St.setType], rfl, by simp⟩
  | .str l, s, h => by
    cases List.isEmpty_iff.1 (show l.isEmpty = true from h)
    exact ⟨[], by simp [visitStatic, visitList, St.setType], rfl, by simp⟩
  | .const n, s, _ => adds_const env hs n s
  | .classConst n k, s, _ => adds_class env n k s
  | .nil, s, _ => ⟨[], by simp [visitStatic], rfl, by simp⟩
  | .sign m a, s, h => by
    obtain ⟨l, e, n, st⟩ := adds_static env hs a s h
    exact ⟨l, e, n, fun x hx => .sign _ _ _ _ (st x hx)⟩
  | .arr a, s, h => by
    obtain ⟨l, e, n, st⟩ := adds_static env hs a s h
    exact ⟨l, e, n, fun x hx => .arr _ _ _ (st x hx)⟩
  | .item v r, s, h => by
    simp only [noIndex, Bool.and_eq_true] at h
    exact adds_seq (adds_static env hs v s h.1) (adds_static env hs r _ h.2) rfl (fun _ _ => .item _ _ _ _) fun _ _ => .rest _ _ _ _
  | .pair k v r, s, h => by
    simp only [noIndex, Bool.and_eq_true] at h
    obtain ⟨l1, e1, n1, m1⟩ := adds_static env hs k s h.1.1
    obtain ⟨l2, e2, n2, m2⟩ := adds_static env hs v (visitStatic env k s) h.1.2
    obtain ⟨l3, e3, n3, m3⟩ := adds_static env hs r (visitStatic env v (visitStatic env k s)) h.2
    refine ⟨l1 ++ (l2 ++ l3), by simp [visitStatic, e3, e2, e1], by simp [names, n1, n2, n3], fun x hx => ?_⟩
    rcases List.mem_append.1 hx with hx | hx
    · exact .key _ _ _ _ _ (m1 x hx)
    · rcases List.mem_append.1 hx with hx | hx
      · exact .val _ _ _ _ _ (m2 x hx)
      · exact .tail _ _ _ _ _ (m3 x hx)

/-- **C102 (uses, partial).** For the value of a property without an index behind a string, a use is made of every name in it, once, in the order of the text, and each is a use of what the name
stands for.  Missing: static variables, for which it is false (`static_not_used`). -/
theorem property_uses_partial (env : Env) (hs : env.u.Lawful) {a : Static} (h : noIndex a = true) :
    (valueUses env a .property).map (·.1) = names env a ∧ ∀ x ∈ valueUses env a .property, Stands env a x.1 x.2 := by
  obtain ⟨l, e, n, m⟩ := adds_static env hs a start h
  have : valueUses env a .property = l := by simpa [valueUses, start] using e
  rw [this]
  exact ⟨n, m⟩

/-- **C102 (counterexample).** Names in the value of a static variable are not used, whatever they stand for. -/
theorem static_not_used (env : Env) (n : Name) (h : ¬ isWord env.u n) :
    Stands env (.const n) n.last.pos (constantDecl env n) ∧ valueUses env (.const n) .staticVar = [] := ⟨.const n h, rfl⟩

/-! ### Examples -/

namespace Example
def name (p : Nat) (t : QString) : Name := ⟨p, false, [], ⟨p, t⟩⟩
/-- `class A { const K = 1; }`, `const B = 2.5;` -/
def values : Env where
  u := asciiClass
  find _ k q := if k = .klass ∧ q = ⟨false, [q! "a"]⟩ then some clsA
    else if k = .constant ∧ q = ⟨false, [q! "B"]⟩ then some ⟨8, some (.integral .float), false, false, 0, 0⟩ else none
  findVar _ := none
  classOf _ := none
  hasContext d := d.id == 1
  members _ n := if n = q! "K" then [⟨9, some (.integral .int), false, false, 1, 0⟩] else []
  returnType _ := none
  stdclass _ := []
  lexical _ := none

/-- `array(A::K => -1.5, B, A::class => [true, "x"], X\Y)` -/
def value : Static := .arr (.pair (.classConst (name 6 (q! "A")) ⟨9, q! "K"⟩) (.sign true (.scalar .float))
  (.item (.const (name 21 (q! "B"))) (.pair (.classConst (name 24 (q! "A")) ⟨27, q! "class"⟩) (.arr (.item (.const (name 37 (q! "true"))) (.item (.scalar .string) .nil)))
  (.item (.const ⟨49, false, [⟨49, q! "X"⟩], ⟨51, q! "Y"⟩⟩) .nil))))
example : noIndex value = true ∧ names values value = [6, 9, 21, 24, 27, 51, 49] ∧
    valueUses values value .property = [(6, some clsA), (9, some ⟨9, some (.integral .int), false, false, 1, 0⟩), (21, some ⟨8, some (.integral .float), false, false, 0, 0⟩),
      (24, some clsA), (27, none), (51, none), (49, none)] ∧
    valueType values none (some value) .property = .integral .array := by decide +kernel

theorem dev_const {env : Env} {n : Name} (h : n.isGlobal = false) : ¬ Deviates env (.const n) := by
  rintro (⟨_, _, h', _⟩ | ⟨m, h', hg, _⟩ | ⟨_, _, h', _⟩)
  · cases h'
  · cases h'; rw [h] at hg; cases hg
  · cases h'
/-- `B` is a float, `A::K` an integer, `A::class` a string, `-7` an integer, `True` a boolean, and none of them is one of the values that are not understood. -/
example : Denotes values (.const (name 21 (q! "B"))) (.integral .float) ∧ ¬ Deviates values (.const (name 21 (q! "B"))) :=
  ⟨.constant _ _ _ (by simp only [isBool]; decide +kernel) (by simp only [isNull]; decide +kernel) rfl rfl, dev_const rfl⟩
example : Denotes values (.classConst (name 6 (q! "A")) ⟨9, q! "K"⟩) (.integral .int) := .classConst _ _ clsA [] ⟨9, some (.integral .int), false, false, 1, 0⟩ _ rfl rfl (by decide) rfl rfl
example : Denotes values (.sign true (.scalar .int)) (.integral .int) ∧ ¬ Deviates values (.sign true (.scalar .int)) :=
  ⟨.signedInt _ _ .int, by rintro (⟨_, _, h', h⟩ | ⟨_, h', _⟩ | ⟨_, _, h', _⟩) <;> cases h'; cases h⟩
example : Denotes values (.const (name 37 (q! "True"))) (.integral .boolean) ∧ ¬ Deviates values (.const (name 37 (q! "True"))) :=
  ⟨.bool _ ⟨rfl, by decide⟩, dev_const rfl⟩
/-- `static $x = -1.5;` is declared as an integer -/
example : valueType values none (some (.sign true (.scalar .float))) .staticVar = .integral .int := by decide +kernel
/-- `static $x = \TRUE;` is mixed -/
example : valueType values none (some (.const ⟨12, true, [], ⟨13, q! "TRUE"⟩⟩)) .staticVar = .integral .mixed := by decide +kernel
end Example

end KPhp.Expr
