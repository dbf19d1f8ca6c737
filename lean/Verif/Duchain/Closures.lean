import Verif.Duchain.ExprEval
/-!
# What a closure returns (C84)

On the visitor of `ExprEval.lean` (duchain/expressionvisitor.cpp): `visitClosure` (:221-283), `visitStatement` (:904-915), `visitVarExpression` (:182-196).  The return type of every closure that
was left is the entry of `St.closed`.  A function or class declared in the body is `plain`: `ExpressionVisitor` has no function of its own for these, so the generated visitor walks through.
-/
namespace KPhp.Expr.Closures
open KPhp.Expr
open KPhp.Names (DeclType)

/-! ### Specification -/

/-- A place where a body gives something back: `return e`, or a `yield`. -/
inductive Exit
  | ret (e : Node)
  | yield (p : Pos)

mutual
/-- The `return`s and `yield`s of a text, in reading order, without those inside of closures. -/
def exits : Node → List Exit
  | .ret e => exits e ++ [.ret e]
  | .yield p cs => exitsList cs ++ [.yield p]
  | .closure .. => []
  | .varName _ | .typeHint _ | .const _ | .classConst .. => []
  | .plain cs | .index cs | .newObj _ cs | .array cs | .params cs | .scalar _ _ cs | .encapsed cs | .encapsVar _ _ cs | .prop _ _ cs | .staticMember _ _ cs => exitsList cs
  | .assign _ l r => exits l ++ exitsList r
  | .variable b _ ps => exits b ++ exitsList ps
  | .param c | .cast _ c | .addRest _ c | .relRest c | .eqRest _ c => exits c
  | .call _ a _ | .staticCall _ _ a => exits a
  | .staticCallExpr _ a e => exits a ++ exits e
  | .staticMemberExpr _ e o => exits e ++ exitsList o
  | .instanceOf e _ cs => exits e ++ exitsList cs
def exitsList : List Node → List Exit
  | [] => []
  | n :: ns => exits n ++ exitsList ns
end

/-- The class `Generator` a `yield` stands for. -/
def generator (env : Env) (p : Pos) : Option Decl := env.find p .klass ⟨false, [q! "generator"]⟩

/-- A `yield` where no class `Generator` is known says nothing. -/
def Silent (env : Env) : Exit → Prop
  | .ret _ => False
  | .yield p => generator env p = none

/-- The type an exit gives. -/
def Gives (env : Env) : Exit → Option Ty → Prop
  | .ret e, t => ∀ t', HasType env e t' → t = t'
  | .yield p, t => ∃ g, generator env p = some g ∧ t = g.type

/-- What is known of the type behind these exits, if it was `c` before. -/
inductive Outcome (env : Env) (c : Option Ty) : List Exit → Option Ty → Prop
  | none (l) : (∀ x ∈ l, Silent env x) → Outcome env c l c
  | last (l x r t) : (∀ y ∈ r, Silent env y) → Gives env x t → Outcome env c (l ++ x :: r) t

/-! ### Proofs -/

variable {env : Env}

theorem Outcome.append {c c1 c2 : Option Ty} {a b : List Exit} (h1 : Outcome env c a c1) (h2 : Outcome env c1 b c2) : Outcome env c (a ++ b) c2 := by
  cases h2 with
  | none _ hb =>
    cases h1 with
    | none _ ha =>
      refine .none _ fun x hx => ?_
      rcases List.mem_append.1 hx with hx | hx
      · exact ha x hx
      · exact hb x hx
    | last l x r _ hr hg =>
      have : l ++ x :: r ++ b = l ++ x :: (r ++ b) := by simp
      rw [this]
      refine .last l x _ _ (fun y hy => ?_) hg
      rcases List.mem_append.1 hy with hy | hy
      · exact hr y hy
      · exact hb y hy
  | last l x r _ hr hg =>
    have : a ++ (l ++ x :: r) = (a ++ l) ++ x :: r := by simp
    rw [this]
    exact .last _ x r _ hr hg

@[simp] theorem setType_closures (s : St) (t) : (s.setType t).closures = s.closures := rfl
@[simp] theorem setDecls_closures (s : St) (t) : (s.setDecls t).closures = s.closures := rfl
@[simp] theorem setDecl_closures (s : St) (t) : (s.setDecl t).closures = s.closures := rfl
@[simp] theorem setUnresolved_closures (s : St) : s.setUnresolved.closures = s.closures := rfl
@[simp] theorem use_closures (s : St) (p d) : (s.use p d).closures = s.closures := rfl
@[simp] theorem useNamespaces_closures (s : St) (g n) : (s.useNamespaces env g n).closures = s.closures := rfl
@[simp] theorem useClass_closures (s : St) (n) : (s.useClass env n).1.closures = s.closures := rfl
@[simp] theorem useString_closures (i : Ident) (s : St) : (useString env i s).closures = s.closures := by
  unfold useString; repeat' split
  all_goals rfl
@[simp] theorem processVariable_closures (v : Ident) (s : St) : (processVariable env v s).1.closures = s.closures := by
  unfold processVariable; dsimp only; split <;> rfl
@[simp] theorem accessProperty_closures (b : Bool) (n : Ident) (s : St) : (accessProperty env b n s).closures = s.closures := by
  unfold accessProperty; repeat' split
  all_goals (try rfl)
  all_goals dsimp only; repeat' split
  all_goals rfl
@[simp] theorem accessConstant_closures (c : Option Decl) (k : Ident) (s : St) : (accessConstant env c k s).closures = s.closures := by
  unfold accessConstant; repeat' split
  all_goals (try rfl)
  all_goals dsimp only; repeat' split
  all_goals rfl
@[simp] theorem useConstant_closures (n : Name) (s : St) : (useConstant env n s).closures = s.closures := by
  unfold useConstant; dsimp only; repeat' split
  all_goals rfl
@[simp] theorem useFunction_closures (n : Name) (s : St) : (useFunction env n s).closures = s.closures := by
  unfold useFunction; dsimp only; repeat' split
  all_goals rfl
@[simp] theorem useStaticCall_closures (n : Name) (m : Ident) (s : St) : (useStaticCall env n m s).closures = s.closures := by
  unfold useStaticCall; dsimp only; repeat' split
  all_goals rfl
@[simp] theorem useStaticMember_closures (n : Name) (m : Ident) (s : St) : (useStaticMember env n m s).closures = s.closures := by
  unfold useStaticMember; dsimp only; repeat' split
  all_goals rfl
@[simp] theorem useLexical_closures (l : List Ident) : ∀ s : St, (useLexical env l s).closures = s.closures := by
  induction l with
  | nil => intro s; rfl
  | cons i is ih => intro s; rw [useLexical, ih]; rfl
@[simp] theorem useEncapsProp_closures (d p) (s : St) : (useEncapsProp env d p s).closures = s.closures := by
  unfold useEncapsProp; split <;> rfl

/-- Nothing but the type of the innermost closure changes, and it as the exits say. -/
def Step (env : Env) (xs : List Exit) (s s' : St) : Prop :=
  ∀ c cs, s.closures = c :: cs → ∃ c', s'.closures = c' :: cs ∧ Outcome env c xs c'

theorem Step.same {s s' : St} (h : s'.closures = s.closures) : Step env [] s s' := by
  intro c cs hs
  exact ⟨c, by rw [h, hs], .none _ (by simp)⟩
theorem Step.trans {s1 s2 s3 : St} {a b : List Exit} (h1 : Step env a s1 s2) (h2 : Step env b s2 s3) : Step env (a ++ b) s1 s3 := by
  intro c cs hs
  obtain ⟨c1, e1, o1⟩ := h1 c cs hs
  obtain ⟨c2, e2, o2⟩ := h2 c1 cs e1
  exact ⟨c2, e2, o1.append o2⟩
theorem Step.congr {s1 s2 t1 t2 : St} {a : List Exit} (h : Step env a s1 s2) (h1 : t1.closures = s1.closures) (h2 : t2.closures = s2.closures) : Step env a t1 t2 := by
  intro c cs hs
  rw [h1] at hs
  rw [h2]
  exact h c cs hs

mutual
theorem step_visit (n : Node) (s : St) : Step env (exits n) s (visit env n s) := by
  cases n with
  | plain cs => exact step_list cs s
  | index cs => exact (step_list cs s).congr rfl rfl
  | array cs => exact (step_list cs s).congr rfl rfl
  | encapsed cs => exact (step_list cs s).congr rfl rfl
  | params cs => exact (step_list cs s).congr rfl rfl
  | assign op l r =>
    have h1 := step_visit l { s with eq := if op = .equal then true else s.eq }
    have h2 := step_list r { visit env l { s with eq := if op = .equal then true else s.eq } with eq := false }
    refine ((h1.congr rfl rfl).trans h2).congr rfl ?_
    rw [visit]; split <;> rfl
  | varName v => exact Step.same (by simp [visit])
  | typeHint v => exact Step.same (by simp [visit])
  | const v => exact Step.same (by simp [visit])
  | classConst v k => exact Step.same (by simp [visit])
  | «variable» b o ps =>
    have h1 := step_visit b { s with eq := if o then false else s.eq }
    have h2 := step_list ps (visit env b { s with eq := if o then false else s.eq })
    refine (h1.trans h2).congr rfl ?_
    rw [visit]; split <;> rfl
  | yield p cs =>
    have h1 := step_list cs s
    refine h1.trans (s2 := visitList env cs s) ?_
    intro c cs' hs
    rw [visit]
    cases hg : env.find p .klass ⟨false, [q! "generator"]⟩ with
    | none =>
      exact ⟨c, hs, .none _ (by simpa [Silent, generator] using hg)⟩
    | some g =>
      refine ⟨g.type, by simp [St.setReturn, hs], .last [] _ [] _ (by simp) ⟨g, hg, rfl⟩⟩
  | newObj cls cs =>
    refine (step_list cs s).congr rfl ?_
    cases cls <;> rw [visit] <;> rfl
  | closure hint body sig lexical =>
    intro c cs hs
    have h := (step_list body { s with closures := some (.integral .void) :: s.closures }).trans (step_list sig _)
    obtain ⟨c', e, -⟩ := h _ _ rfl
    refine ⟨c, ?_, .none _ (by simp [exits])⟩
    rw [visit, ← hs]
    simp [St.closeClosure, e]
  | param c => exact (step_visit c s).congr rfl rfl
  | call f a k =>
    refine (step_visit a { s with inDefine := isDefine env f k || s.inDefine }).congr rfl ?_
    rw [visit]; simp
  | staticCall cls m a =>
    refine (step_visit a s).congr rfl ?_
    rw [visit]; simp
  | staticCallExpr cls a e =>
    refine ((step_visit a s).trans (step_visit e _)).congr rfl ?_
    rw [visit]; simp
  | scalar k t cs =>
    refine (step_list cs s).congr rfl ?_
    rw [visit]; split <;> simp
  | encapsVar v p cs =>
    refine (step_list cs s).congr rfl ?_
    rw [visit]; simp
  | prop c n cs =>
    have h := step_list cs (accessProperty env c n s)
    exact h.congr (by simp) rfl
  | staticMember cls v os =>
    have h := step_list os (useStaticMember env cls v s)
    exact h.congr (by simp) rfl
  | staticMemberExpr cls e os =>
    have h1 := step_visit e (s.useClass env cls).1
    have h2 := step_list os ((visit env e (s.useClass env cls).1).setType none)
    exact ((h1.congr (t2 := (visit env e (s.useClass env cls).1).setType none) rfl rfl).trans h2).congr (by simp) rfl
  | cast k c =>
    refine (step_visit c s).congr rfl ?_
    cases k <;> simp [visit, castType]
  | addRest o c => exact (step_visit c s).congr rfl rfl
  | relRest c => exact (step_visit c s).congr rfl rfl
  | eqRest o c => exact (step_visit c s).congr rfl rfl
  | instanceOf e cls cs =>
    refine ((step_visit e s).trans (step_list cs _)).congr rfl ?_
    cases cls <;> simp [visit]
  | ret e =>
    refine (step_visit e s).trans ?_
    intro c cs hs
    rw [visit]
    refine ⟨(visit env e s).res.type, by simp [St.setReturn, hs], .last [] _ [] _ (by simp) fun t ht => type_of ht s⟩
theorem step_list (ns : List Node) (s : St) : Step env (exitsList ns) s (visitList env ns s) := by
  cases ns with
  | nil => exact Step.same rfl
  | cons n ns => exact (step_visit n s).trans (step_list ns _)
end

/-! ### Theorems -/

/-- The return type of a closure: the last entry of `closed` once it was visited. -/
def returns (env : Env) (n : Node) (s : St) : Option (Option Ty) := (visit env n s).closed.getLast?

/-- **C84.** The declared type, else what the last exit gives; `void` without exits.  The closures around are not touched. -/
theorem closure_returns (hint : Option Ty) (body sig : List Node) (lexical : List Ident) (s : St) :
    (visit env (.closure hint body sig lexical) s).closures = s.closures ∧
    ∃ t, returns env (.closure hint body sig lexical) s = some (hint.or t) ∧ Outcome env (some (.integral .void)) (exitsList body ++ exitsList sig) t := by
  have h := (step_list body { s with closures := some (.integral .void) :: s.closures }).trans (step_list sig (env := env) _)
  obtain ⟨c', e, o⟩ := h _ _ rfl
  refine ⟨by rw [visit]; simp [St.closeClosure, e], c', ?_, o⟩
  unfold returns
  rw [visit]
  cases hint <;> simp [St.closeClosure, e]

/-- The declared type always wins. -/
theorem hinted (t : Ty) (body sig : List Node) (lexical : List Ident) (s : St) : returns env (.closure (some t) body sig lexical) s = some (some t) := by
  obtain ⟨-, t', h, -⟩ := closure_returns (env := env) (some t) body sig lexical s
  simpa using h

/-- Without `return` and `yield`: `void`. -/
theorem no_exit (body sig : List Node) (lexical : List Ident) (s : St) (h1 : exitsList body = []) (h2 : exitsList sig = []) :
    returns env (.closure none body sig lexical) s = some (some (.integral .void)) := by
  obtain ⟨-, t, h, o⟩ := closure_returns (env := env) none body sig lexical s
  rw [h1, h2, List.append_nil] at o
  generalize hl : ([] : List Exit) = l at o
  cases o with
  | none => simpa using h
  | last a x r _ _ _ => cases a <;> cases hl

/-- The last `return` decides. -/
theorem last_return (body sig : List Node) (lexical : List Ident) (s : St) (l r : List Exit) (e : Node) (t : Option Ty) (h1 : exitsList body = l ++ .ret e :: r)
    (hr : ∀ x ∈ r, Silent env x) (h2 : exitsList sig = []) (ht : HasType env e t) : returns env (.closure none body sig lexical) s = some t := by
  obtain ⟨-, t', h, o⟩ := closure_returns (env := env) none body sig lexical s
  rw [h1, h2, List.append_nil] at o
  suffices t' = t by rw [h, this]; rfl
  generalize hl : l ++ Exit.ret e :: r = xs at o
  cases o with
  | none _ ha => subst hl; exact (ha (.ret e) (by simp)).elim
  | last a x b _ hb hg =>
    rcases List.append_eq_append_iff.1 hl with ⟨k, h3, h4⟩ | ⟨k, h3, h4⟩
    · cases k with
      | nil => simp at h4; obtain ⟨rfl, -⟩ := h4; exact hg t ht
      | cons y k =>
        simp at h4
        obtain ⟨rfl, rfl⟩ := h4
        have := hr x (by simp)
        cases x with
        | ret => exact this.elim
        | yield p =>
          obtain ⟨g, hg, -⟩ := hg
          rw [Silent, hg] at this; cases this
    · cases k with
      | nil => simp at h4; obtain ⟨rfl, -⟩ := h4; exact hg t ht
      | cons y k =>
        simp at h4
        obtain ⟨rfl, rfl⟩ := h4
        exact (hb (.ret e) (by simp)).elim

/-- The last `yield` behind the last `return` makes a generator. -/
theorem last_yield (body sig : List Node) (lexical : List Ident) (s : St) (l : List Exit) (p : Pos) (g : Decl) (h1 : exitsList body = l ++ [.yield p])
    (h2 : exitsList sig = []) (hg : generator env p = some g) : returns env (.closure none body sig lexical) s = some g.type := by
  obtain ⟨-, t', h, o⟩ := closure_returns (env := env) none body sig lexical s
  rw [h1, h2, List.append_nil] at o
  suffices t' = g.type by rw [h, this]; rfl
  generalize hl : l ++ [Exit.yield p] = xs at o
  cases o with
  | none _ ha => subst hl; have := ha (.yield p) (by simp); rw [Silent, hg] at this; cases this
  | last a x b _ hb hg' =>
    rcases List.eq_nil_or_concat b with rfl | ⟨b', y, rfl⟩
    · obtain ⟨-, h4⟩ := List.append_inj' hl (by simp)
      cases h4
      obtain ⟨g', h5, h6⟩ := hg'
      rw [hg] at h5; cases h5; exact h6
    · have h5 : l ++ [Exit.yield p] = (a ++ x :: b') ++ [y] := by rw [hl]; simp
      obtain ⟨-, h4⟩ := List.append_inj' h5 (by simp)
      cases h4
      have := hb (.yield p) (by simp); rw [Silent, hg] at this; cases this

/-- **C84.** If all exits are `return`s of the same type, that is the type of the closure. -/
theorem uniform_partial (body sig : List Node) (lexical : List Ident) (s : St) (t : Option Ty) (h0 : exitsList body ≠ []) (h2 : exitsList sig = [])
    (h1 : ∀ x ∈ exitsList body, ∃ e, x = .ret e ∧ HasType env e t) : returns env (.closure none body sig lexical) s = some t := by
  rcases List.eq_nil_or_concat (exitsList body) with h | ⟨l, x, h⟩
  · exact absurd h h0
  · obtain ⟨e, rfl, he⟩ := h1 x (by rw [h]; simp)
    exact last_return body sig lexical s l [] e t (by rw [h]; simp) (by simp) h2 he

/-- **Finding.** Of different types only that of the last `return` is kept. -/
theorem first_forgotten (a b : Node) (t : Option Ty) (s : St) (hb : HasType env b t) (ha : exits a = []) (hb' : exits b = []) :
    returns env (.closure none [.ret a, .ret b] [] []) s = some t :=
  last_return _ _ _ _ [.ret a] [] b t (by simp [exitsList, exits, ha, hb']) (by simp) rfl hb

/-- **Finding.** A `return` in a function declared inside of the closure counts as one of the closure. -/
theorem inner_function (a b : Node) (t : Option Ty) (s : St) (hb : HasType env b t) (ha : exits a = []) (hb' : exits b = []) :
    returns env (.closure none [.ret a, .plain [.plain [.ret b]]] [] []) s = some t :=
  last_return _ _ _ _ [.ret a] [] b t (by simp [exitsList, exits, ha, hb']) (by simp) rfl hb

/-- **Finding.** With `yield` and a `return` behind it, a closure is no generator. -/
theorem yield_return (p : Pos) (b : Node) (t : Option Ty) (s : St) (hb : HasType env b t) (hb' : exits b = []) :
    returns env (.closure none [.yield p [], .ret b] [] []) s = some t :=
  last_return _ _ _ _ [.yield p] [] b t (by simp [exitsList, exits, hb']) (by simp) rfl hb

/-- … whereas a `return` in a closure inside does not. -/
theorem inner_closure (a : Node) (hint : Option Ty) (body sig : List Node) (l : List Ident) (t : Option Ty) (s : St) (ha : HasType env a t) (ha' : exits a = []) :
    returns env (.closure none [.ret a, .plain [.closure hint body sig l]] [] []) s = some t :=
  last_return _ _ _ _ [] [] a t (by simp [exitsList, exits, ha']) (by simp) rfl ha

/-! ### Concrete cases -/

/-- `function () { return 1; return 'a'; }` -/
example (s : St) : returns env (.closure none [.ret (.scalar .int ⟨0, q! "1"⟩ []), .ret (.scalar .string ⟨1, q! "'a'"⟩ [])] [] []) s = some (some (.integral .string)) :=
  first_forgotten _ _ _ s (.string _ _) (by simp [exits, exitsList]) (by simp [exits, exitsList])
/-- `function (): int { return 'a'; }` -/
example (s : St) : returns env (.closure (some (.integral .int)) [.ret (.scalar .string ⟨1, q! "'a'"⟩ [])] [] []) s = some (some (.integral .int)) := hinted ..

end KPhp.Expr.Closures
