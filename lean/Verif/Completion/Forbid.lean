import Verif.Completion.TokenAccess
/-!
# Which declarations completion offers (C35)

Models `CodeCompletionContext::forbidIdentifier` (completion/context.cpp:974-1024), `isValidCompletionItem`
(:1654-1765) and the listing of all visible declarations (:1440-1476, :1478-1540).

Taken from KDevPlatform: `qualifiedIdentifier().index()` is the same number for two declarations iff their qualified
names are equal; `allDeclarations` lists the declarations visible from a context; `isPublicBaseClass` answers whether a
class is among the transitive bases (a parameter here).
-/
namespace KPhp.Completion.Forbid

/-- The class declarations as `forbidIdentifier` sees them: a declaration is a number. -/
structure Graph where
  /-- `qualifiedIdentifier().index()` -/
  ident : Nat → Nat
  /-- the declarations of the base classes that are found -/
  bases : Nat → List Nat

/-- completion/context.cpp:990-1024: the set `m_forbiddenIdentifiers` afterwards. The first argument bounds the depth of the
recursion (`none`: exceeded); `forbid_terminates` shows that the number of classes is enough. -/
def forbid (g : Graph) : Nat → Nat → List Nat → Option (List Nat)
  | 0, _, _ => none
  | n + 1, k, vis =>
    if vis.contains (g.ident k) then some vis
    else (g.bases k).foldlM (fun v b => forbid g n b v) (g.ident k :: vis)

/-- a name given to `forbidIdentifier(QString)`: the class found for it, or the index of the lower-cased name -/
inductive Target
  | cls (k : Nat)
  | name (id : Nat)

/-- completion/context.cpp:974-988 -/
def forbidTarget (g : Graph) (n : Nat) (vis : List Nat) : Target → Option (List Nat)
  | .cls k => forbid g n k vis
  | .name id => some (id :: vis)

/-- completion/context.cpp:318-396: one name after the other -/
def forbidAll (g : Graph) (n : Nat) (ts : List Target) : Option (List Nat) := ts.foldlM (forbidTarget g n) []

/-! ## Specification -/

/-- `b` is `a` or one of its direct or indirect bases -/
inductive Ancestor (g : Graph) : Nat → Nat → Prop
  | refl (a : Nat) : Ancestor g a a
  | step {a b c : Nat} : b ∈ g.bases a → Ancestor g b c → Ancestor g a c

/-- all classes are numbers below `N`, and a class is determined by its name -/
structure Graph.Finite (g : Graph) (N : Nat) : Prop where
  closed : ∀ k < N, ∀ b ∈ g.bases k, b < N
  inj : ∀ a < N, ∀ b < N, g.ident a = g.ident b → a = b

/-! ## Termination -/

/-- the classes that are not yet visited -/
def todo (g : Graph) (N : Nat) (vis : List Nat) : Nat := ((List.range N).filter fun k => !vis.contains (g.ident k)).length

theorem filter_le {α : Type} {p q : α → Bool} (l : List α) (h : ∀ x, p x = true → q x = true) :
    (l.filter p).length ≤ (l.filter q).length := by
  induction l with
  | nil => simp
  | cons x l ih =>
    simp only [List.filter_cons]
    cases hp : p x with
    | true => rw [h x hp]; simpa using ih
    | false =>
      cases hq : q x
      · simpa using ih
      · simp; omega

theorem filter_lt {α : Type} {p q : α → Bool} (l : List α) (h : ∀ x, p x = true → q x = true) {x : α} (hx : x ∈ l)
    (hq : q x = true) (hp : p x = false) : (l.filter p).length < (l.filter q).length := by
  induction l with
  | nil => simp at hx
  | cons y l ih =>
    simp only [List.filter_cons]
    rcases List.mem_cons.1 hx with rfl | hx
    · rw [hq, hp]; simp; have := filter_le l h; omega
    · have := ih hx
      cases hpy : p y with
      | true => rw [h y hpy]; simpa using this
      | false =>
        cases hq : q y
        · simpa using this
        · simp; omega

theorem todo_mono (g : Graph) (N : Nat) {a b : List Nat} (h : ∀ x ∈ a, x ∈ b) : todo g N b ≤ todo g N a := by
  apply filter_le
  intro k hk
  simp at hk ⊢
  exact fun hc => hk (h _ hc)

theorem todo_lt (g : Graph) (N : Nat) {k : Nat} {vis : List Nat} (hk : k < N) (hv : ¬ vis.contains (g.ident k)) :
    todo g N (g.ident k :: vis) < todo g N vis := by
  refine filter_lt _ ?_ (List.mem_range.2 hk) (by simpa using hv) (by simp)
  intro x hx
  simp at hx ⊢
  exact hx.2

/-- what is known after visiting -/
structure Post (g : Graph) (N : Nat) (S : Nat → Prop) (vis res : List Nat) : Prop where
  mono : ∀ x ∈ vis, x ∈ res
  sound : ∀ x ∈ res, x ∈ vis ∨ ∃ j, S j ∧ j < N ∧ x = g.ident j
  closed : ∀ j < N, g.ident j ∈ res → g.ident j ∉ vis → ∀ b ∈ g.bases j, g.ident b ∈ res

theorem fold_post (g : Graph) (N n : Nat) (S : Nat → Prop)
    (ih : ∀ k < N, ∀ vis, todo g N vis < n → ∃ res, forbid g n k vis = some res ∧
      Post g N (Ancestor g k) vis res ∧ g.ident k ∈ res) :
    ∀ (bs : List Nat) (vis : List Nat), (∀ b ∈ bs, b < N) → (∀ b ∈ bs, ∀ c, Ancestor g b c → S c) → todo g N vis < n →
      ∃ res, bs.foldlM (fun v b => forbid g n b v) vis = some res ∧ Post g N S vis res ∧ ∀ b ∈ bs, g.ident b ∈ res := by
  intro bs
  induction bs with
  | nil =>
    intro vis _ _ _
    exact ⟨vis, rfl, ⟨fun x h => h, fun x h => Or.inl h, fun j _ h1 h2 => absurd h1 h2⟩, by simp⟩
  | cons b bs ihb =>
    intro vis hN hS ht
    obtain ⟨r1, h1, p1, m1⟩ := ih b (hN b (by simp)) vis ht
    have ht1 : todo g N r1 < n := Nat.lt_of_le_of_lt (todo_mono g N p1.mono) ht
    obtain ⟨r2, h2, p2, m2⟩ := ihb r1 (fun x h => hN x (by simp [h])) (fun x h => hS x (by simp [h])) ht1
    refine ⟨r2, by simp [List.foldlM_cons, h1, h2], ⟨?_, ?_, ?_⟩, ?_⟩
    · exact fun x h => p2.mono x (p1.mono x h)
    · intro x hx
      rcases p2.sound x hx with h | h
      · rcases p1.sound x h with h | ⟨j, hj, hjN, rfl⟩
        · exact Or.inl h
        · exact Or.inr ⟨j, hS b (by simp) j hj, hjN, rfl⟩
      · exact Or.inr h
    · intro j hj h3 h4 c hc
      by_cases h5 : g.ident j ∈ r1
      · exact p2.mono _ (p1.closed j hj h5 h4 c hc)
      · exact p2.closed j hj h3 h5 c hc
    · intro c hc
      rcases List.mem_cons.1 hc with rfl | hc
      · exact p2.mono _ m1
      · exact m2 c hc

theorem forbid_post (g : Graph) (N : Nat) (hf : g.Finite N) : ∀ (n k : Nat) (vis : List Nat), k < N → todo g N vis < n →
    ∃ res, forbid g n k vis = some res ∧ Post g N (Ancestor g k) vis res ∧ g.ident k ∈ res := by
  intro n
  induction n with
  | zero => intro k vis _ h; omega
  | succ n ih =>
    intro k vis hk ht
    rw [forbid]
    by_cases hv : vis.contains (g.ident k) = true
    · rw [if_pos hv]
      exact ⟨vis, rfl, ⟨fun x h => h, fun x h => Or.inl h, fun j _ h1 h2 => absurd h1 h2⟩, by simpa using hv⟩
    · rw [if_neg hv]
      have hlt := todo_lt g N hk hv
      obtain ⟨res, h1, p, m⟩ := fold_post g N n (Ancestor g k) (fun k hk vis ht => ih k vis hk ht) (g.bases k) (g.ident k :: vis)
        (hf.closed k hk) (fun b hb c hc => .step hb hc) (by omega)
      refine ⟨res, h1, ⟨fun x h => p.mono x (by simp [h]), ?_, ?_⟩, p.mono _ (by simp)⟩
      · intro x hx
        rcases p.sound x hx with h | h
        · rcases List.mem_cons.1 h with rfl | h
          · exact Or.inr ⟨k, .refl k, hk, rfl⟩
          · exact Or.inl h
        · exact Or.inr h
      · intro j hj h2 h3 b hb
        by_cases he : g.ident j = g.ident k
        · have := hf.inj j hj k hk he
          subst this
          exact m b hb
        · exact p.closed j hj h2 (by simp [he, h3]) b hb

theorem todo_le (g : Graph) (N : Nat) (vis : List Nat) : todo g N vis ≤ N := by
  unfold todo
  have := List.length_filter_le (fun k => !vis.contains (g.ident k)) (List.range N)
  simpa using this

/-- **C35 (termination).** On every class graph, cyclic or not, the recursion ends. -/
theorem forbid_terminates (g : Graph) (N : Nat) (hf : g.Finite N) (k : Nat) (hk : k < N) (vis : List Nat) :
    ∃ res, forbid g (N + 1) k vis = some res := by
  obtain ⟨res, h, _⟩ := forbid_post g N hf (N + 1) k vis hk (by have := todo_le g N vis; omega)
  exact ⟨res, h⟩

theorem closed_ancestors {g : Graph} {N : Nat} (hf : g.Finite N) {res : List Nat} {a b : Nat} (h : Ancestor g a b)
    (ha : a < N) (hm : g.ident a ∈ res) (hc : ∀ j < N, g.ident j ∈ res → ∀ b ∈ g.bases j, g.ident b ∈ res) :
    g.ident b ∈ res ∧ b < N := by
  induction h with
  | refl a => exact ⟨hm, ha⟩
  | step hb _ ih => exact ih (hf.closed _ ha _ hb) (hc _ ha hm _ hb)

/-- **C35 (closure).** Forbidding a list of names forbids exactly the classes found for them with all their direct and
indirect bases, and the names for which no class is found. (A name for which no class is found is not the name of a
class.) -/
theorem forbidden_iff (g : Graph) (N : Nat) (hf : g.Finite N) (ts : List Target)
    (hcls : ∀ k, .cls k ∈ ts → k < N) (hname : ∀ id, .name id ∈ ts → ∀ k < N, g.ident k ≠ id) :
    ∃ res, forbidAll g (N + 1) ts = some res ∧
      ∀ x, x ∈ res ↔ .name x ∈ ts ∨ ∃ k j, .cls k ∈ ts ∧ Ancestor g k j ∧ g.ident j = x := by
  have key : ∀ (ts : List Target) (vis : List Nat), (∀ k, .cls k ∈ ts → k < N) →
      (∀ id, .name id ∈ ts → ∀ k < N, g.ident k ≠ id) →
      (∀ j < N, g.ident j ∈ vis → ∀ b ∈ g.bases j, g.ident b ∈ vis) →
      ∃ res, ts.foldlM (forbidTarget g (N + 1)) vis = some res ∧
        (∀ j < N, g.ident j ∈ res → ∀ b ∈ g.bases j, g.ident b ∈ res) ∧
        ∀ x, x ∈ res ↔ x ∈ vis ∨ .name x ∈ ts ∨ ∃ k j, .cls k ∈ ts ∧ Ancestor g k j ∧ g.ident j = x := by
    intro ts
    induction ts with
    | nil => intro vis _ _ hc; exact ⟨vis, rfl, hc, by simp⟩
    | cons t ts ih =>
      intro vis h1 h2 hc
      cases t with
      | name id =>
        have hc' : ∀ j < N, g.ident j ∈ id :: vis → ∀ b ∈ g.bases j, g.ident b ∈ id :: vis := by
          intro j hj hm b hb
          rcases List.mem_cons.1 hm with h | h
          · exact absurd h (h2 id (by simp) j hj)
          · exact List.mem_cons_of_mem _ (hc j hj h b hb)
        obtain ⟨res, e, hc2, hiff⟩ := ih (id :: vis) (fun k h => h1 k (by simp [h])) (fun i h => h2 i (by simp [h])) hc'
        refine ⟨res, by simp [List.foldlM_cons, forbidTarget, e], hc2, ?_⟩
        intro x
        rw [hiff]
        simp only [List.mem_cons, Target.name.injEq, reduceCtorEq, false_or]
        constructor
        · rintro ((rfl | h) | h | h)
          · exact Or.inr (Or.inl (Or.inl rfl))
          · exact Or.inl h
          · exact Or.inr (Or.inl (Or.inr h))
          · exact Or.inr (Or.inr h)
        · rintro (h | (rfl | h) | h)
          · exact Or.inl (Or.inr h)
          · exact Or.inl (Or.inl rfl)
          · exact Or.inr (Or.inl h)
          · exact Or.inr (Or.inr h)
      | cls k =>
        have hk := h1 k (by simp)
        obtain ⟨r1, e1, p, m⟩ := forbid_post g N hf (N + 1) k vis hk (by have := todo_le g N vis; omega)
        have hc' : ∀ j < N, g.ident j ∈ r1 → ∀ b ∈ g.bases j, g.ident b ∈ r1 := by
          intro j hj hm b hb
          by_cases hv : g.ident j ∈ vis
          · exact p.mono _ (hc j hj hv b hb)
          · exact p.closed j hj hm hv b hb
        obtain ⟨res, e, hc2, hiff⟩ := ih r1 (fun k h => h1 k (by simp [h])) (fun i h => h2 i (by simp [h])) hc'
        refine ⟨res, by simp [List.foldlM_cons, forbidTarget, e1, e], hc2, ?_⟩
        intro x
        rw [hiff]
        simp only [List.mem_cons, Target.cls.injEq, reduceCtorEq, false_or]
        constructor
        · rintro (h | h | ⟨k', j, hk', ha, hx⟩)
          · rcases p.sound x h with h | ⟨j, hj, hjN, rfl⟩
            · exact Or.inl h
            · exact Or.inr (Or.inr ⟨k, j, Or.inl rfl, hj, rfl⟩)
          · exact Or.inr (Or.inl h)
          · exact Or.inr (Or.inr ⟨k', j, Or.inr hk', ha, hx⟩)
        · rintro (h | h | ⟨k', j, rfl | hk', ha, rfl⟩)
          · exact Or.inl (p.mono x h)
          · exact Or.inr (Or.inl h)
          · exact Or.inl (closed_ancestors hf ha hk m hc').1
          · exact Or.inr (Or.inr ⟨k', j, hk', ha, rfl⟩)
  obtain ⟨res, e, _, hiff⟩ := key ts [] hcls hname (by simp)
  exact ⟨res, e, by simpa using hiff⟩

/-- Without the hypothesis that a class is determined by its name: two declarations (1 and 2) with the same name; the bases of
the second one are not forbidden. -/
def redeclared : Graph := ⟨fun k => if k = 2 then 1 else k, fun k => if k = 0 then [1, 2] else if k = 2 then [3] else []⟩

/-- **Limit of C35.** Of several declarations with the same name only the bases of the first one met are forbidden. -/
theorem same_name_skipped : forbidAll redeclared 5 [.cls 0] = some [1, 0] ∧ Ancestor redeclared 0 3 :=
  ⟨by decide, .step (b := 2) (by decide) (.step (b := 3) (by decide) (.refl 3))⟩

/-- A cyclic graph meets the hypotheses of `forbidden_iff`: 0 extends 1, 1 extends 0 and 2. -/
def cyclic : Graph := ⟨fun k => k, fun k => if k = 0 then [1] else if k = 1 then [0, 2] else []⟩

example : cyclic.Finite 3 ∧ forbidAll cyclic 4 [.cls 0, .name 7] = some [7, 2, 1, 0] :=
  ⟨⟨by decide, by decide⟩, by decide⟩

/-! ## Which declarations are offered -/

/-- `Declaration::Kind`, as far as it is used. -/
inductive Kind | Type | Instance | Namespace | OtherKind
deriving DecidableEq, Repr

/-- `ClassDeclarationData::ClassType`. -/
inductive CType | Class | Interface | Trait
deriving DecidableEq, Repr

/-- The part of a `ClassDeclaration` looked at. -/
structure ClassPart where
  ctype : CType
  abstract : Bool
  final : Bool
  /-- `isPublicBaseClass(exception)` -/
  derivesException : Bool
deriving DecidableEq, Repr

/-- A declaration as `isValidCompletionItem` sees it. -/
structure Dec where
  kind : Kind
  /-- `qualifiedIdentifier().index()` -/
  qid : Nat
  /-- `qualifiedIdentifier().isEmpty()` -/
  unnamed : Bool
  /-- `indexedIdentifier().index()` -/
  ident : Nat
  rangeEmpty : Bool
  cls : Option ClassPart
  /-- for variables of a class type: that class -/
  typeClass : Option ClassPart
  /-- the context it is declared in -/
  ctx : Nat
  /-- the context is a class -/
  inClass : Bool
  /-- a private class member -/
  privateMember : Bool
  isFunction : Bool
  /-- starts behind the cursor -/
  behind : Bool
  /-- for `VariableDeclaration`: superglobal -/
  superglobal : Option Bool
deriving DecidableEq, Repr

/-- Where completion is asked for. -/
structure Env where
  op : Operation
  forbidden : List Nat
  /-- index of the qualified identifier `exception` if it is declared -/
  exception : Option Nat
  ctx : Nat
  parentCtx : Option Nat
  imports : Nat → Bool

/-- completion/context.cpp:1682-1686 -/
def classChoose (op : Operation) : Bool :=
  op == .ExceptionChoose || op == .NewClassChoose || op == .InterfaceChoose || op == .ClassExtendsChoose ||
    op == .InstanceOfChoose

/-- completion/context.cpp:1693-1724 -/
def classValid (e : Env) (d : Dec) (c : ClassPart) : Bool :=
  if e.op = .NewClassChoose then !c.abstract && c.ctype == .Class
  else if e.op = .ExceptionChoose then
    match e.exception with
    | none => false
    | some x => d.qid == x || c.derivesException
  else if e.op = .InterfaceChoose then c.ctype == .Interface
  else if e.op = .ClassExtendsChoose then !c.final && c.ctype == .Class
  else true

/-- completion/context.cpp:1727-1745 -/
def exceptionInstance (e : Env) (d : Dec) : Bool :=
  match e.exception with
  | none => false
  | some _ => d.kind == .Instance && (match d.typeClass with
    | some c => c.derivesException
    | none => false)

/-- completion/context.cpp:1747-1764 -/
def globalValid (e : Env) (d : Dec) : Bool :=
  !(d.inClass && e.parentCtx != some d.ctx && d.privateMember) && !(!d.isFunction && e.ctx == d.ctx && d.behind)

/-- completion/context.cpp:1654-1772 -/
def isValid (e : Env) (d : Dec) : Bool :=
  if d.rangeEmpty then false
  else if d.kind == .Type && d.unnamed then false
  else if classChoose e.op then
    if !e.forbidden.isEmpty && e.forbidden.contains d.qid then false
    else match d.cls with
      | none => false
      | some c => classValid e d c
  else if e.op = .ExceptionInstanceChoose then exceptionInstance e d
  else if e.op = .NoMemberAccess && !globalValid e d then false
  else if e.op = .NamespaceChoose then d.kind == .Namespace
  else true

/-- completion/context.cpp:1454-1460: a variable of another context that is not superglobal -/
def foreign (e : Env) (d : Dec) : Bool :=
  d.ctx != e.ctx && !e.imports d.ctx && d.superglobal == some false

/-- completion/context.cpp:1449-1475: the loop over the visible declarations, last one first; `seen` is
`existingIdentifiers`. -/
def visibleLoop (e : Env) : List Dec → List Nat → List Dec
  | [], _ => []
  | d :: ds, seen =>
    if d.kind = .Instance then
      if foreign e d || seen.contains d.ident then visibleLoop e ds seen
      else if isValid e d then d :: visibleLoop e ds (d.ident :: seen) else visibleLoop e ds (d.ident :: seen)
    else if isValid e d then d :: visibleLoop e ds seen else visibleLoop e ds seen

/-- completion/context.cpp:1440-1475 -/
def visible (e : Env) (all : List Dec) : List Dec := visibleLoop e all.reverse []

/-- completion/context.cpp:1478-1517: functions and variables of other files of the project -/
def fromFiles (e : Env) (found : List Dec) : List Dec :=
  found.filter fun d => !d.inClass && isValid e d && d.superglobal != some false

theorem visibleLoop_mem (e : Env) (ds : List Dec) : ∀ seen d, d ∈ visibleLoop e ds seen → d ∈ ds ∧ isValid e d = true := by
  induction ds with
  | nil => intro seen d h; simp [visibleLoop] at h
  | cons x ds ih =>
    intro seen d h
    have cont : ∀ s, d ∈ visibleLoop e ds s → d ∈ x :: ds ∧ isValid e d = true :=
      fun s h => ⟨List.mem_cons_of_mem _ (ih s d h).1, (ih s d h).2⟩
    have add : ∀ s, isValid e x = true → d ∈ x :: visibleLoop e ds s → d ∈ x :: ds ∧ isValid e d = true := by
      intro s hv h
      rcases List.mem_cons.1 h with rfl | h
      · exact ⟨by simp, hv⟩
      · exact cont s h
    rw [visibleLoop] at h
    split at h
    · split at h
      · exact cont _ h
      · split at h
        · exact add _ ‹_› h
        · exact cont _ h
    · split at h
      · exact add _ ‹_› h
      · exact cont _ h

/-- a class that is listed for the operation -/
def FitsClass (e : Env) (d : Dec) : Prop :=
  ∃ c, d.cls = some c ∧ d.rangeEmpty = false ∧ ¬ (d.kind = .Type ∧ d.unnamed = true) ∧ d.qid ∉ e.forbidden ∧
    match e.op with
    | .NewClassChoose => c.ctype = .Class ∧ c.abstract = false
    | .InterfaceChoose => c.ctype = .Interface
    | .ClassExtendsChoose => c.ctype = .Class ∧ c.final = false
    | .ExceptionChoose => ∃ x, e.exception = some x ∧ (d.qid = x ∨ c.derivesException = true)
    | _ => True

theorem isValid_class (e : Env) (d : Dec) (h : classChoose e.op = true) : isValid e d = true ↔ FitsClass e d := by
  unfold isValid FitsClass
  cases hr : d.rangeEmpty with
  | true => simp
  | false =>
    by_cases hu : d.kind = .Type ∧ d.unnamed = true
    · simp [hu.1, hu.2]
    · have hu' : (d.kind == .Type && d.unnamed) = false := by
        cases hx : (d.kind == .Type && d.unnamed) with
        | false => rfl
        | true => simp at hx; exact absurd hx hu
      simp only [hu', h, Bool.false_eq_true, if_false, if_true, hu, not_false_eq_true, true_and]
      by_cases hf : d.qid ∈ e.forbidden
      · have : e.forbidden.isEmpty = false := by cases hh : e.forbidden <;> simp_all
        simp [hf, this]
      · have : (!e.forbidden.isEmpty && e.forbidden.contains d.qid) = false := by simp [hf]
        simp only [this, Bool.false_eq_true, if_false, hf, not_false_eq_true, true_and]
        cases hc : d.cls with
        | none => simp
        | some c =>
          simp only [Option.some.injEq, exists_eq_left']
          unfold classValid
          cases hop : e.op <;> simp [hop, classChoose] at h ⊢
          all_goals first | exact And.comm | skip
          cases hx : e.exception
          · simp
          · simp only [Bool.or_eq_true, beq_iff_eq, Option.some.injEq, exists_eq_left']

/-- **C35.** After `extends` (`op` is `ClassExtendsChoose` or, for interfaces, `InterfaceChoose`) and `implements`, of all
visible declarations exactly the fitting classes are offered: those not forbidden, i.e. (with `forbidden_iff`) neither
the class itself nor a direct or indirect base of the forbidden classes. -/
theorem inheritance_completion_partial (e : Env) (all : List Dec) (h : e.op = .ClassExtendsChoose ∨ e.op = .InterfaceChoose)
    (hkind : ∀ d ∈ all, d.cls.isSome = true → d.kind = .Type) (d : Dec) :
    d ∈ visible e all ↔ d ∈ all ∧ FitsClass e d := by
  have hc : classChoose e.op = true := by rcases h with h | h <;> (rw [h]; decide)
  constructor
  · intro hd
    have := visibleLoop_mem e _ _ d hd
    exact ⟨List.mem_reverse.1 this.1, (isValid_class e d hc).1 this.2⟩
  · rintro ⟨hd, hfit⟩
    have hv := (isValid_class e d hc).2 hfit
    have hk : d.kind = .Type := by
      obtain ⟨c, hc, _⟩ := hfit
      exact hkind d hd (by rw [hc]; rfl)
    have gen : ∀ (ds : List Dec) seen, d ∈ ds → d ∈ visibleLoop e ds seen := by
      intro ds
      induction ds with
      | nil => intro seen h; simp at h
      | cons x ds ih =>
        intro seen hx
        rw [visibleLoop]
        rcases List.mem_cons.1 hx with rfl | hx
        · simp [hk, hv]
        · split
          · split
            · exact ih _ hx
            · split
              · exact List.mem_cons_of_mem _ (ih _ hx)
              · exact ih _ hx
          · split
            · exact List.mem_cons_of_mem _ (ih _ hx)
            · exact ih _ hx
    exact gen _ _ (List.mem_reverse.2 hd)

/-- The same kinds are offered from other files, through the code model. -/
theorem inheritance_completion_files (e : Env) (found : List Dec)
    (h : e.op = .ClassExtendsChoose ∨ e.op = .InterfaceChoose) (d : Dec) (hd : d ∈ fromFiles e found) : FitsClass e d := by
  have hc : classChoose e.op = true := by rcases h with h | h <;> (rw [h]; decide)
  unfold fromFiles at hd
  simp only [List.mem_filter, Bool.and_eq_true] at hd
  exact (isValid_class e d hc).1 hd.2.1.2

/-- **C35 (together).** For forbidden names `ts`, nothing is offered that is the class of one of the names or a direct or
indirect base of it. -/
theorem no_ancestor_offered (g : Graph) (N : Nat) (hf : g.Finite N) (ts : List Target)
    (hcls : ∀ k, .cls k ∈ ts → k < N) (hname : ∀ id, .name id ∈ ts → ∀ k < N, g.ident k ≠ id)
    (e : Env) (all : List Dec) (h : e.op = .ClassExtendsChoose ∨ e.op = .InterfaceChoose)
    (he : forbidAll g (N + 1) ts = some e.forbidden) (d : Dec) (hd : d ∈ visible e all) :
    .name d.qid ∉ ts ∧ ∀ k j, .cls k ∈ ts → Ancestor g k j → g.ident j ≠ d.qid := by
  have hc : classChoose e.op = true := by rcases h with h | h <;> (rw [h]; decide)
  obtain ⟨res, h1, h2⟩ := forbidden_iff g N hf ts hcls hname
  rw [he] at h1
  cases h1
  have hfit := (isValid_class e d hc).1 (visibleLoop_mem e _ _ d hd).2
  obtain ⟨c, _, _, _, hnf, _⟩ := hfit
  rw [h2] at hnf
  exact ⟨fun h => hnf (Or.inl h), fun k j hk ha he => hnf (Or.inr ⟨k, j, hk, ha, he⟩)⟩

/-- completion/context.cpp:1519-1539: the classes of the files of the project are added from the completion code model; only
their being exceptions is looked at. An item is its qualified identifier and the exception flag. -/
def fromCompletionModel (e : Env) (items : List (Nat × Bool)) : List (Nat × Bool) :=
  items.filter fun i => !(e.op == .ExceptionChoose) || i.2

/-- **Limit of C35.** The classes listed from the completion code model are not filtered: in a project file that declares the
class itself, it is offered after its `extends`. -/
theorem project_classes_unfiltered (e : Env) (items : List (Nat × Bool)) (h : e.op ≠ .ExceptionChoose) :
    fromCompletionModel e items = items := by
  unfold fromCompletionModel
  rw [List.filter_eq_self]
  intro a _
  simp [h]

/-- **C48 (new, instanceof, catch).** For the other class choices the offered declarations are exactly the fitting ones,
too. -/
theorem class_completion (e : Env) (d : Dec) (h : classChoose e.op = true) :
    isValid e d = true ↔ FitsClass e d := isValid_class e d h

/-- **C35/C48 (normal completion).** Private members of other classes, and things other than functions declared in the
current context behind the cursor, are not offered. -/
theorem normal_completion (e : Env) (d : Dec) (h : e.op = .NoMemberAccess) :
    isValid e d = true ↔ d.rangeEmpty = false ∧ ¬ (d.kind = .Type ∧ d.unnamed = true) ∧
      ¬ (d.inClass = true ∧ e.parentCtx ≠ some d.ctx ∧ d.privateMember = true) ∧
      ¬ (d.isFunction = false ∧ d.ctx = e.ctx ∧ d.behind = true) := by
  unfold isValid globalValid
  rw [h]
  have h1 : classChoose .NoMemberAccess = false := by decide
  simp only [h1]
  cases d.rangeEmpty <;> simp
  have hcomm : (d.ctx = e.ctx) ↔ (e.ctx = d.ctx) := eq_comm
  rw [hcomm]
  by_cases hk : d.kind = .Type <;> cases d.unnamed <;> cases d.inClass <;> cases d.privateMember <;> cases d.isFunction <;>
    cases d.behind <;> by_cases hp : e.parentCtx = some d.ctx <;> by_cases hc : e.ctx = d.ctx <;> simp [hk, hp, hc]

/-- **Visible variables, once.** Every variable name is offered at most once. -/
theorem variable_once (e : Env) (all : List Dec) :
    ((visible e all).filter fun d => d.kind == .Instance).Pairwise fun a b => a.ident ≠ b.ident := by
  have gen : ∀ (ds : List Dec) seen,
      ((visibleLoop e ds seen).filter fun d => d.kind == .Instance).Pairwise (fun a b => a.ident ≠ b.ident) ∧
      ∀ d ∈ visibleLoop e ds seen, d.kind = .Instance → d.ident ∉ seen := by
    intro ds
    induction ds with
    | nil => intro seen; exact ⟨by simp [visibleLoop], by simp [visibleLoop]⟩
    | cons x ds ih =>
      intro seen
      rw [visibleLoop]
      by_cases hk : x.kind = .Instance
      · rw [if_pos hk]
        by_cases hs : (foreign e x || seen.contains x.ident) = true
        · rw [if_pos hs]; exact ih seen
        · rw [if_neg hs]
          have hns : x.ident ∉ seen := by simp at hs; exact hs.2
          have h := ih (x.ident :: seen)
          split
          · refine ⟨?_, ?_⟩
            · simp only [List.filter_cons, hk, beq_self_eq_true, if_true, List.pairwise_cons]
              refine ⟨?_, h.1⟩
              intro d hd heq
              simp only [List.mem_filter, beq_iff_eq] at hd
              exact h.2 d hd.1 hd.2 (by rw [← heq]; simp)
            · intro d hd hdk
              rcases List.mem_cons.1 hd with rfl | hd
              · exact hns
              · have := h.2 d hd hdk; simp at this; exact this.2
          · refine ⟨h.1, ?_⟩
            intro d hd hdk
            have := h.2 d hd hdk; simp at this; exact this.2
      · rw [if_neg hk]
        have h := ih seen
        split
        · refine ⟨?_, ?_⟩
          · have : (x.kind == .Instance) = false := by simp [hk]
            simp only [List.filter_cons, this]
            exact h.1
          · intro d hd hdk
            rcases List.mem_cons.1 hd with rfl | hd
            · exact absurd hdk hk
            · exact h.2 d hd hdk
        · exact h
  exact (gen all.reverse []).1

/-- **C48 (after `throw`).** Offered are, beside `new`, exactly the variables whose type is an exception class, provided that
the class `exception` is known. -/
theorem throw_completion (e : Env) (d : Dec) (h : e.op = .ExceptionInstanceChoose) :
    isValid e d = true ↔ d.rangeEmpty = false ∧ d.kind = .Instance ∧ e.exception.isSome = true ∧
      ∃ c, d.typeClass = some c ∧ c.derivesException = true := by
  unfold isValid exceptionInstance
  rw [h]
  have h1 : classChoose .ExceptionInstanceChoose = false := by decide
  simp only [h1]
  cases d.rangeEmpty <;> cases d.unnamed <;> cases e.exception <;> cases d.typeClass <;> cases d.kind <;> simp

/-- **C48 (after `namespace`).** Exactly namespaces are offered. -/
theorem namespace_completion (e : Env) (d : Dec) (h : e.op = .NamespaceChoose) :
    isValid e d = true ↔ d.rangeEmpty = false ∧ d.kind = .Namespace := by
  unfold isValid
  rw [h]
  have h1 : classChoose .NamespaceChoose = false := by decide
  simp only [h1]
  cases d.rangeEmpty <;> cases d.unnamed <;> cases d.kind <;> simp

/-- a variable that can be seen: of the current context or of an imported one, or a superglobal one (or no PHP variable
declaration at all, e.g. a constant) -/
def Seen (e : Env) (d : Dec) : Prop := d.ctx = e.ctx ∨ e.imports d.ctx = true ∨ d.superglobal ≠ some false

/-- `d`, followed by the declarations `post`, is to be offered: it is valid and, if it is an instance, seen and the last seen
instance of its name -/
def Offered (e : Env) (d : Dec) (post : List Dec) : Prop :=
  isValid e d = true ∧ (d.kind = .Instance → Seen e d ∧ ∀ d' ∈ post, d'.kind = .Instance → Seen e d' → d'.ident ≠ d.ident)

theorem foreign_iff (e : Env) (d : Dec) : foreign e d = false ↔ Seen e d := by
  unfold foreign Seen
  cases h1 : e.imports d.ctx <;> by_cases h2 : d.ctx = e.ctx <;> cases h3 : d.superglobal <;> simp [h2] <;>
    rename_i b <;> cases b <;> simp

theorem visibleLoop_iff (e : Env) (d : Dec) : ∀ (ds : List Dec) (seen : List Nat),
    d ∈ visibleLoop e ds seen ↔ ∃ pre post, ds = pre ++ d :: post ∧ isValid e d = true ∧
      (d.kind = .Instance → Seen e d ∧ d.ident ∉ seen ∧ ∀ d' ∈ pre, d'.kind = .Instance → Seen e d' → d'.ident ≠ d.ident) := by
  intro ds
  induction ds with
  | nil => intro seen; simp [visibleLoop]
  | cons x ds ih =>
    intro seen
    have split : ∀ P : List Dec → Prop, (∃ pre post, x :: ds = pre ++ d :: post ∧ P pre) ↔
        (x = d ∧ P []) ∨ ∃ pre post, ds = pre ++ d :: post ∧ P (x :: pre) := by
      intro P
      constructor
      · rintro ⟨pre, post, he, hp⟩
        cases pre with
        | nil => simp at he; exact Or.inl ⟨he.1, hp⟩
        | cons y pre => simp at he; obtain ⟨rfl, he⟩ := he; exact Or.inr ⟨pre, post, he, hp⟩
      · rintro (⟨rfl, hp⟩ | ⟨pre, post, rfl, hp⟩)
        · exact ⟨[], ds, rfl, hp⟩
        · exact ⟨x :: pre, post, rfl, hp⟩
    rw [split]
    rw [visibleLoop]
    by_cases hk : x.kind = .Instance
    · rw [if_pos hk]
      by_cases hs : (foreign e x || seen.contains x.ident) = true
      · rw [if_pos hs, ih seen]
        have hs' : Seen e x → x.ident ∈ seen := by
          intro h
          rw [← foreign_iff] at h
          simpa [h] using hs
        constructor
        · rintro ⟨pre, post, he, hv, hd⟩
          refine Or.inr ⟨pre, post, he, hv, fun h => ⟨(hd h).1, (hd h).2.1, ?_⟩⟩
          intro d' hd'
          rcases List.mem_cons.1 hd' with rfl | hd'
          · intro _ hse heq
            exact (hd h).2.1 (heq ▸ hs' hse)
          · exact (hd h).2.2 d' hd'
        · rintro (⟨rfl, hv, hd⟩ | ⟨pre, post, he, hv, hd⟩)
          · exact absurd (hs' (hd hk).1) (hd hk).2.1
          · exact ⟨pre, post, he, hv, fun h => ⟨(hd h).1, (hd h).2.1, fun d' hd' => (hd h).2.2 d' (List.mem_cons_of_mem _ hd')⟩⟩
      · rw [if_neg hs]
        have hse : Seen e x := by rw [← foreign_iff]; simp at hs; exact hs.1
        have hns : x.ident ∉ seen := by simp at hs; exact hs.2
        have rest : d ∈ visibleLoop e ds (x.ident :: seen) ↔ ∃ pre post, ds = pre ++ d :: post ∧ isValid e d = true ∧
            (d.kind = .Instance → Seen e d ∧ d.ident ∉ seen ∧
              ∀ d' ∈ x :: pre, d'.kind = .Instance → Seen e d' → d'.ident ≠ d.ident) := by
          rw [ih]
          constructor
          · rintro ⟨pre, post, he, hv, hd⟩
            refine ⟨pre, post, he, hv, fun h => ?_⟩
            have := hd h
            simp only [List.mem_cons, not_or] at this
            refine ⟨this.1, this.2.1.2, ?_⟩
            intro d' hd'
            rcases List.mem_cons.1 hd' with rfl | hd'
            · intro _ _ heq; exact this.2.1.1 heq.symm
            · exact this.2.2 d' hd'
          · rintro ⟨pre, post, he, hv, hd⟩
            refine ⟨pre, post, he, hv, fun h => ?_⟩
            have := hd h
            refine ⟨this.1, ?_, fun d' hd' => this.2.2 d' (List.mem_cons_of_mem _ hd')⟩
            simp only [List.mem_cons, not_or]
            exact ⟨fun heq => this.2.2 x (by simp) hk hse heq.symm, this.2.1⟩
        split
        · rw [List.mem_cons, rest]
          refine or_congr ⟨?_, ?_⟩ Iff.rfl
          · rintro rfl; exact ⟨rfl, ‹_›, fun _ => ⟨hse, hns, by simp⟩⟩
          · rintro ⟨rfl, _⟩; rfl
        · rw [rest]
          constructor
          · exact Or.inr
          · rintro (⟨rfl, hv, _⟩ | h)
            · exact absurd hv ‹_›
            · exact h
    · rw [if_neg hk]
      have rest : d ∈ visibleLoop e ds seen ↔ ∃ pre post, ds = pre ++ d :: post ∧ isValid e d = true ∧
          (d.kind = .Instance → Seen e d ∧ d.ident ∉ seen ∧
            ∀ d' ∈ x :: pre, d'.kind = .Instance → Seen e d' → d'.ident ≠ d.ident) := by
        rw [ih]
        constructor
        · rintro ⟨pre, post, he, hv, hd⟩
          refine ⟨pre, post, he, hv, fun h => ⟨(hd h).1, (hd h).2.1, ?_⟩⟩
          intro d' hd'
          rcases List.mem_cons.1 hd' with rfl | hd'
          · intro h; exact absurd h hk
          · exact (hd h).2.2 d' hd'
        · rintro ⟨pre, post, he, hv, hd⟩
          exact ⟨pre, post, he, hv, fun h => ⟨(hd h).1, (hd h).2.1, fun d' hd' => (hd h).2.2 d' (List.mem_cons_of_mem _ hd')⟩⟩
      split
      · rw [List.mem_cons, rest]
        refine or_congr ⟨?_, ?_⟩ Iff.rfl
        · rintro rfl; exact ⟨rfl, ‹_›, fun h => absurd h hk⟩
        · rintro ⟨rfl, _⟩; rfl
      · rw [rest]
        constructor
        · exact Or.inr
        · rintro (⟨rfl, hv, _⟩ | h)
          · exact absurd hv ‹_›
          · exact h

/-- **C48 (visible declarations).** For every kind of completion and all declarations visible at the cursor, in their order:
exactly the valid ones are offered, and of the instances with one name only the last one that can be seen. -/
theorem visible_iff (e : Env) (all : List Dec) (d : Dec) :
    d ∈ visible e all ↔ ∃ pre post, all = pre ++ d :: post ∧ Offered e d post := by
  unfold visible Offered
  rw [visibleLoop_iff]
  constructor
  · rintro ⟨pre, post, he, hv, hd⟩
    refine ⟨post.reverse, pre.reverse, ?_, hv, fun h => ⟨(hd h).1, ?_⟩⟩
    · have := congrArg List.reverse he
      simpa using this
    · intro d' hd'
      exact (hd h).2.2 d' (List.mem_reverse.1 hd')
  · rintro ⟨pre, post, rfl, hv, hd⟩
    refine ⟨post.reverse, pre.reverse, by simp, hv, fun h => ⟨(hd h).1, by simp, ?_⟩⟩
    intro d' hd'
    exact (hd h).2 d' (List.mem_reverse.1 hd')

/-- A local variable hides the variable of the same name of an imported context; a variable of a context that is not imported
is not offered. -/
example : visible ⟨.NoMemberAccess, [], none, 0, none, fun c => c == 1⟩
    [⟨.Instance, 1, false, 1, false, none, none, 1, false, false, false, false, some false⟩,
     ⟨.Instance, 2, false, 2, false, none, none, 1, false, false, false, false, some false⟩,
     ⟨.Instance, 3, false, 3, false, none, none, 2, false, false, false, false, some false⟩,
     ⟨.Instance, 4, false, 1, false, none, none, 0, false, false, false, false, some false⟩] =
    [⟨.Instance, 4, false, 1, false, none, none, 0, false, false, false, false, some false⟩,
     ⟨.Instance, 2, false, 2, false, none, none, 1, false, false, false, false, some false⟩] := by decide

/-- A final class, an interface, an ancestor and a usable class; only the last one is offered after `extends`. -/
example : visible ⟨.ClassExtendsChoose, [1], none, 0, none, fun _ => false⟩
    [⟨.Type, 1, false, 1, false, some ⟨.Class, false, false, false⟩, none, 0, false, false, false, false, none⟩,
     ⟨.Type, 2, false, 2, false, some ⟨.Class, false, true, false⟩, none, 0, false, false, false, false, none⟩,
     ⟨.Type, 3, false, 3, false, some ⟨.Interface, false, false, false⟩, none, 0, false, false, false, false, none⟩,
     ⟨.Type, 4, false, 4, false, some ⟨.Class, true, false, false⟩, none, 0, false, false, false, false, none⟩] =
    [⟨.Type, 4, false, 4, false, some ⟨.Class, true, false, false⟩, none, 0, false, false, false, false, none⟩] := by decide

end KPhp.Completion.Forbid
