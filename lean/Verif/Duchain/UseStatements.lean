import Verif.Duchain.Names
import Verif.Duchain.Members
/-!
# What `use` imports (C72)

Models `DeclarationBuilder::visitUseStatement`, `visitUseNamespaceOrUseGroupedNamespace` and
`visitNonGroupedUseNamespace` (duchain/builders/declarationbuilder.cpp:1598-1686) with `identifierPairForNode`
(duchain/builders/contextbuilder.cpp:190-202), over the lookup of `Names.lean`.

Trusted platform behaviour: an `AliasDeclaration` is seen by lookups as the declaration it stands for, a
`NamespaceAliasDeclaration` is no class, function or constant; declaring one of them changes nothing for other names of
the same scope (`Declares.Lawful`).  Simplified: the texts of the problems are constructors with their arguments; the ranges
of the declarations are left out.
-/
namespace KPhp.UseStatements
open Names

/-- What the statement imports (declarationbuilder.cpp:1600-1611). -/
inductive Kind
  | plain | function | const
deriving DecidableEq, Repr

/-- `m_useNamespaceType` (declarationbuilder.cpp:1600-1611). -/
def Kind.ty : Kind → DeclType
  | .function => .function
  | .const => .constant
  | .plain => .klass

/-- `UseNamespaceOrUseGroupedNamespaceAst`: the name, the name behind `as`, and whether a group `{…}` follows. -/
structure Item where
  name : NameAst
  as : Option QString
  grouped : Bool
deriving DecidableEq, Repr

/-- What the check for a conflict reads from a declaration (declarationbuilder.cpp:1653-1655): the scope it is declared in, whether that is in the
file at hand, its identifier. -/
structure Info where
  scopeId : List QString
  ownFile : Bool
  ident : QString
deriving DecidableEq, Repr

/-- Where the statement stands: the contexts, innermost first, and the declarations there are. -/
structure Place where
  ctx : List Scope
  info : Decl → Info

/-- `currentContext()->type() == DUContext::Namespace`. -/
def Place.inNamespace (w : Place) : Bool :=
  match w.ctx with
  | s :: _ => s.kind == .namespace
  | [] => false

/-- `currentContext()->scopeIdentifier()`. -/
def Place.scopeId (w : Place) : List QString :=
  match w.ctx with
  | s :: _ => s.scopeId
  | [] => []

/-- What is declared: an `AliasDeclaration` or a `NamespaceAliasDeclaration` with the name to import and the pretty name. -/
inductive Bound
  | decl (name : QString) (target : Decl)
  | namespace (name : QString) (imported : List QString) (pretty : QString)
deriving DecidableEq, Repr

/-- What is reported. -/
inductive Report
  /-- "The use statement with non-compound name … has no effect." -/
  | noEffect (name : QString)
  /-- "Cannot use … as … because the name is already in use." -/
  | inUse (imported name : QString)
  /-- "Cannot use … as … because … is a special class name" -/
  | special (as : QString)
deriving DecidableEq, Repr

structure Out where
  bound : List Bound
  reports : List Report
deriving DecidableEq, Repr

/-- `identifierPairForNode(idNode, isConstIdentifier).second` (contextbuilder.cpp:190-202). -/
def pairSecond (u : CharClass) (isConst : Bool) (n : QString) : QString :=
  if isConst then n else lowerStr u n

/-- The reports about the alias, behind everything else (declarationbuilder.cpp:1679-1685). -/
def aliasReports (u : CharClass) : Option QString → List Report
  | some a => if Members.isReservedClassName u a then [.special a] else []
  | none => []

/-- The two lookups of the name (declarationbuilder.cpp:1641-1646). -/
def target (fm : Bool) (env : Env) (ctx : List Scope) (qid : QId) (ty : DeclType) : Option Decl :=
  match findDeclaration fm env ctx qid ty with
  | some d => some d
  | none => if qid.global then none else findDeclaration fm env ctx { qid with global := true } ty

/-- The check for a conflict (declarationbuilder.cpp:1651-1655). -/
def conflicts (w : Place) (n : QString) : Option Decl → Bool
  | some d => (w.info d).scopeId == w.scopeId && (w.info d).ownFile && (w.info d).ident == n
  | none => false

/-- Everything behind the first check (declarationbuilder.cpp:1634-1685), for the name `n` to be bound. -/
def importAs (u : CharClass) (fm : Bool) (w : Place) (env : Env) (k : Kind) (it : Item) (n : QString) : Out :=
  let isConst := k == .const
  let second := pairSecond u isConst n
  let qid := identifierForNamespace u it.name isConst
  match target fm env w.ctx qid k.ty with
  | some d =>
    if conflicts w second (findDeclaration fm env w.ctx ⟨false, [second]⟩ k.ty) then
      ⟨[], [.inUse (w.info d).ident second]⟩
    else ⟨[.decl second d], aliasReports u it.as⟩
  | none => ⟨[.namespace second qid.parts n], aliasReports u it.as⟩

/-- The last of the names: `namespaceNameSequence->back()`; the sequence is never empty. -/
def lastName : List QString → QString
  | [] => []
  | [n] => n
  | _ :: ns => lastName ns

/-- `visitNonGroupedUseNamespace` (declarationbuilder.cpp:1623-1686). -/
def nonGrouped (u : CharClass) (fm : Bool) (w : Place) (env : Env) (k : Kind) (it : Item) : Out :=
  if !w.inNamespace && it.as.isNone && it.name.names.length == 1 then
    ⟨[], [.noEffect (lastName it.name.names)]⟩
  else importAs u fm w env k it (it.as.getD (lastName it.name.names))

/-- `visitUseNamespaceOrUseGroupedNamespace` (declarationbuilder.cpp:1614-1621): the names of a group are not declared. -/
def visitItem (u : CharClass) (fm : Bool) (w : Place) (env : Env) (k : Kind) (it : Item) : Out :=
  if it.grouped then ⟨[], []⟩ else nonGrouped u fm w env k it

/-- What a declaration does to later lookups: trusted, see `Declares.Lawful`. -/
abbrev Declares := List QString → Bound → Env → Env

/-- The items of a statement, and of several, in order (declarationbuilder.cpp:1612): every one sees what was declared before. -/
def run (u : CharClass) (fm : Bool) (w : Place) (decl : Declares) : Env → List (Kind × Item) → Env × Out
  | env, [] => (env, ⟨[], []⟩)
  | env, (k, it) :: rest =>
    let o := visitItem u fm w env k it
    let r := run u fm w decl (o.bound.foldl (fun e b => decl w.scopeId b e) env) rest
    (r.1, ⟨o.bound ++ r.2.bound, o.reports ++ r.2.reports⟩)

/-! ### Specification -/

/-- The declaration a name means to the lookup (see C26). -/
def Means (env : Env) (ctx : List Scope) (id : QId) (ty : DeclType) (r : Option Decl) : Prop :=
  ∃ ps l, Denotes ctx id ps ∧ Candidates env ps ty l ∧ FirstOf l ty r

/-- The name as it is stored: letter by letter in lower case; only the last part of a constant is kept. -/
def Stored (u : CharClass) (k : Kind) (written stored : List QString) : Prop :=
  ∃ pre last last', written = pre ++ [last] ∧ stored = pre.map (·.map u.toLower) ++ [last'] ∧
    (k = .const → last' = last) ∧ (k ≠ .const → last' = last.map u.toLower)

/-- The name the import gets in this scope: the one behind `as`, else the last part of the imported name. -/
inductive Called : Item → QString → Prop
  | as {it n} : it.as = some n → Called it n
  | last {it n pre} : it.as = none → it.name.names = pre ++ [n] → Called it n

/-- The imported declaration: what the name means from here, and, if it means nothing and has no leading `\`, what it means from the
outermost namespace. -/
def Imported (u : CharClass) (env : Env) (ctx : List Scope) (k : Kind) (it : Item) (r : Option Decl) : Prop :=
  ∃ ps, Stored u k it.name.names ps ∧
    ((∃ d, r = some d ∧ Means env ctx ⟨it.name.isGlobal, ps⟩ k.ty (some d)) ∨
     (Means env ctx ⟨it.name.isGlobal, ps⟩ k.ty none ∧ Means env ctx ⟨true, ps⟩ k.ty r))

/-- The statement has no effect in PHP: outside of namespaces, it binds a global name to itself. -/
def NoEffect (w : Place) (it : Item) : Prop :=
  (∀ s rest, w.ctx = s :: rest → s.kind ≠ .namespace) ∧ it.as = none ∧ ∃ n, it.name.names = [n]

/-- The name is taken: it means a declaration of that name written in this very scope of this file. -/
def Taken (w : Place) (env : Env) (k : Kind) (n : QString) : Prop :=
  ∃ d, Means env w.ctx ⟨false, [n]⟩ k.ty (some d) ∧ w.info d = ⟨w.scopeId, true, n⟩

/-- None of `self`, `static` and `parent` is imported or bound (PHP forbids it; they mean something else to the lookup, see C26). -/
def Ordinary (u : CharClass) (it : Item) : Prop :=
  (∀ n, Called it n → n.map u.toLower ≠ q! "self" ∧ n.map u.toLower ≠ q! "static" ∧ n.map u.toLower ≠ q! "parent") ∧
  (∀ n, it.name.names = [n] → n.map u.toLower ≠ q! "self" ∧ n.map u.toLower ≠ q! "static" ∧ n.map u.toLower ≠ q! "parent")

/-- A name in the source: the grammar wants at least one part, and no group. -/
structure Single (it : Item) : Prop where
  names : it.name.names ≠ []
  single : it.grouped = false

/-! ### Lemmas -/

theorem denotes_unique {ctx : List Scope} {id : QId} {a b : List QString} (ha : Denotes ctx id a) (hb : Denotes ctx id b) : a = b := by
  rw [← denotes_eq ha, ← denotes_eq hb]

theorem candidates_unique {env : Env} {ps : List QString} {ty : DeclType} {a b : List Decl}
    (ha : Candidates env ps ty a) (hb : Candidates env ps ty b) : a = b := by
  cases ha with
  | visible h =>
    cases hb with
    | visible => rfl
    | all _ h1 h2 _ => rcases h with h | h <;> simp_all
  | all o h1 h2 h3 =>
    cases hb with
    | visible h => rcases h with h | h <;> simp_all
    | all o' _ _ h3' => rw [fromPhp_iff.1 h3, fromPhp_iff.1 h3']

theorem firstOf_find_iff {l : List Decl} {ty : DeclType} {r : Option Decl} : FirstOf l ty r ↔ r = l.find? (fun d => isMatch d ty) := by
  constructor
  · intro h
    cases r with
    | none =>
      symm; rw [List.find?_eq_none]
      intro x hx hm; exact h x hx ((isMatch_iff x ty).1 hm)
    | some d =>
      obtain ⟨pre, post, rfl, hk, hp⟩ := h
      symm; rw [List.find?_eq_some_iff_append]
      refine ⟨(isMatch_iff d ty).2 hk, pre, post, rfl, fun x hx => ?_⟩
      simpa using fun hm => hp x hx ((isMatch_iff x ty).1 hm)
  · rintro rfl; exact firstOf_find l ty

theorem firstOf_unique {l : List Decl} {ty : DeclType} {a b : Option Decl} (ha : FirstOf l ty a) (hb : FirstOf l ty b) : a = b := by
  rw [firstOf_find_iff.1 ha, firstOf_find_iff.1 hb]

/-- The lookup finds what the name means. -/
theorem means_iff {fm : Bool} {env : Env} {ctx : List Scope} {id : QId} {ty : DeclType} {r : Option Decl}
    (h : ty ≠ .klass ∨ ¬ selfLike id) : Means env ctx id ty r ↔ findDeclaration fm env ctx id ty = r := by
  constructor
  · rintro ⟨ps, l, h1, h2, h3⟩
    exact firstOf_unique (lookup_first fm env ctx id ty h ps l h1 h2) h3
  · rintro rfl
    obtain ⟨ps, hp⟩ := denotes_total ctx id
    obtain ⟨l, hl⟩ := candidates_total env ps ty
    exact ⟨ps, l, hp, hl, lookup_first fm env ctx id ty h ps l hp hl⟩

theorem kind_ty_klass {k : Kind} : k.ty = .klass ↔ k = .plain := by cases k <;> simp [Kind.ty]

theorem stored_iff {u : CharClass} {k : Kind} {g : Bool} {ns ps : List QString} (h : ns ≠ []) :
    Stored u k ns ps ↔ (identifierForNamespace u ⟨g, ns⟩ (k == .const)).parts = ps := by
  obtain ⟨pre, last, rfl⟩ : ∃ pre last, ns = pre ++ [last] := ⟨ns.dropLast, ns.getLast h, (List.dropLast_concat_getLast h).symm⟩
  have hl : (fun n => lowerStr u n) = fun n : QString => n.map u.toLower := by funext n; rfl
  constructor
  · rintro ⟨pre', l, l', h1, h2, h3, h4⟩
    have h5 := List.append_inj' h1 rfl
    obtain ⟨rfl, h6⟩ := h5
    simp only [List.cons.injEq, and_true] at h6; subst h6
    by_cases hk : k = .const
    · subst hk
      simp only [beq_self_eq_true, constant_name, h2, h3 rfl]; rfl
    · have : (k == Kind.const) = false := by simpa using hk
      simp only [this, plain_name, h2, h4 hk, List.map_append, List.map_cons, List.map_nil]; rfl
  · rintro rfl
    by_cases hk : k = .const
    · subst hk
      refine ⟨pre, last, last, rfl, ?_, fun _ => rfl, fun h => absurd rfl h⟩
      simp only [beq_self_eq_true, constant_name]; rfl
    · have : (k == Kind.const) = false := by simpa using hk
      refine ⟨pre, last, last.map u.toLower, rfl, ?_, fun h => absurd h hk, fun _ => rfl⟩
      simp only [this, plain_name, List.map_append, List.map_cons, List.map_nil]; rfl

theorem identifierForNamespace_global (u : CharClass) (a : NameAst) (c : Bool) : (identifierForNamespace u a c).global = a.isGlobal := rfl

theorem lastName_append (pre : List QString) (n : QString) : lastName (pre ++ [n]) = n := by
  induction pre with
  | nil => rfl
  | cons x xs ih =>
    cases xs with
    | nil => rfl
    | cons y ys => exact ih

theorem called_iff {it : Item} (h : it.name.names ≠ []) {n : QString} : Called it n ↔ n = it.as.getD (lastName it.name.names) := by
  obtain ⟨pre, last, hl⟩ : ∃ pre last, it.name.names = pre ++ [last] :=
    ⟨_, _, (List.dropLast_concat_getLast h).symm⟩
  constructor
  · intro hc
    cases hc with
    | as h => simp [h]
    | last h h' => simp [h, h', lastName_append]
  · intro hn
    cases ha : it.as with
    | some a => rw [ha] at hn; exact .as (by simpa [ha] using hn.symm)
    | none => rw [ha] at hn; simp only [Option.getD_none, hl, lastName_append] at hn; exact .last ha (hn ▸ hl)

theorem noEffect_iff {w : Place} {it : Item} :
    (!w.inNamespace && it.as.isNone && it.name.names.length == 1) = true ↔ NoEffect w it := by
  unfold NoEffect Place.inNamespace
  simp only [Bool.and_eq_true, Bool.not_eq_true', Option.isNone_iff_eq_none, beq_iff_eq, List.length_eq_one_iff, and_assoc]
  refine and_congr ?_ Iff.rfl
  cases w.ctx with
  | nil => simp
  | cons s rest => simp only [beq_eq_false_iff_ne]; exact ⟨fun h s' r' he => by cases he; exact h, fun h => h s rest rfl⟩

theorem plainName_of_ordinary {u : CharClass} {it : Item} {k : Kind} (ho : Ordinary u it) (g : Bool) :
    k.ty ≠ .klass ∨ ¬ selfLike ⟨g, (identifierForNamespace u it.name (k == .const)).parts⟩ := by
  by_cases hk : k = .plain
  · right
    subst hk
    obtain ⟨⟨isg, ns⟩, as, gr⟩ := it
    intro hs
    have hf : (Kind.plain == Kind.const) = false := by decide
    simp only [selfLike, hf, plain_name] at hs
    have hn : ∀ x, ns.map (lowerStr u) = [x] → ∃ n, ns = [n] ∧ n.map u.toLower = x := by
      intro x hx
      cases ns with
      | nil => simp at hx
      | cons a as => cases as with
        | nil => exact ⟨a, rfl, (List.cons.inj hx).1⟩
        | cons b bs => simp at hx
    rcases hs with hs | hs | hs <;> obtain ⟨n, h1, h2⟩ := hn _ hs
    · exact (ho.2 n h1).1 h2
    · exact (ho.2 n h1).2.1 h2
    · exact (ho.2 n h1).2.2 h2
  · exact Or.inl (fun h => hk (kind_ty_klass.1 h))

theorem plainSecond_of_ordinary {u : CharClass} {it : Item} {k : Kind} {n : QString} (ho : Ordinary u it) (hc : Called it n) :
    k.ty ≠ .klass ∨ ¬ selfLike ⟨false, [pairSecond u (k == .const) n]⟩ := by
  by_cases hk : k = .plain
  · right
    subst hk
    have hf : (Kind.plain == Kind.const) = false := by decide
    have h := ho.1 n hc
    simp only [selfLike, hf, pairSecond, List.cons.injEq, and_true]
    intro hs
    rcases hs with hs | hs | hs
    · exact h.1 hs
    · exact h.2.1 hs
    · exact h.2.2 hs
  · exact Or.inl (fun h => hk (kind_ty_klass.1 h))

theorem imported_iff {u : CharClass} {fm : Bool} {env : Env} {ctx : List Scope} {k : Kind} {it : Item} {r : Option Decl}
    (hs : it.name.names ≠ []) (ho : Ordinary u it) :
    Imported u env ctx k it r ↔ target fm env ctx (identifierForNamespace u it.name (k == .const)) k.ty = r := by
  have hst : ∀ ps, Stored u k it.name.names ps ↔ (identifierForNamespace u it.name (k == .const)).parts = ps := by
    intro ps
    exact stored_iff (g := it.name.isGlobal) hs
  have hid : identifierForNamespace u it.name (k == .const) =
      ⟨it.name.isGlobal, (identifierForNamespace u it.name (k == .const)).parts⟩ := rfl
  have h1 := plainName_of_ordinary (k := k) ho it.name.isGlobal
  have h2 := plainName_of_ordinary (k := k) ho true
  unfold Imported target
  constructor
  · rintro ⟨ps, hp, h⟩
    rw [hst] at hp; subst hp
    rw [hid]
    rcases h with ⟨d, rfl, hm⟩ | ⟨hm, hm'⟩
    · rw [(means_iff (fm := fm) h1).1 hm]
    · rw [(means_iff (fm := fm) h1).1 hm]
      by_cases hg : it.name.isGlobal = true
      · rw [hg] at hm h1
        have := (means_iff (fm := fm) h1).1 hm
        have h3 := (means_iff (fm := fm) h2).1 hm'
        rw [this] at h3
        simp [hg, h3]
      · simp only [hg]
        exact (means_iff (fm := fm) h2).1 hm'
  · intro h
    refine ⟨_, (hst _).2 rfl, ?_⟩
    rw [hid] at h
    cases hf : findDeclaration fm env ctx ⟨it.name.isGlobal, (identifierForNamespace u it.name (k == .const)).parts⟩ k.ty with
    | some d =>
      simp only [hf] at h
      exact Or.inl ⟨d, h.symm, (means_iff h1).2 hf⟩
    | none =>
      simp only [hf] at h
      refine Or.inr ⟨(means_iff h1).2 hf, ?_⟩
      by_cases hg : it.name.isGlobal = true
      · rw [hg] at hf h
        simp only [if_true] at h
        subst h
        exact (means_iff h2).2 hf
      · simp only [hg] at h
        exact (means_iff h2).2 h

theorem taken_iff {u : CharClass} {fm : Bool} {w : Place} {env : Env} {k : Kind} {it : Item} {n : QString} (ho : Ordinary u it)
    (hc : Called it n) :
    conflicts w (pairSecond u (k == .const) n) (findDeclaration fm env w.ctx ⟨false, [pairSecond u (k == .const) n]⟩ k.ty) = true ↔
      Taken w env k (pairSecond u (k == .const) n) := by
  have h := plainSecond_of_ordinary (k := k) ho hc
  unfold Taken conflicts
  constructor
  · intro hx
    cases hf : findDeclaration fm env w.ctx ⟨false, [pairSecond u (k == .const) n]⟩ k.ty with
    | none => simp [hf] at hx
    | some d =>
      simp only [hf, Bool.and_eq_true, beq_iff_eq] at hx
      refine ⟨d, (means_iff h).2 hf, ?_⟩
      obtain ⟨⟨h1, h2⟩, h3⟩ := hx
      cases hi : w.info d
      simp_all
  · rintro ⟨d, hm, hi⟩
    rw [(means_iff (fm := fm) h).1 hm]
    simp [hi]

theorem pairSecond_stored {u : CharClass} {k : Kind} {n m : QString} : Stored u k [n] [m] ↔ pairSecond u (k == .const) n = m := by
  rw [stored_iff (g := false) (by simp)]
  cases k <;> simp [identifierForNamespace, pushNames, pairSecond]


/-- The outcome of one item, in full. -/
theorem visitItem_eq (u : CharClass) (fm : Bool) (w : Place) (env : Env) (k : Kind) (it : Item) (hs : Single it) (ho : Ordinary u it)
    {n m : QString} (hc : Called it n) (hm : Stored u k [n] [m]) :
    (NoEffect w it ∧ visitItem u fm w env k it = ⟨[], [.noEffect n]⟩) ∨
    (¬ NoEffect w it ∧ Taken w env k m ∧ ∃ d, Imported u env w.ctx k it (some d) ∧
      visitItem u fm w env k it = ⟨[], [.inUse (w.info d).ident m]⟩) ∨
    (¬ NoEffect w it ∧ ¬ Taken w env k m ∧ ∃ d, Imported u env w.ctx k it (some d) ∧
      visitItem u fm w env k it = ⟨[.decl m d], aliasReports u it.as⟩) ∨
    (¬ NoEffect w it ∧ Imported u env w.ctx k it none ∧ ∃ ps, Stored u k it.name.names ps ∧
      visitItem u fm w env k it = ⟨[.namespace m ps n], aliasReports u it.as⟩) := by
  have hn := (called_iff hs.names).1 hc
  rw [pairSecond_stored] at hm; subst hm
  unfold visitItem nonGrouped
  rw [hs.single]
  by_cases hne : NoEffect w it
  · left
    refine ⟨hne, ?_⟩
    have : it.as = none := hne.2.1
    rw [this] at hn
    rw [if_neg (by simp), if_pos (noEffect_iff.2 hne), hn]; rfl
  · right
    rw [if_neg (by simp), if_neg (fun h => hne (noEffect_iff.1 h)), ← hn]
    unfold importAs
    cases ht : target fm env w.ctx (identifierForNamespace u it.name (k == .const)) k.ty with
    | none =>
      right; right
      refine ⟨hne, (imported_iff hs.names ho).2 ht, _, (stored_iff (g := it.name.isGlobal) hs.names).2 rfl, ?_⟩
      simp only [ht]
    | some d =>
      have hd := (imported_iff (fm := fm) (env := env) (ctx := w.ctx) hs.names ho).2 ht
      by_cases hx : Taken w env k (pairSecond u (k == .const) n)
      · left
        refine ⟨hne, hx, d, hd, ?_⟩
        simp only [ht, (taken_iff (fm := fm) ho hc).2 hx, if_true]
      · right; left
        refine ⟨hne, hx, d, hd, ?_⟩
        have : conflicts w (pairSecond u (k == .const) n)
            (findDeclaration fm env w.ctx ⟨false, [pairSecond u (k == .const) n]⟩ k.ty) = false := by
          cases hb : conflicts w (pairSecond u (k == .const) n) (findDeclaration fm env w.ctx ⟨false, [pairSecond u (k == .const) n]⟩ k.ty) with
          | false => rfl
          | true => exact absurd ((taken_iff (fm := fm) ho hc).1 hb) hx
        simp only [ht, this]
        rfl

theorem means_unique {env : Env} {ctx : List Scope} {id : QId} {ty : DeclType} {a b : Option Decl}
    (ha : Means env ctx id ty a) (hb : Means env ctx id ty b) : a = b := by
  obtain ⟨ps, l, h1, h2, h3⟩ := ha
  obtain ⟨ps', l', h1', h2', h3'⟩ := hb
  have := denotes_unique h1 h1'; subst this
  have := candidates_unique h2 h2'; subst this
  exact firstOf_unique h3 h3'

theorem stored_unique {u : CharClass} {k : Kind} {ns a b : List QString} (ha : Stored u k ns a) (hb : Stored u k ns b) : a = b := by
  have hne : ns ≠ [] := by obtain ⟨pre, l, _, rfl, _⟩ := ha; simp
  rw [← (stored_iff (g := false) hne).1 ha, ← (stored_iff (g := false) hne).1 hb]

/-! ### C72 -/

/-- **C72.**  An import is of one declaration at most. -/
theorem imported_unique {u : CharClass} {env : Env} {ctx : List Scope} {k : Kind} {it : Item} {a b : Option Decl}
    (ha : Imported u env ctx k it a) (hb : Imported u env ctx k it b) : a = b := by
  obtain ⟨ps, hs, ha⟩ := ha
  obtain ⟨ps', hs', hb⟩ := hb
  have := stored_unique hs hs'; subst this
  rcases ha with ⟨d, rfl, ha⟩ | ⟨ha, ha'⟩ <;> rcases hb with ⟨d', rfl, hb⟩ | ⟨hb, hb'⟩
  · exact means_unique ha hb
  · exact absurd (means_unique ha hb) (by simp)
  · exact absurd (means_unique ha hb) (by simp)
  · exact means_unique ha' hb'

theorem aliasReports_mem {u : CharClass} {o : Option QString} {r : Report} :
    r ∈ aliasReports u o ↔ ∃ a, o = some a ∧ Members.isReservedClassName u a = true ∧ r = .special a := by
  cases o with
  | none => simp [aliasReports]
  | some a =>
    by_cases h : Members.isReservedClassName u a = true <;> simp [aliasReports, h]

section
variable (u : CharClass) (fm : Bool) (w : Place) (env : Env) (k : Kind) (it : Item) (hs : Single it) (ho : Ordinary u it)
include hs ho

/-- **C72.**  "No effect" is reported exactly for a name of one part, without `as`, outside of namespaces. -/
theorem no_effect_iff (x : QString) :
    .noEffect x ∈ (visitItem u fm w env k it).reports ↔ NoEffect w it ∧ it.name.names = [x] := by
  obtain ⟨n, hc⟩ : ∃ n, Called it n := ⟨_, (called_iff hs.names).2 rfl⟩
  have hx : NoEffect w it → (it.name.names = [x] ↔ x = n) := by
    rintro ⟨_, h1, y, h2⟩
    cases hc with
    | as h => simp [h1] at h
    | last h3 h4 =>
      rename_i pre
      rw [h2] at h4
      have := List.append_inj' (s₁ := []) (t₁ := [y]) h4 rfl
      simp only [List.cons.injEq, and_true] at this
      rw [h2, this.2]
      simp [eq_comm]
  rcases visitItem_eq u fm w env k it hs ho hc (pairSecond_stored.2 rfl) with ⟨h, he⟩ | ⟨h, _, d, _, he⟩ | ⟨h, _, d, _, he⟩ | ⟨h, _, ps, _, he⟩ <;> rw [he]
  · simp [h, hx h]
  · simp [h]
  · simp [h, aliasReports_mem]
  · simp [h, aliasReports_mem]

variable {n m : QString} (hc : Called it n) (hm : Stored u k [n] [m])
include hc hm

/-- **C72.**  "Already in use" is reported exactly when the imported declaration exists and its name here means a declaration of this
scope. -/
theorem in_use_iff (a b : QString) :
    .inUse a b ∈ (visitItem u fm w env k it).reports ↔
      ¬ NoEffect w it ∧ b = m ∧ Taken w env k m ∧ ∃ d, Imported u env w.ctx k it (some d) ∧ a = (w.info d).ident := by
  rcases visitItem_eq u fm w env k it hs ho hc hm with ⟨h, he⟩ | ⟨h, ht, d, hd, he⟩ | ⟨h, ht, d, _, he⟩ | ⟨h, hi, ps, _, he⟩ <;> rw [he]
  · simp [h]
  · simp only [List.mem_singleton, Report.inUse.injEq, h, not_false_eq_true, ht, true_and]
    constructor
    · rintro ⟨h1, h2⟩; exact ⟨h2, d, hd, h1⟩
    · rintro ⟨h2, d', hd', h1⟩
      have := imported_unique hd hd'
      simp only [Option.some.injEq] at this; subst this
      exact ⟨h1, h2⟩
  · simp [ht, aliasReports_mem]
  · simp only [aliasReports_mem, reduceCtorEq, and_false, exists_false, false_iff, not_and, not_exists]
    intro _ _ _ d hd
    exact absurd (imported_unique hi hd) (by simp)

/-- **C72.**  A declaration is bound exactly when it is the imported one, to the name behind `as` or the last part of its name. -/
theorem declaration_bound_iff (x : QString) (d : Decl) :
    .decl x d ∈ (visitItem u fm w env k it).bound ↔
      ¬ NoEffect w it ∧ x = m ∧ Imported u env w.ctx k it (some d) ∧ ¬ Taken w env k m := by
  rcases visitItem_eq u fm w env k it hs ho hc hm with ⟨h, he⟩ | ⟨h, ht, d', hd, he⟩ | ⟨h, ht, d', hd, he⟩ | ⟨h, hi, ps, _, he⟩ <;> rw [he]
  · simp [h]
  · simp [ht]
  · simp only [List.mem_singleton, Bound.decl.injEq, h, not_false_eq_true, ht, and_true, true_and]
    constructor
    · rintro ⟨h1, rfl⟩; exact ⟨h1, hd⟩
    · rintro ⟨h1, h2⟩
      have := imported_unique hd h2
      simp only [Option.some.injEq] at this
      exact ⟨h1, this.symm⟩
  · simp only [List.mem_singleton, reduceCtorEq, false_iff, not_and]
    intro _ _ hd
    exact absurd (imported_unique hi hd) (by simp)

/-- **C72.**  The name is bound to a namespace exactly when the name means no declaration of the kind asked for: to the whole name, as
stored. -/
theorem namespace_bound_iff (x p : QString) (ps : List QString) :
    .namespace x ps p ∈ (visitItem u fm w env k it).bound ↔
      ¬ NoEffect w it ∧ x = m ∧ p = n ∧ Stored u k it.name.names ps ∧ Imported u env w.ctx k it none := by
  rcases visitItem_eq u fm w env k it hs ho hc hm with ⟨h, he⟩ | ⟨h, ht, d', hd, he⟩ | ⟨h, ht, d', hd, he⟩ | ⟨h, hi, ps', hp, he⟩ <;> rw [he]
  · simp [h]
  · simp only [List.not_mem_nil, false_iff, not_and]
    intro _ _ _ _ hi; exact absurd (imported_unique hi hd) (by simp)
  · simp only [List.mem_singleton, reduceCtorEq, false_iff, not_and]
    intro _ _ _ _ hi; exact absurd (imported_unique hi hd) (by simp)
  · simp only [List.mem_singleton, Bound.namespace.injEq, h, not_false_eq_true, hi, and_true, true_and]
    constructor
    · rintro ⟨h1, rfl, h2⟩; exact ⟨h1, h2, hp⟩
    · rintro ⟨h1, h2, h3⟩; exact ⟨h1, stored_unique h3 hp, h2⟩

/-- **C72.**  Every import binds exactly one name, or is rejected with exactly one report. -/
theorem bound_or_rejected :
    ((visitItem u fm w env k it).bound.length = 1 ∧ ∀ r ∈ (visitItem u fm w env k it).reports, ∃ a, r = .special a) ∨
    ((visitItem u fm w env k it).bound = [] ∧ (visitItem u fm w env k it).reports.length = 1 ∧
      ∀ r ∈ (visitItem u fm w env k it).reports, ∀ a, r ≠ .special a) := by
  rcases visitItem_eq u fm w env k it hs ho hc hm with ⟨h, he⟩ | ⟨h, ht, d', hd, he⟩ | ⟨h, ht, d', hd, he⟩ | ⟨h, hi, ps', hp, he⟩ <;> rw [he]
  · right; simp
  · right; simp
  · left
    refine ⟨rfl, fun r hr => ?_⟩
    obtain ⟨a, _, _, h⟩ := aliasReports_mem.1 hr
    exact ⟨a, h⟩
  · left
    refine ⟨rfl, fun r hr => ?_⟩
    obtain ⟨a, _, _, h⟩ := aliasReports_mem.1 hr
    exact ⟨a, h⟩

omit hc hm in
/-- **C72.**  A reserved name behind `as` is reported, in any letter case, if the import is not rejected anyway. -/
theorem special_iff (hu : u.Lawful) (a : QString) (ha : ∀ c ∈ a, c < 128) :
    .special a ∈ (visitItem u fm w env k it).reports ↔
      it.as = some a ∧ (visitItem u fm w env k it).bound ≠ [] ∧
      ∃ r ∈ [q! "string", q! "bool", q! "int", q! "float", q! "iterable", q! "object", q! "null", q! "true", q! "false"],
        SameIgnoringCase a r := by
  have hr := Members.reserved_ascii_iff u hu a ha
  obtain ⟨n, hc⟩ : ∃ n, Called it n := ⟨_, (called_iff hs.names).2 rfl⟩
  have hmem : ∀ o, Report.special a ∈ aliasReports u o ↔ o = some a ∧ Members.isReservedClassName u a = true := by
    intro o
    rw [aliasReports_mem]
    constructor
    · rintro ⟨b, rfl, h, he⟩; cases he; exact ⟨rfl, h⟩
    · rintro ⟨h, h'⟩; exact ⟨a, h, h', rfl⟩
  rcases visitItem_eq u fm w env k it hs ho hc (pairSecond_stored.2 rfl) with ⟨h, he⟩ | ⟨h, ht, d', hd, he⟩ | ⟨h, ht, d', hd, he⟩ | ⟨h, hi, ps', hp, he⟩ <;> rw [he]
  · simp
  · simp
  · simp only [hmem, hr]; simp [Members.reserved]
  · simp only [hmem, hr]; simp [Members.reserved]

end


/-- **C72.**  The names of a group are not declared (and never reported): an import by `use a\{b, c}` is unknown to the rest of the file. -/
theorem group_ignored (u : CharClass) (fm : Bool) (w : Place) (env : Env) (k : Kind) (it : Item) (h : it.grouped = true) :
    visitItem u fm w env k it = ⟨[], []⟩ := by
  simp [visitItem, h]

/-! ### After the statements -/

/-- What is trusted of the platform about a declaration in the scope `sc`: an alias adds the declaration it stands for to those of its own name
and changes nothing for other names of the scope; a namespace alias adds no class, function or constant. -/
structure Declares.Lawful (decl : Declares) : Prop where
  internal : ∀ sc b e, (decl sc b e).internalFile = e.internalFile
  pst : ∀ sc b e, (decl sc b e).pst = e.pst
  own : ∀ sc n d e x, x ∈ (decl sc (.decl n d) e).topFind (sc ++ [n]) ↔ x = d ∨ x ∈ e.topFind (sc ++ [n])
  other : ∀ sc n d e m, m ≠ n → (decl sc (.decl n d) e).topFind (sc ++ [m]) = e.topFind (sc ++ [m])
  nsAlias : ∀ sc n ps p e m x, IsKind x .klass ∨ IsKind x .function ∨ IsKind x .constant →
    (x ∈ (decl sc (.namespace n ps p) e).topFind (sc ++ [m]) ↔ x ∈ e.topFind (sc ++ [m]))

/-- The statements stand directly in a namespace, or outside of all of them. -/
def AtNamespaceLevel (w : Place) : Prop :=
  ∃ s rest, w.ctx = s :: rest ∧ (s.kind = .namespace ∨ (s.scopeId = [] ∧ ∀ x ∈ w.ctx, x.kind ≠ .namespace))

theorem denotes_here {w : Place} (h : AtNamespaceLevel w) (n : QString) : Denotes w.ctx ⟨false, [n]⟩ (w.scopeId ++ [n]) := by
  obtain ⟨s, rest, hw, h⟩ := h
  unfold Place.scopeId
  rw [hw] at h ⊢
  rcases h with h | ⟨h1, h2⟩
  · exact .relative [n] [] rest s rfl (by simp) h
  · show Denotes (s :: rest) ⟨false, [n]⟩ (s.scopeId ++ [n])
    rw [h1]; exact .toplevel [n] h2

theorem visible_decl {decl : Declares} (hl : decl.Lawful) (sc : List QString) (m : QString) (x : Decl)
    (hx : IsKind x .klass ∨ IsKind x .function ∨ IsKind x .constant) (b : Bound) (e : Env) :
    x ∈ (decl sc b e).topFind (sc ++ [m]) ↔ b = .decl m x ∨ x ∈ e.topFind (sc ++ [m]) := by
  cases b with
  | decl n d =>
    by_cases hm : m = n
    · subst hm
      rw [hl.own]
      simp [eq_comm]
    · rw [hl.other _ _ _ _ _ hm]
      simp [Ne.symm hm]
  | «namespace» n ps p =>
    rw [hl.nsAlias _ _ _ _ _ _ _ hx]
    simp

theorem visible_fold {decl : Declares} (hl : decl.Lawful) (sc : List QString) (m : QString) (x : Decl)
    (hx : IsKind x .klass ∨ IsKind x .function ∨ IsKind x .constant) : ∀ (bs : List Bound) (e : Env),
    x ∈ (bs.foldl (fun e b => decl sc b e) e).topFind (sc ++ [m]) ↔ .decl m x ∈ bs ∨ x ∈ e.topFind (sc ++ [m])
  | [], e => by simp
  | b :: bs, e => by
    rw [List.foldl_cons, visible_fold hl sc m x hx bs, visible_decl hl sc m x hx]
    simp only [List.mem_cons]
    constructor
    · rintro (h | h | h)
      · exact Or.inl (Or.inr h)
      · exact Or.inl (Or.inl h.symm)
      · exact Or.inr h
    · rintro ((h | h) | h)
      · exact Or.inr (Or.inl h.symm)
      · exact Or.inl h
      · exact Or.inr (Or.inr h)

theorem fold_rest {decl : Declares} (hl : decl.Lawful) (sc : List QString) : ∀ (bs : List Bound) (e : Env),
    (bs.foldl (fun e b => decl sc b e) e).internalFile = e.internalFile ∧ (bs.foldl (fun e b => decl sc b e) e).pst = e.pst
  | [], e => by simp
  | b :: bs, e => by
    rw [List.foldl_cons, (fold_rest hl sc bs _).1, (fold_rest hl sc bs _).2, hl.internal, hl.pst]
    exact ⟨rfl, rfl⟩

/-- **C72.**  Behind any sequence of imports, exactly the declarations bound by them have become visible under their new names, whatever their
order; what the scope had already stays visible. -/
theorem visible_after (u : CharClass) (fm : Bool) (w : Place) {decl : Declares} (hl : decl.Lawful) (m : QString) (x : Decl)
    (hx : IsKind x .klass ∨ IsKind x .function ∨ IsKind x .constant) : ∀ (its : List (Kind × Item)) (env : Env),
    x ∈ (run u fm w decl env its).1.topFind (w.scopeId ++ [m]) ↔
      .decl m x ∈ (run u fm w decl env its).2.bound ∨ x ∈ env.topFind (w.scopeId ++ [m])
  | [], env => by simp [run]
  | (k, it) :: its, env => by
    simp only [run]
    rw [visible_after u fm w hl m x hx its, visible_fold hl _ m x hx, List.mem_append]
    constructor
    · rintro (h | h | h)
      · exact Or.inl (Or.inr h)
      · exact Or.inl (Or.inl h)
      · exact Or.inr h
    · rintro ((h | h) | h)
      · exact Or.inr (Or.inl h)
      · exact Or.inl h
      · exact Or.inr (Or.inr h)

theorem run_rest (u : CharClass) (fm : Bool) (w : Place) {decl : Declares} (hl : decl.Lawful) : ∀ (its : List (Kind × Item)) (env : Env),
    (run u fm w decl env its).1.internalFile = env.internalFile ∧ (run u fm w decl env its).1.pst = env.pst
  | [], env => by simp [run]
  | (k, it) :: its, env => by
    simp only [run]
    rw [(run_rest u fm w hl its _).1, (run_rest u fm w hl its _).2]
    exact fold_rest hl _ _ _

theorem means_only {env : Env} {ctx : List Scope} {id : QId} {ty : DeclType} {ps : List QString} {d : Decl} (hp : Denotes ctx id ps)
    (hd : d ∈ env.topFind ps) (hk : IsKind d ty) (h : ∀ x ∈ env.topFind ps, IsKind x ty → x = d) : Means env ctx id ty (some d) := by
  have h0 : FirstOf (env.topFind ps) ty (some d) := by
    have := firstOf_find (env.topFind ps) ty
    cases hf : (env.topFind ps).find? (fun d => isMatch d ty) with
    | none => rw [hf] at this; exact absurd hk (this d hd)
    | some y =>
      rw [hf] at this
      obtain ⟨pre, post, he, hy, _⟩ := (show _ from this)
      have hyd : y = d := h y (by rw [he]; simp) hy
      rw [hyd] at this; exact this
  obtain ⟨l, hl⟩ := candidates_total env ps ty
  refine ⟨ps, l, hp, hl, ?_⟩
  cases hl with
  | visible _ => exact h0
  | all others _ _ _ =>
    obtain ⟨pre, post, he, hy, hn⟩ := h0
    exact ⟨pre, post ++ others, by rw [he]; simp, hy, hn⟩

/-- **C72.**  Behind any sequence of imports the lookup of a name (class, function or constant, in its own kind) finds the declaration bound to it, provided it is the only
one of its kind: one import binds it and the scope had none. -/
theorem found_after (u : CharClass) (fm : Bool) (w : Place) {decl : Declares} (hl : decl.Lawful) (hw : AtNamespaceLevel w) (k : Kind)
    (its : List (Kind × Item)) (env : Env) (m : QString) (d : Decl)
    (hm : m ≠ q! "self" ∧ m ≠ q! "static" ∧ m ≠ q! "parent") (hk : IsKind d k.ty)
    (hb : .decl m d ∈ (run u fm w decl env its).2.bound)
    (h1 : ∀ x, .decl m x ∈ (run u fm w decl env its).2.bound → IsKind x k.ty → x = d)
    (h2 : ∀ x ∈ env.topFind (w.scopeId ++ [m]), IsKind x k.ty → x = d) :
    findDeclaration fm (run u fm w decl env its).1 w.ctx ⟨false, [m]⟩ k.ty = some d := by
  have hty : ∀ x, IsKind x k.ty → IsKind x .klass ∨ IsKind x .function ∨ IsKind x .constant := by
    intro x hx
    cases k
    · exact Or.inl hx
    · exact Or.inr (Or.inl hx)
    · exact Or.inr (Or.inr hx)
  refine (means_iff (Or.inr ?_)).1 (means_only (denotes_here hw m) ?_ hk ?_)
  · simp only [selfLike, List.cons.injEq, and_true]
    rintro (h | h | h)
    · exact hm.1 h
    · exact hm.2.1 h
    · exact hm.2.2 h
  · exact (visible_after u fm w hl m d (hty d hk) its env).2 (Or.inl hb)
  · intro x hx hxk
    rcases (visible_after u fm w hl m x (hty x hxk) its env).1 hx with h | h
    · exact h1 x h hxk
    · exact h2 x h hxk

/-- **C72.**  Imports are invisible from outside the names they bind: a name of the scope that no import binds to a declaration of this kind still means what it meant
before, as long as there is at most one such declaration. -/
theorem unbound_unchanged (u : CharClass) (fm : Bool) (w : Place) {decl : Declares} (hl : decl.Lawful) (hw : AtNamespaceLevel w) (k : Kind)
    (its : List (Kind × Item)) (env : Env) (m : QString) (d : Decl)
    (hm : m ≠ q! "self" ∧ m ≠ q! "static" ∧ m ≠ q! "parent") (hk : IsKind d k.ty) (hd : d ∈ env.topFind (w.scopeId ++ [m]))
    (h1 : ∀ x, .decl m x ∈ (run u fm w decl env its).2.bound → ¬ IsKind x k.ty)
    (h2 : ∀ x ∈ env.topFind (w.scopeId ++ [m]), IsKind x k.ty → x = d) :
    findDeclaration fm (run u fm w decl env its).1 w.ctx ⟨false, [m]⟩ k.ty = some d := by
  have hty : ∀ x, IsKind x k.ty → IsKind x .klass ∨ IsKind x .function ∨ IsKind x .constant := by
    intro x hx
    cases k
    · exact Or.inl hx
    · exact Or.inr (Or.inl hx)
    · exact Or.inr (Or.inr hx)
  refine (means_iff (Or.inr ?_)).1 (means_only (denotes_here hw m) ?_ hk ?_)
  · simp only [selfLike, List.cons.injEq, and_true]
    rintro (h | h | h)
    · exact hm.1 h
    · exact hm.2.1 h
    · exact hm.2.2 h
  · exact (visible_after u fm w hl m d (hty d hk) its env).2 (Or.inr hd)
  · intro x hx hxk
    rcases (visible_after u fm w hl m x (hty x hxk) its env).1 hx with h | h
    · exact absurd hxk (h1 x h)
    · exact h2 x h hxk

/-! ### Examples and findings -/

/-- The simplest platform: aliases in front. -/
def simpleDeclares : Declares
  | sc, .decl n d, e => { e with topFind := fun p => if p = sc ++ [n] then d :: e.topFind p else e.topFind p }
  | _, .namespace _ _ _, e => e

theorem simpleDeclares_lawful : Declares.Lawful simpleDeclares where
  internal sc b e := by cases b <;> rfl
  pst sc b e := by cases b <;> rfl
  own sc n d e x := by simp [simpleDeclares]
  other sc n d e m h := by simp [simpleDeclares, h]
  nsAlias sc n ps p e m x _ := by rfl

/-- Classes `a\x` (1), `b\x` (2), `n\y` (3) and `n\a\z` (4), `a\z` (5), a function `a\f` (6); the last one in another file, known by the symbol table. -/
def exEnv : Env where
  topFind p := if p = [q! "a", q! "x"] then [dClass 1] else if p = [q! "b", q! "x"] then [dClass 2]
    else if p = [q! "n", q! "y"] then [dClass 3] else if p = [q! "n", q! "a", q! "z"] then [dClass 4]
    else if p = [q! "a", q! "z"] then [dClass 5] else []
  internalFile := false
  pst p := if p = [q! "a", q! "f"] then [⟨true, some ⟨6, false, true, false, false, false, false⟩⟩] else []

/-- In `namespace N;`, with the class `y` declared there. -/
def exPlace : Place where
  ctx := [⟨.namespace, none, [q! "n"], []⟩, ⟨.other, none, [], []⟩]
  info d := if d = dClass 3 then ⟨[q! "n"], true, q! "y"⟩ else ⟨[q! "a"], true, q! "x"⟩

def topPlace : Place := ⟨[⟨.other, none, [], []⟩], exPlace.info⟩

def exItem (g : Bool) (ns : List QString) (as : Option QString) : Item := ⟨⟨g, ns⟩, as, false⟩

/-- `use A\X;` binds `x`; `use A\X as Y;` is rejected: the class `Y` is declared in this scope. -/
example : visitItem asciiClass true exPlace exEnv .plain (exItem false [q! "A", q! "X"] none) = ⟨[.decl (q! "x") (dClass 1)], []⟩ ∧
    visitItem asciiClass true exPlace exEnv .plain (exItem false [q! "A", q! "X"] (some (q! "Y"))) = ⟨[], [.inUse (q! "x") (q! "y")]⟩ := by
  decide +kernel
/-- `use function A\F as G;`, `use const A\F;` and `use A\X as String;`. -/
example : visitItem asciiClass true exPlace exEnv .function (exItem false [q! "A", q! "F"] (some (q! "G"))) =
      ⟨[.decl (q! "g") ⟨6, false, true, false, false, false, false⟩], []⟩ ∧
    visitItem asciiClass true exPlace exEnv .const (exItem false [q! "A", q! "F"] none) = ⟨[.namespace (q! "F") [q! "a", q! "F"] (q! "F")], []⟩ ∧
    visitItem asciiClass true exPlace exEnv .plain (exItem true [q! "A", q! "X"] (some (q! "String"))) =
      ⟨[.decl (q! "string") (dClass 1)], [.special (q! "String")]⟩ := by decide +kernel
example : visitItem asciiClass true topPlace exEnv .plain (exItem false [q! "X"] none) = ⟨[], [.noEffect (q! "X")]⟩ ∧
    visitItem asciiClass true exPlace exEnv .plain (exItem false [q! "X"] none) = ⟨[.namespace (q! "x") [q! "x"] (q! "X")], []⟩ := by
  decide +kernel
example : Single (exItem false [q! "A", q! "X"] none) ∧ Ordinary asciiClass (exItem false [q! "A", q! "X"] none) ∧
    Called (exItem false [q! "A", q! "X"] none) (q! "X") ∧ Stored asciiClass .plain [q! "X"] [q! "x"] ∧ AtNamespaceLevel exPlace ∧
    AtNamespaceLevel topPlace ∧ NoEffect topPlace (exItem false [q! "X"] none) := by
  refine ⟨⟨by decide, rfl⟩, ⟨?_, ?_⟩, .last rfl (pre := [q! "A"]) rfl, ?_, ⟨_, _, rfl, Or.inl rfl⟩,
    ⟨_, _, rfl, Or.inr ⟨rfl, by simp [topPlace]⟩⟩, ?_⟩
  · intro n hc
    rw [called_iff (by decide)] at hc
    subst hc
    decide +kernel
  · intro n hn
    simp [exItem] at hn
  · exact ⟨[], q! "X", q! "x", rfl, rfl, by simp, fun _ => by decide +kernel⟩
  · refine ⟨?_, rfl, _, rfl⟩
    intro s rest h
    simp only [topPlace, List.cons.injEq] at h
    rw [← h.1]; decide
/-- Two imports in a row: the second one does not disturb the first. -/
example : findDeclaration true (run asciiClass true exPlace simpleDeclares exEnv
      [(.plain, exItem false [q! "A", q! "X"] none), (.plain, exItem false [q! "B", q! "X"] (some (q! "W")))]).1 exPlace.ctx ⟨false, [q! "x"]⟩ .klass
      = some (dClass 1) := by decide +kernel

/-- Finding: names behind `use` are absolute in PHP; here a name is tried relative to the namespace first, so that `namespace N; use A\Z;` imports `N\A\Z`
where it exists, not `A\Z`. -/
theorem use_is_relative :
    visitItem asciiClass true exPlace exEnv .plain (exItem false [q! "A", q! "Z"] none) = ⟨[.decl (q! "z") (dClass 4)], []⟩ ∧
    visitItem asciiClass true exPlace exEnv .plain (exItem true [q! "A", q! "Z"] none) = ⟨[.decl (q! "z") (dClass 5)], []⟩ := by
  decide +kernel

/-- Finding: `use A\X; use B\X;`, a fatal error in PHP, is not reported, and the name is bound twice: an alias is never in the way, because the lookup sees through it. -/
theorem double_import_unreported :
    (run asciiClass true exPlace simpleDeclares exEnv
      [(.plain, exItem false [q! "A", q! "X"] none), (.plain, exItem false [q! "B", q! "X"] none)]).2 =
      ⟨[.decl (q! "x") (dClass 1), .decl (q! "x") (dClass 2)], []⟩ := by decide +kernel

/-- Finding: a conflict is not seen if the imported class is not known: `use Unknown\Y;` beside `class Y`. -/
theorem unknown_import_unreported :
    visitItem asciiClass true exPlace exEnv .plain (exItem false [q! "Unknown", q! "Y"] none) =
      ⟨[.namespace (q! "y") [q! "unknown", q! "y"] (q! "Y")], []⟩ := by decide +kernel

/-- Finding: special class names are reported for functions too, and, as the last part of the name, not at all. -/
theorem special_names_inexact :
    (visitItem asciiClass true exPlace exEnv .function (exItem false [q! "A", q! "F"] (some (q! "int")))).reports = [.special (q! "int")] ∧
    (visitItem asciiClass true exPlace exEnv .plain (exItem false [q! "A", q! "Int"] none)).reports = [] := by decide +kernel

end KPhp.UseStatements
