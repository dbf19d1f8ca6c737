import Verif.Duchain.Scopes
/-!
# Names and namespaces of a file (C62)

Joins the contexts that the builders make (`Scopes.lean`) with the lookup of names (`Names.lean`): what a class or
function declared in a namespace is called, and which names find it from where.

Trusted platform behaviour (KDevPlatform): `DUContext::scopeIdentifier(true)` is the concatenation of the local scope
identifiers from the file inwards; the qualified identifier of a declaration is that of its context followed by its own;
`TopDUContext::findDeclarations` of a qualified identifier finds the declarations with exactly this qualified identifier
whose contexts are in the symbol table, which parameter lists and bodies are not.
-/
namespace KPhp.Scopes
open Names (Env NameAst findDeclaration identifierForNamespace DeclType)

/-- `DUContext::scopeIdentifier(true)` of the innermost of these constructs. -/
def scopeId (fs : List Frame) : List QString := (fs.reverse.map (·.name)).filter (fun n => !n.isEmpty)

/-- The kinds that the lookup (helper.cpp:189-216, 503-516) tells apart. -/
def ctxKind : Kind → Names.CtxKind
  | .klass => .klass
  | .namespace => .namespace
  | _ => .other

/-- The contexts in the form in which the lookup of `Names.lean` takes them.  Owners and base classes are left out: they only
matter for `self`, `static` and `parent` (C26). -/
def toScopes : List Frame → List Names.Scope
  | [] => []
  | f :: fs => ⟨ctxKind f.kind, none, scopeId (f :: fs), []⟩ :: toScopes fs

/-- The identifier under which something is declared. -/
def Event.declared : Event → Option QString
  | .leaf _ => none
  | .type _ n => some n
  | .function n => some n
  | .method n => some n
  | .closure => none
  | .namespace n => some n

/-- The declaration of the `i`-th entry of the log (declarationbuilder.cpp:171-235, 853-870; predeclarationbuilder.cpp:35-172). -/
def declOf (i : Nat) (inClass : Bool) : Event → Names.Decl
  | .type _ _ => ⟨i, true, false, false, inClass, false, false⟩
  | .function _ => ⟨i, false, true, false, inClass, false, false⟩
  | .namespace _ => ⟨i, false, false, false, inClass, false, true⟩
  | _ => ⟨i, false, false, false, inClass, false, false⟩

/-- The context is in the symbol table. -/
def inTable (fs : List Frame) : Bool := fs.all fun f => f.kind ≠ .function ∧ f.kind ≠ .other

/-- The `i`-th entry is declared under the full name `ps`. -/
def entryDecl (ps : List QString) (i : Nat) (e : Event) (fs : List Frame) : Option Names.Decl :=
  match e.declared with
  | none => none
  | some n =>
    if inTable fs ∧ scopeId fs ++ [n] = ps then some (declOf i (fs.head?.map (·.kind) = some .klass) e) else none

/-- The declarations of the file under a full name; `i` is the index of the first entry. -/
def ownDecls (ps : List QString) : Nat → List (Event × List Frame) → List Names.Decl
  | _, [] => []
  | i, (e, fs) :: l => (entryDecl ps i e fs).toList ++ ownDecls ps (i + 1) l

/-- What a lookup in the file consults: its own declarations, those of the files it imports, and the symbol table. -/
def fileEnv (l : List (Event × List Frame)) (imported : List QString → List Names.Decl) (pst : List QString → List Names.PstEntry) : Env where
  topFind ps := ownDecls ps 0 l ++ imported ps
  internalFile := false
  pst := pst

/-! ### Specification -/

/-- The namespace in force after the first statements of a file: the one of the last `namespace A;` if only code follows it. -/
inductive InForce : List Outer → NsName → Prop
  | none : InForce [] []
  | decl (f : List Outer) (ns : NsName) : InForce (f ++ [.nsDecl ns]) ns
  | block (f : List Outer) (ns : NsName) (c : Code) : InForce (f ++ [.nsBlock ns c]) []
  | code (f : List Outer) (ns : NsName) (c : Code) : InForce f ns → InForce (f ++ [.code c]) ns

/-- The code `c` stands in namespace `ns` of the file. -/
inductive Stands (f : List Outer) : NsName → Code → Prop
  | code (pre post : List Outer) (c : Code) (ns : NsName) : f = pre ++ .code c :: post → InForce pre ns → Stands f ns c
  | block (pre post : List Outer) (ns : NsName) (c : Code) : f = pre ++ .nsBlock ns c :: post → Stands f ns c

/-- A function or class is declared in the code itself, not in something inside it. -/
inductive Declares (u : CharClass) : Code → Event → Prop
  | left {a b : Code} {e : Event} : Declares u a e → Declares u (.seq a b) e
  | right {a b : Code} {e : Event} : Declares u b e → Declares u (.seq a b) e
  | function (id : Nat) (n : QString) (ps b : Code) : Declares u (.function id n ps b) (.function (lowerStr u n))
  | type (id : Nat) (k : TypeKind) (n : QString) (b : Code) : Declares u (.type id k n b) (.type k (lowerStr u n))

/-- A name is written somewhere in the code. -/
inductive Mentions : Code → Leaf → Prop
  | leaf (l : Leaf) : Mentions (.leaf l) l
  | left {a b : Code} {l : Leaf} : Mentions a l → Mentions (.seq a b) l
  | right {a b : Code} {l : Leaf} : Mentions b l → Mentions (.seq a b) l
  | closureParams {id : Nat} {ps us b : Code} {h : Bool} {l : Leaf} : Mentions ps l → Mentions (.closure id ps h us b) l
  | closureUses {id : Nat} {ps us b : Code} {l : Leaf} : Mentions us l → Mentions (.closure id ps true us b) l
  | closureBody {id : Nat} {ps us b : Code} {h : Bool} {l : Leaf} : Mentions b l → Mentions (.closure id ps h us b) l
  | functionParams {id : Nat} {n : QString} {ps b : Code} {l : Leaf} : Mentions ps l → Mentions (.function id n ps b) l
  | functionBody {id : Nat} {n : QString} {ps b : Code} {l : Leaf} : Mentions b l → Mentions (.function id n ps b) l
  | type {id : Nat} {k : TypeKind} {n : QString} {b : Code} {l : Leaf} : Mentions b l → Mentions (.type id k n b) l
  | methodParams {id : Nat} {n : QString} {ps b : Code} {h : Bool} {l : Leaf} : Mentions ps l → Mentions (.method id n ps h b) l
  | methodBody {id : Nat} {n : QString} {ps b : Code} {l : Leaf} : Mentions b l → Mentions (.method id n ps true b) l

/-- What a name written in namespace `ns` stands for: with a leading backslash for itself, otherwise for the name behind the
namespace.  Letter case does not matter. -/
inductive Means (u : CharClass) (ns : NsName) : NameAst → List QString → Prop
  | global (names : List QString) : Means u ns ⟨true, names⟩ (names.map (lowerStr u))
  | relative (names : List QString) : Means u ns ⟨false, names⟩ ((ns.map (·.2) ++ names).map (lowerStr u))

/-- The entry declares a class (interface, trait) or a function called `n`. -/
inductive IsA : DeclType → Event → QString → Prop
  | type (k : TypeKind) (n : QString) : IsA .klass (.type k n) n
  | function (n : QString) : IsA .function (.function n) n

/-- The entry declares a class or function with the full name `ps` outside of functions. -/
def Full (ty : DeclType) (ps : List QString) (x : Event × List Frame) : Prop :=
  ∃ n, IsA ty x.1 n ∧ ps = scopeId x.2 ++ [n] ∧ ∀ f ∈ x.2, f.kind = .global ∨ f.kind = .namespace ∨ f.kind = .klass

/-- The first entry with the full name, if any. -/
inductive FirstFull (ty : DeclType) (ps : List QString) (l : List (Event × List Frame)) : Option Nat → Prop
  | found (pre post : List (Event × List Frame)) (x : Event × List Frame) : l = pre ++ x :: post → Full ty ps x →
      (∀ y ∈ pre, ¬ Full ty ps y) → FirstFull ty ps l (some pre.length)
  | absent : (∀ y ∈ l, ¬ Full ty ps y) → FirstFull ty ps l none

/-- All parts of all namespace names have at least one letter. -/
def NamesGiven : List Outer → Prop
  | [] => True
  | .code _ :: f => NamesGiven f
  | .nsDecl n :: f => (∀ x ∈ n, x.2 ≠ []) ∧ NamesGiven f
  | .nsBlock n _ :: f => (∀ x ∈ n, x.2 ≠ []) ∧ NamesGiven f

/-! ### Proofs -/

theorem fileSites_append (u : CharClass) (i : Bool) : ∀ (pre post : List Outer) (ns : NsName),
    fileSites u i ns (pre ++ post) = fileSites u i ns pre ++ fileSites u i (pre.foldl nsAfter ns) post
  | [], _, _ => rfl
  | .code c :: pre, post, ns => by
    simp only [List.cons_append, fileSites, List.foldl_cons, nsAfter, fileSites_append u i pre post, List.append_assoc]
  | .nsDecl n :: pre, post, ns => by
    simp only [List.cons_append, fileSites, List.foldl_cons, nsAfter, fileSites_append u i pre post, List.append_assoc]
  | .nsBlock n b :: pre, post, ns => by
    simp only [List.cons_append, fileSites, List.foldl_cons, nsAfter, fileSites_append u i pre post, List.append_assoc]

theorem inForce_foldl {pre : List Outer} {ns : NsName} (h : InForce pre ns) : pre.foldl nsAfter [] = ns := by
  induction h with
  | none => rfl
  | decl f ns => simp [List.foldl_append, nsAfter]
  | block f ns c => simp [List.foldl_append, nsAfter]
  | code f ns c _ ih => simp [List.foldl_append, nsAfter, ih]

/-- There is always exactly one namespace in force. -/
theorem inForce_total (pre : List Outer) : InForce pre (pre.foldl nsAfter []) := by
  have h : ∀ (l : List Outer), InForce l.reverse (l.reverse.foldl nsAfter []) := by
    intro l
    induction l with
    | nil => exact .none
    | cons o l ih =>
      rw [List.reverse_cons, List.foldl_append]
      cases o with
      | code c => exact .code _ _ _ ih
      | nsDecl n => exact .decl _ _
      | nsBlock n b => exact .block _ _ _
  have := h pre.reverse
  rwa [List.reverse_reverse] at this

theorem stands_sites (u : CharClass) (i : Bool) {f : List Outer} {ns : NsName} {c : Code} (h : Stands f ns c) :
    ∃ a b, fileSites u i [] f = a ++ (sites u i (inNamespace u ns) c ++ b) := by
  cases h with
  | code pre post c ns e hf =>
    refine ⟨fileSites u i [] pre, fileSites u i ns post, ?_⟩
    rw [e, fileSites_append, inForce_foldl hf]; rfl
  | block pre post ns c e =>
    refine ⟨fileSites u i [] pre ++ nsSites u [fileFrame] ns, fileSites u i [] post, ?_⟩
    rw [e, fileSites_append]
    simp [fileSites]

theorem agrees_mem {cs : List Ctx} : ∀ {l l'} {e : Event} {fs : List Frame}, Agrees cs l l' → (e, fs) ∈ l' →
    ∃ c, (e, c) ∈ l ∧ Within cs c fs
  | [], [], _, _, _, h => by cases h
  | (_, c) :: _, (_, _) :: _, _, _, ⟨h1, h2, h3⟩, h => by
    rcases List.mem_cons.mp h with h | h
    · cases h; exact ⟨c, by simp [h1], h2⟩
    · obtain ⟨c', h4, h5⟩ := agrees_mem h3 h
      exact ⟨c', List.mem_cons_of_mem _ h4, h5⟩

/-- What stands in code is in the constructs around the code, with no namespace in between. -/
theorem sites_suffix (u : CharClass) (i : Bool) : ∀ (c : Code) (around : List Frame) (e : Event) (fs : List Frame),
    (e, fs) ∈ sites u i around c → ∃ inner, fs = inner ++ around ∧ ∀ x ∈ inner, x.kind ≠ .namespace
  | .empty, _, _, _, h => by cases h
  | .seq a b, around, e, fs, h => by
    rcases List.mem_append.mp h with h | h
    · exact sites_suffix u i a around e fs h
    · exact sites_suffix u i b around e fs h
  | .leaf l, around, e, fs, h => by
    simp only [sites, List.mem_singleton, Prod.mk.injEq] at h
    exact ⟨[], by simp [h.2], by simp⟩
  | .closure id params hasUses uses body, around, e, fs, h => by
    have step : ∀ (fr : Frame) (c : Code), fr.kind ≠ .namespace →
        (∀ around e fs, (e, fs) ∈ sites u i around c → ∃ inner, fs = inner ++ around ∧ ∀ x ∈ inner, x.kind ≠ .namespace) →
        (e, fs) ∈ sites u i (fr :: around) c → ∃ inner, fs = inner ++ around ∧ ∀ x ∈ inner, x.kind ≠ .namespace := by
      intro fr c hk ih h
      obtain ⟨inner, h1, h2⟩ := ih _ _ _ h
      refine ⟨inner ++ [fr], by simp [h1], ?_⟩
      intro x hx
      rcases List.mem_append.mp hx with hx | hx
      · exact h2 x hx
      · rw [List.mem_singleton.mp hx]; exact hk
    simp only [sites, List.mem_cons, List.mem_append] at h
    rcases h with h | h | h | h
    · cases h; exact ⟨[], rfl, by simp⟩
    · exact step ⟨some ⟨id, .params⟩, .function, []⟩ params (by simp) (sites_suffix u i params) h
    · split at h
      · exact step ⟨some ⟨id, .uses⟩, .other, []⟩ uses (by simp) (sites_suffix u i uses) h
      · cases h
    · split at h
      · cases h
      · exact step ⟨some ⟨id, .body⟩, .other, []⟩ body (by simp) (sites_suffix u i body) h
  | .function id name params body, around, e, fs, h => by
    have step : ∀ (fr : Frame) (c : Code), fr.kind ≠ .namespace →
        (∀ around e fs, (e, fs) ∈ sites u i around c → ∃ inner, fs = inner ++ around ∧ ∀ x ∈ inner, x.kind ≠ .namespace) →
        (e, fs) ∈ sites u i (fr :: around) c → ∃ inner, fs = inner ++ around ∧ ∀ x ∈ inner, x.kind ≠ .namespace := by
      intro fr c hk ih h
      obtain ⟨inner, h1, h2⟩ := ih _ _ _ h
      refine ⟨inner ++ [fr], by simp [h1], ?_⟩
      intro x hx
      rcases List.mem_append.mp hx with hx | hx
      · exact h2 x hx
      · rw [List.mem_singleton.mp hx]; exact hk
    simp only [sites, List.mem_cons, List.mem_append] at h
    rcases h with h | h | h
    · cases h; exact ⟨[], rfl, by simp⟩
    · exact step ⟨some ⟨id, .params⟩, .function, name⟩ params (by simp) (sites_suffix u i params) h
    · split at h
      · cases h
      · exact step ⟨some ⟨id, .body⟩, .other, name⟩ body (by simp) (sites_suffix u i body) h
  | .type id k name members, around, e, fs, h => by
    simp only [sites, List.mem_cons] at h
    rcases h with h | h
    · cases h; exact ⟨[], rfl, by simp⟩
    · obtain ⟨inner, h1, h2⟩ := sites_suffix u i members _ _ _ h
      refine ⟨inner ++ [⟨some ⟨id, .whole⟩, .klass, lowerStr u name⟩], by simp [h1], ?_⟩
      intro x hx
      rcases List.mem_append.mp hx with hx | hx
      · exact h2 x hx
      · rw [List.mem_singleton.mp hx]; simp
  | .method id name params hasBody body, around, e, fs, h => by
    have step : ∀ (fr : Frame) (c : Code), fr.kind ≠ .namespace →
        (∀ around e fs, (e, fs) ∈ sites u i around c → ∃ inner, fs = inner ++ around ∧ ∀ x ∈ inner, x.kind ≠ .namespace) →
        (e, fs) ∈ sites u i (fr :: around) c → ∃ inner, fs = inner ++ around ∧ ∀ x ∈ inner, x.kind ≠ .namespace := by
      intro fr c hk ih h
      obtain ⟨inner, h1, h2⟩ := ih _ _ _ h
      refine ⟨inner ++ [fr], by simp [h1], ?_⟩
      intro x hx
      rcases List.mem_append.mp hx with hx | hx
      · exact h2 x hx
      · rw [List.mem_singleton.mp hx]; exact hk
    simp only [sites, List.mem_cons, List.mem_append] at h
    rcases h with h | h | h
    · cases h; exact ⟨[], rfl, by simp⟩
    · exact step ⟨some ⟨id, .params⟩, .function, name⟩ params (by simp) (sites_suffix u i params) h
    · split at h
      · cases h
      · exact step ⟨some ⟨id, .body⟩, .other, name⟩ body (by simp) (sites_suffix u i body) h

theorem declares_sites {u : CharClass} (i : Bool) (around : List Frame) {c : Code} {e : Event} (h : Declares u c e) :
    (e, around) ∈ sites u i around c := by
  induction h with
  | left _ ih => exact List.mem_append_left _ ih
  | right _ ih => exact List.mem_append_right _ ih
  | function => simp [sites]
  | type => simp [sites]

theorem mentions_sites (u : CharClass) {c : Code} {l : Leaf} (h : Mentions c l) : ∀ around : List Frame,
    ∃ fs, (.leaf l, fs) ∈ sites u false around c := by
  induction h with
  | leaf l => intro a; exact ⟨a, by simp [sites]⟩
  | left _ ih => intro a; obtain ⟨fs, h⟩ := ih a; exact ⟨fs, List.mem_append_left _ h⟩
  | right _ ih => intro a; obtain ⟨fs, h⟩ := ih a; exact ⟨fs, List.mem_append_right _ h⟩
  | closureParams _ ih => intro a; obtain ⟨fs, h⟩ := ih _; exact ⟨fs, by simp only [sites, List.mem_cons, List.mem_append]; exact .inr (.inl h)⟩
  | closureUses _ ih => intro a; obtain ⟨fs, h⟩ := ih _; exact ⟨fs, by simp only [sites, List.mem_cons, List.mem_append, if_true]; exact .inr (.inr (.inl h))⟩
  | closureBody _ ih => intro a; obtain ⟨fs, h⟩ := ih _; exact ⟨fs, by simp only [sites, List.mem_cons, List.mem_append]; exact .inr (.inr (.inr h))⟩
  | functionParams _ ih => intro a; obtain ⟨fs, h⟩ := ih _; exact ⟨fs, by simp only [sites, List.mem_cons, List.mem_append]; exact .inr (.inl h)⟩
  | functionBody _ ih => intro a; obtain ⟨fs, h⟩ := ih _; exact ⟨fs, by simp only [sites, List.mem_cons, List.mem_append]; exact .inr (.inr h)⟩
  | type _ ih => intro a; obtain ⟨fs, h⟩ := ih _; exact ⟨fs, by simp only [sites, List.mem_cons]; exact .inr h⟩
  | methodParams _ ih => intro a; obtain ⟨fs, h⟩ := ih _; exact ⟨fs, by simp only [sites, List.mem_cons, List.mem_append]; exact .inr (.inl h)⟩
  | methodBody _ ih => intro a; obtain ⟨fs, h⟩ := ih _; exact ⟨fs, by simp only [sites, List.mem_cons, List.mem_append]; exact .inr (.inr h)⟩

theorem scopeId_inNamespace (u : CharClass) (ns : NsName) (h : ∀ x ∈ ns, x.2 ≠ []) :
    scopeId (inNamespace u ns) = ns.map fun x => lowerStr u x.2 := by
  simp only [scopeId, inNamespace, List.reverse_append, List.reverse_reverse, List.map_append, List.map_map, List.filter_append]
  have e1 : List.filter (fun n => !List.isEmpty n) (([fileFrame].reverse).map (·.name)) = [] := rfl
  rw [e1, List.nil_append, List.filter_eq_self.mpr]
  · rfl
  · intro x hx
    obtain ⟨y, hy, rfl⟩ := List.mem_map.mp hx
    have := h y hy
    simp only [Function.comp, lowerStr]
    cases hy' : y.2 with
    | nil => exact absurd hy' this
    | cons _ _ => rfl

theorem toScopes_append (a b : List Frame) : ∃ l, toScopes (a ++ b) = l ++ toScopes b ∧
    ((∀ x ∈ a, x.kind ≠ .namespace) → ∀ s ∈ l, s.kind ≠ .namespace) := by
  induction a with
  | nil => exact ⟨[], rfl, fun _ _ h => by cases h⟩
  | cons f a ih =>
    obtain ⟨l, h1, h2⟩ := ih
    refine ⟨⟨ctxKind f.kind, none, scopeId (f :: (a ++ b)), []⟩ :: l, by simp [toScopes, h1], ?_⟩
    intro hx s hs
    rcases List.mem_cons.mp hs with rfl | hs
    · have := hx f (by simp)
      cases hk : f.kind <;> simp_all [ctxKind]
    · exact h2 (fun x hx' => hx x (List.mem_cons_of_mem _ hx')) s hs

theorem means_denotes {u : CharClass} {ns : NsName} (hn : ∀ x ∈ ns, x.2 ≠ []) {m : NameAst} {ps : List QString} (h : Means u ns m ps)
    {inner : List Frame} (hi : ∀ x ∈ inner, x.kind ≠ .namespace) :
    Names.Denotes (toScopes (inner ++ inNamespace u ns)) (identifierForNamespace u m false) ps := by
  cases h with
  | global names => rw [Names.plain_name]; exact .global _
  | relative names =>
    rw [Names.plain_name]
    obtain ⟨l, h1, h2⟩ := toScopes_append inner (inNamespace u ns)
    rw [h1]
    have hl := h2 hi
    by_cases he : ns = []
    · subst he
      refine .toplevel _ ?_
      intro s hs
      rcases List.mem_append.mp hs with hs | hs
      · exact hl s hs
      · simp [inNamespace, toScopes, fileFrame, ctxKind] at hs
        simp [hs]
    · have hin : ∃ f fs, inNamespace u ns = f :: fs ∧ f.kind = .namespace := by
        rw [← List.dropLast_concat_getLast he]
        simp [inNamespace]
      obtain ⟨f, fs, h3, h4⟩ := hin
      have hid := scopeId_inNamespace u ns hn
      rw [h3] at hid ⊢
      have := Names.Denotes.relative (ctx := l ++ toScopes (f :: fs)) (names.map (lowerStr u)) l (toScopes fs)
        ⟨ctxKind f.kind, none, scopeId (f :: fs), []⟩ rfl hl (by simp [h4, ctxKind])
      rw [hid] at this
      rw [List.map_append, List.map_map]
      exact this

theorem entry_kind {ty : DeclType} {ps : List QString} {i : Nat} {e : Event} {fs : List Frame} {d : Names.Decl} (ht : ty = .klass ∨ ty = .function)
    (h : entryDecl ps i e fs = some d) (hk : Names.IsKind d ty) : Full ty ps (e, fs) ∧ d.id = i := by
  unfold entryDecl at h
  cases e <;> simp only [Event.declared] at h <;> (try cases h; done) <;> split at h <;> (try cases h; done) <;>
    (rename_i hc; injection h with h; subst h)
  all_goals
    have hv : ∀ f ∈ fs, f.kind = .global ∨ f.kind = .namespace ∨ f.kind = .klass := by
      intro f hf
      have := List.all_eq_true.mp hc.1 f hf
      cases hk : f.kind <;> simp_all
    rcases ht with rfl | rfl <;> cases hk <;> (try (rename_i hh; cases hh; done))
  · exact ⟨⟨_, .type _ _, hc.2.symm, hv⟩, rfl⟩
  · exact ⟨⟨_, .function _, hc.2.symm, hv⟩, rfl⟩

theorem entry_full {ty : DeclType} {ps : List QString} (i : Nat) {e : Event} {fs : List Frame} (h : Full ty ps (e, fs)) :
    ∃ d, entryDecl ps i e fs = some d ∧ Names.IsKind d ty ∧ d.id = i := by
  obtain ⟨n, hn, hp, hv⟩ := h
  have ht : inTable fs = true := by
    rw [inTable, List.all_eq_true]
    intro f hf
    rcases hv f hf with h | h | h <;> simp [h]
  cases hn with
  | type k n => exact ⟨_, by simp only [entryDecl, Event.declared]; rw [if_pos ⟨ht, hp.symm⟩], .klass rfl, rfl⟩
  | function n => exact ⟨_, by simp only [entryDecl, Event.declared]; rw [if_pos ⟨ht, hp.symm⟩], .function rfl, rfl⟩

theorem ownDecls_append (ps : List QString) : ∀ (a b : List (Event × List Frame)) (i : Nat),
    ownDecls ps i (a ++ b) = ownDecls ps i a ++ ownDecls ps (i + a.length) b
  | [], _, _ => rfl
  | (e, fs) :: a, b, i => by
    have : i + 1 + a.length = i + (a.length + 1) := by omega
    simp [ownDecls, ownDecls_append ps a b (i + 1), this]

theorem ownDecls_none {ty : DeclType} (ht : ty = .klass ∨ ty = .function) {ps : List QString} :
    ∀ (l : List (Event × List Frame)) (i : Nat), (∀ y ∈ l, ¬ Full ty ps y) → ∀ d ∈ ownDecls ps i l, ¬ Names.IsKind d ty
  | [], _, _, d, hd => by cases hd
  | (e, fs) :: l, i, h, d, hd => by
    rcases List.mem_append.mp hd with hd | hd
    · intro hk
      have : entryDecl ps i e fs = some d := by simpa using hd
      exact h (e, fs) (by simp) (entry_kind ht this hk).1
    · exact ownDecls_none ht l (i + 1) (fun y hy => h y (List.mem_cons_of_mem _ hy)) d hd

theorem find_first {ty : DeclType} {ps : List QString} (ht : ty = .klass ∨ ty = .function) {l : List (Event × List Frame)} {i : Nat}
    (h : FirstFull ty ps l (some i)) : ∃ d, (ownDecls ps 0 l).find? (fun d => Names.isMatch d ty) = some d ∧ d.id = i := by
  cases h with
  | found pre post x e hx hp =>
    subst e
    obtain ⟨e, fs⟩ := x
    obtain ⟨d, h1, h2, h3⟩ := entry_full (0 + pre.length) hx
    rw [Nat.zero_add] at h1 h3
    refine ⟨d, ?_, h3⟩
    rw [ownDecls_append, List.find?_append, List.find?_eq_none.mpr]
    · simp [ownDecls, h1, (Names.isMatch_iff d ty).2 h2]
    · intro y hy hm
      exact ownDecls_none ht pre 0 hp y hy ((Names.isMatch_iff y ty).1 hm)

theorem find_absent {ty : DeclType} {ps : List QString} (ht : ty = .klass ∨ ty = .function) {l : List (Event × List Frame)}
    (h : FirstFull ty ps l none) : (ownDecls ps 0 l).find? (fun d => Names.isMatch d ty) = none := by
  cases h with
  | absent h =>
    rw [List.find?_eq_none]
    intro y hy hm
    exact ownDecls_none ht l 0 h y hy ((Names.isMatch_iff y ty).1 hm)

theorem namesGiven_append : ∀ {a b : List Outer}, NamesGiven (a ++ b) → NamesGiven a ∧ NamesGiven b
  | [], _, h => ⟨trivial, h⟩
  | .code _ :: a, _, h => namesGiven_append (a := a) h
  | .nsDecl _ :: _, _, h => ⟨⟨h.1, (namesGiven_append h.2).1⟩, (namesGiven_append h.2).2⟩
  | .nsBlock _ _ :: _, _, h => ⟨⟨h.1, (namesGiven_append h.2).1⟩, (namesGiven_append h.2).2⟩

theorem inForce_given {f : List Outer} {ns : NsName} (h : InForce f ns) (hg : NamesGiven f) : ∀ x ∈ ns, x.2 ≠ [] := by
  induction h with
  | none => simp
  | decl f ns => exact (namesGiven_append hg).2.1
  | block => simp
  | code f ns c _ ih => exact ih (namesGiven_append hg).1

theorem stands_given {f : List Outer} {ns : NsName} {c : Code} (h : Stands f ns c) (hg : NamesGiven f) : ∀ x ∈ ns, x.2 ≠ [] := by
  cases h with
  | code pre post c ns e hf => subst e; exact inForce_given hf (namesGiven_append hg).1
  | block pre post ns c e => subst e; exact (namesGiven_append hg).2.1

/-- **C62.** A function or class declared in namespace `A\B` of a file, however the namespace was written, is declared in the context of
that namespace and has the full name `a\b\name`. -/
theorem declared_in_namespace (u : CharClass) (i : Bool) (f : List Outer) (hk : (fileKeys f).Nodup) (ht : (fileTokens f).Nodup) (hg : NamesGiven f)
    {ns : NsName} {c : Code} {e : Event} (hs : Stands f ns c) (hd : Declares u c e) :
    ∃ s1 s2 ctx fs, build u i f = some (s1, s2) ∧ (e, ctx) ∈ s2.log ∧ Within s2.ctxs ctx fs ∧
      scopeId fs = ns.map (fun x => lowerStr u x.2) ∧ ∀ fr ∈ fs, fr.kind = .global ∨ fr.kind = .namespace := by
  obtain ⟨s1, s2, hb, _, _, _, _, _, ha, hc, hl⟩ := build_good u i f hk ht
  obtain ⟨a, b, he⟩ := stands_sites u i hs
  have hm : (e, inNamespace u ns) ∈ fileSites u i [] f := by
    rw [he]
    exact List.mem_append_right _ (List.mem_append_left _ (declares_sites i _ hd))
  obtain ⟨ctx, h1, h2⟩ := agrees_mem ha hm
  refine ⟨s1, s2, ctx, inNamespace u ns, hb, hl ▸ h1, hc ▸ h2, scopeId_inNamespace u ns (stands_given hs hg), ?_⟩
  intro fr hfr
  rcases List.mem_append.mp hfr with hfr | hfr
  · rw [List.mem_reverse] at hfr
    obtain ⟨x, _, rfl⟩ := List.mem_map.mp hfr
    exact .inr rfl
  · rw [List.mem_singleton.mp hfr]; exact .inl rfl

/-- **C62.** Wherever a name of a class or function is written in a file, in whatever methods, functions and closures: it is looked up as the
full name it means in the namespace in force there, and finds the first declaration of the file that has this full name; if there is none, the
file has no part in the result. -/
theorem name_in_namespace (u : CharClass) (f : List Outer) (hk : (fileKeys f).Nodup) (ht : (fileTokens f).Nodup) (hg : NamesGiven f)
    {ns : NsName} {c : Code} {m : NameAst} {pos : Nat} {ps : List QString} (hs : Stands f ns c) (hm : Mentions c (.name m pos))
    (hp : Means u ns m ps) :
    ∃ s1 s2 l ctx fs, build u false f = some (s1, s2) ∧ Agrees s2.ctxs s2.log l ∧ (.leaf (.name m pos), ctx) ∈ s2.log ∧
      Within s2.ctxs ctx fs ∧ ∀ (fm : Bool) imported pst (ty : DeclType), (ty = .klass ∨ ty = .function) →
        (ty = .klass → ¬ Names.selfLike (identifierForNamespace u m false)) →
        (∀ i, FirstFull ty ps l (some i) →
          ∃ d, findDeclaration fm (fileEnv l imported pst) (toScopes fs) (identifierForNamespace u m false) ty = some d ∧ d.id = i) ∧
        (FirstFull ty ps l none → findDeclaration fm (fileEnv l imported pst) (toScopes fs) (identifierForNamespace u m false) ty
            = findDeclaration fm (fileEnv [] imported pst) (toScopes fs) (identifierForNamespace u m false) ty) := by
  obtain ⟨s1, s2, hb, _, _, _, _, _, ha, hc, hl⟩ := build_good u false f hk ht
  obtain ⟨a, b, he⟩ := stands_sites u false hs
  obtain ⟨fs, hfs⟩ := mentions_sites u hm (inNamespace u ns)
  have hmem : (.leaf (.name m pos), fs) ∈ fileSites u false [] f := by
    rw [he]; exact List.mem_append_right _ (List.mem_append_left _ hfs)
  obtain ⟨inner, rfl, hi⟩ := sites_suffix u false c _ _ _ hfs
  obtain ⟨ctx, h1, h2⟩ := agrees_mem ha hmem
  refine ⟨s1, s2, fileSites u false [] f, ctx, _, hb, by rw [hc, hl]; exact ha, hl ▸ h1, hc ▸ h2, ?_⟩
  intro fm imported pst ty hty hself
  have hd := means_denotes (stands_given hs hg) hp hi
  have hplain : ty ≠ .klass ∨ ¬ Names.selfLike (identifierForNamespace u m false) := by
    rcases hty with rfl | rfl
    · exact .inr (hself rfl)
    · exact .inl (by simp)
  constructor
  · intro i hr
    obtain ⟨d, hf, hid⟩ := find_first hty hr
    refine ⟨d, ?_, hid⟩
    rw [Names.findDeclaration_plain hplain, Names.denotes_eq hd]
    simp only [fileEnv, List.find?_append, hf, Option.some_or]
  · intro hr
    have hf := find_absent hty hr
    rw [Names.findDeclaration_plain hplain, Names.findDeclaration_plain hplain, Names.denotes_eq hd]
    simp only [fileEnv, List.find?_append, hf, ownDecls, List.find?_nil, Option.none_or, Names.findInPst]
    rfl

theorem firstFull_of_mem {ty : DeclType} {ps : List QString} : ∀ {l : List (Event × List Frame)} {x : Event × List Frame}, x ∈ l → Full ty ps x →
    ∃ i, FirstFull ty ps l (some i) ∧ ∃ y, l[i]? = some y ∧ Full ty ps y
  | [], _, h, _ => by cases h
  | y :: l, x, h, hx => by
    by_cases hy : Full ty ps y
    · exact ⟨0, .found [] l y rfl hy (by simp), y, rfl, hy⟩
    · rcases List.mem_cons.mp h with rfl | h
      · exact absurd hx hy
      · obtain ⟨i, hf, z, hz, hz'⟩ := firstFull_of_mem h hx
        cases hf with
        | found pre post w e hw hp =>
          refine ⟨(y :: pre).length, .found (y :: pre) post w (by simp [e]) hw ?_, z, by simpa using hz, hz'⟩
          intro a ha
          rcases List.mem_cons.mp ha with rfl | ha
          · exact hy
          · exact hp a ha

theorem agrees_get {cs : List Ctx} : ∀ {l l'} {i : Nat} {e : Event} {fs : List Frame}, Agrees cs l l' → l'[i]? = some (e, fs) →
    ∃ c, l[i]? = some (e, c) ∧ Within cs c fs
  | [], [], _, _, _, _, h => by simp at h
  | (_, c) :: _, (_, _) :: _, 0, _, _, ⟨h1, h2, _⟩, h => by
    simp only [List.getElem?_cons_zero, Option.some.injEq, Prod.mk.injEq] at h
    exact ⟨c, by simp [h1, h.1], h.2 ▸ h2⟩
  | (_, _) :: _, (_, _) :: _, i + 1, _, _, ⟨_, _, h3⟩, h => by
    rw [List.getElem?_cons_succ] at h ⊢
    exact agrees_get h3 h

/-- **C62.** A class (interface, trait) or function declared in a namespace of a file is found from everywhere in the file by every name that
means its full name: by its own name in the same namespace, whichever way and in whatever letters the namespace was opened, and by its full
name with a leading backslash elsewhere.  What is found is declared under exactly this full name. -/
theorem found_from_everywhere (u : CharClass) (f : List Outer) (hk : (fileKeys f).Nodup) (ht : (fileTokens f).Nodup) (hg : NamesGiven f)
    {ns ns' : NsName} {c c' : Code} {e : Event} {n : QString} {m : NameAst} {pos : Nat} {ty : DeclType}
    (hs : Stands f ns c) (hd : Declares u c e) (he : IsA ty e n)
    (hs' : Stands f ns' c') (hm : Mentions c' (.name m pos)) (hp : Means u ns' m (ns.map (fun x => lowerStr u x.2) ++ [n]))
    (hself : ty = .klass → ¬ Names.selfLike (identifierForNamespace u m false)) :
    ∃ s1 s2 l ctx fs, build u false f = some (s1, s2) ∧ Agrees s2.ctxs s2.log l ∧ (.leaf (.name m pos), ctx) ∈ s2.log ∧
      Within s2.ctxs ctx fs ∧ ∀ (fm : Bool) imported pst, ∃ d e' ctx' fs',
        findDeclaration fm (fileEnv l imported pst) (toScopes fs) (identifierForNamespace u m false) ty = some d ∧
        s2.log[d.id]? = some (e', ctx') ∧ Within s2.ctxs ctx' fs' ∧ IsA ty e' n ∧ scopeId fs' = ns.map (fun x => lowerStr u x.2) := by
  obtain ⟨s1, s2, l, ctx, fs, hb, ha, hl, hw, hfind⟩ := name_in_namespace u f hk ht hg hs' hm hp
  obtain ⟨s1', s2', ctx', fs', hb', hl', hw', hid, hkind⟩ := declared_in_namespace u false f hk ht hg hs hd
  rw [hb] at hb'
  cases hb'
  refine ⟨s1, s2, l, ctx, fs, hb, ha, hl, hw, ?_⟩
  intro fm imported pst
  have hty : ty = .klass ∨ ty = .function := by cases he <;> simp
  have hmem : ∃ fs'', (e, fs'') ∈ l ∧ Within s2.ctxs ctx' fs'' := by
    clear hfind hl hw
    obtain ⟨i, hi⟩ := List.mem_iff_getElem?.mp hl'
    have : ∀ {lg l} {i : Nat}, Agrees s2.ctxs lg l → lg[i]? = some (e, ctx') → ∃ fs'', (e, fs'') ∈ l ∧ Within s2.ctxs ctx' fs'' := by
      intro lg
      induction lg with
      | nil => intro l i _ h; simp at h
      | cons a lg ih =>
        intro l i h hi
        cases l with
        | nil => exact h.elim
        | cons b l =>
          cases i with
          | zero =>
            simp only [List.getElem?_cons_zero, Option.some.injEq] at hi
            subst hi
            obtain ⟨b1, b2⟩ := b
            obtain ⟨h1, h2, _⟩ := h
            exact ⟨b2, by simp [h1], h2⟩
          | succ i =>
            rw [List.getElem?_cons_succ] at hi
            obtain ⟨fs'', h1, h2⟩ := ih h.2.2 hi
            exact ⟨fs'', List.mem_cons_of_mem _ h1, h2⟩
    exact this ha hi
  obtain ⟨fs'', hm1, hm2⟩ := hmem
  obtain rfl := Within.unique hw' hm2
  have hfull : Full ty (ns.map (fun x => lowerStr u x.2) ++ [n]) (e, fs') :=
    ⟨n, he, by rw [hid], fun f hf => (hkind f hf).imp id Or.inl⟩
  obtain ⟨i, hi, y, hy, hy'⟩ := firstFull_of_mem hm1 hfull
  obtain ⟨d, hd1, hd2⟩ := (hfind fm imported pst ty hty hself).1 i hi
  obtain ⟨e', fy⟩ := y
  obtain ⟨n', hn', hps, _⟩ := hy'
  obtain ⟨cy, hcy, hwy⟩ := agrees_get ha hy
  obtain ⟨h1, h2⟩ := List.append_inj' hps rfl
  refine ⟨d, e', cy, fy, hd1, by rw [hd2]; exact hcy, hwy, ?_, h1.symm⟩
  cases h2
  exact hn'

/-! ### A file

    <?php
    namespace A\B;
    class Cee { function m($p) { $f = function() use ($p) { new CEE; }; } }
    function g() {}
    namespace D { new \a\B\cee; }
-/
def exFile : List Outer :=
  [.nsDecl [(2, q! "A"), (4, q! "B")],
   .code (.seq
     (.type 7 .klass (q! "Cee") (.method 10 (q! "m") (.leaf (.param (q! "p") 12)) true
       (.seq (.leaf (.assign (q! "f") 16)) (.closure 18 .empty true (.leaf (.lexical (q! "p") 22))
         (.leaf (.name ⟨false, [q! "CEE"]⟩ 26))))))
     (.function 32 (q! "g") .empty .empty)),
   .nsBlock [(40, q! "D")] (.leaf (.name ⟨true, [q! "a", q! "B", q! "cee"]⟩ 44))]

example : (fileKeys exFile).Nodup ∧ (fileTokens exFile).Nodup ∧ NamesGiven exFile := by
  refine ⟨by decide +kernel, by decide +kernel, ?_⟩
  simp [exFile, NamesGiven]
/-- The class and the places where it is named. -/
example : ∃ c, Stands exFile [(2, q! "A"), (4, q! "B")] c ∧ Declares asciiClass c (.type .klass (q! "cee")) ∧
    Mentions c (.name ⟨false, [q! "CEE"]⟩ 26) ∧
    Means asciiClass [(2, q! "A"), (4, q! "B")] ⟨false, [q! "CEE"]⟩ [q! "a", q! "b", q! "cee"] :=
  ⟨_, .code [.nsDecl [(2, q! "A"), (4, q! "B")]] _ _ _ rfl (.decl [] _), .left (.type 7 .klass (q! "Cee") _),
    .left (.type (.methodBody (.right (.closureBody (.leaf _))))), .relative [q! "CEE"]⟩
example : Stands exFile [(40, q! "D")] (.leaf (.name ⟨true, [q! "a", q! "B", q! "cee"]⟩ 44)) ∧
    Means asciiClass [(40, q! "D")] ⟨true, [q! "a", q! "B", q! "cee"]⟩ [q! "a", q! "b", q! "cee"] :=
  ⟨.block [_, _] [] _ _ rfl, .global _⟩
/-- The name in the closure finds the class. -/
example : (findDeclaration true (fileEnv (fileSites asciiClass false [] exFile) (fun _ => []) (fun _ => []))
    (toScopes (((fileSites asciiClass false [] exFile)[8]?.map (·.2)).getD [])) ⟨false, [q! "cee"]⟩ .klass).map (·.id) = some 2 := by
  decide +kernel
example : (build asciiClass false exFile).map (fun r => r.2.ctxs.map (fun c => (c.kind, c.parent)))
    = some [(.global, none), (.namespace, some 0), (.namespace, some 1), (.klass, some 2), (.function, some 3),
        (.other, some 3), (.function, some 5), (.other, some 5), (.other, some 5), (.function, some 2),
        (.other, some 2), (.namespace, some 0)] := by
  decide +kernel
example : (build asciiClass false exFile).map (fun r => r.2.ctxs.map (·.imports))
    = some [[], [], [], [], [], [4], [], [], [6, 7], [], [9], []] := by
  decide +kernel
example : (build asciiClass false exFile).map (fun r => r.2.log.map (·.2)) = some [0, 1, 2, 3, 4, 5, 5, 7, 8, 2, 0, 11] := by
  decide +kernel

end KPhp.Scopes
