import Verif.Duchain.FunctionVars
import Verif.Duchain.Redeclared
import Verif.Duchain.ScopeNames
/-!
# Completion behind `namespace` and `\` (C99)

Models the analysis of the tokens before the cursor (completion/context.cpp:575-596) and the list of items
(completion/context.cpp:1336-1365), on top of the contexts of files (C61).

Trusted platform behaviour (KDevPlatform): `QualifiedIdentifier(QString)` splits at `::` and drops a leading
one; `TopDUContext::findDeclarations` finds the declarations with exactly this identifier in the file and the
files it imports, in an order we leave open; the internal context of a namespace declaration is the context
opened with it (predeclarationbuilder.cpp:157-172).  Simplified: of the declarations only classes, interfaces,
traits, functions and namespaces are considered, `use` declarations are left out and no identifier is forbidden (`Forbid.lean`).
-/
namespace KPhp.NsChoose
open KPhp.Scopes

/-- A token before the cursor. -/
inductive T
  | string (s : QString)
  | backslash
  | namespaceKw
  | other
deriving DecidableEq, Repr

/-- `m_memberAccessOperation`: `NamespaceChoose` or `BackslashAccess`. -/
inductive Op
  | namespaceChoose
  | backslashAccess
deriving DecidableEq, Repr

/-- The loop over the tokens, the last one first, and the test behind it (context.cpp:578-594). -/
def collect : List T → QString → QString × Op
  | .string s :: r, id => collect r (s ++ id)
  | .backslash :: r, id => collect r (q! "::" ++ id)
  | .namespaceKw :: _, id => (id, .namespaceChoose)
  | _, id => (id, .backslashAccess)

/-- `QualifiedIdentifierPrivate::splitIdentifiers` (trusted, see the head of this file). -/
def split : QString → QString → List QString
  | [], [] => []
  | [], acc => [acc]
  | 58 :: 58 :: r, acc => acc :: split r []
  | x :: r, acc => split r (acc ++ [x])

/-- `QualifiedIdentifier::QualifiedIdentifier(const QString&)` (trusted, see the head of this file). -/
def qualifiedId : QString → List QString
  | 58 :: 58 :: r => split r []
  | s => split s []

/-- `m_namespace` and `m_memberAccessOperation` for the tokens before the cursor, in the order of the text. -/
def analyse (ts : List T) : List QString × Op :=
  ((qualifiedId (collect ts.reverse []).1), (collect ts.reverse []).2)

/-- The identifier of a context: the names of the contexts around it and its own, without the file's. -/
def path (cs : List Ctx) : Nat → Nat → List QString
  | 0, _ => []
  | n + 1, c =>
    match cs[c]? with
    | none => []
    | some x =>
      match x.parent with
      | none => []
      | some q => path cs n q ++ [x.name]

/-- The contexts of the namespaces with this identifier in a file. -/
def namespaces (s : St) (p : List QString) : List Nat :=
  (List.range s.ctxs.length).filter fun c =>
    (s.ctxs[c]?.map (·.kind) == some .namespace) && (path s.ctxs s.ctxs.length c == p)

/-- The files a search sees, the own one first, and the order in which declarations are found. -/
structure World where
  files : List St
  order : List (Nat × Nat) → List (Nat × Nat)

/-- All namespaces with this identifier: file and context. -/
def candidates (w : World) (p : List QString) : List (Nat × Nat) :=
  (List.range w.files.length).flatMap fun i =>
    match w.files[i]? with
    | none => []
    | some s => (namespaces s p).map fun c => (i, c)

/-- The context whose declarations are offered (context.cpp:1337-1347). -/
def chosen (w : World) (p : List QString) : Option (Nat × Nat) :=
  if p = [] then some (0, 0) else (w.order (candidates w p)).head?

/-- The declarations considered here. -/
def isDecl : Event → Bool
  | .type _ _ | .function _ | .namespace _ => true
  | _ => false

/-- `isValidCompletionItem` for these operations (context.cpp:1763-1768). -/
def isValid : Op → Event → Bool
  | .namespaceChoose, .namespace _ => true
  | .namespaceChoose, _ => false
  | .backslashAccess, _ => true

/-- The items (context.cpp:1352-1365). -/
def offered (w : World) (op : Op) (p : List QString) : List Event :=
  match chosen w p with
  | none => []
  | some (i, c) =>
    match w.files[i]? with
    | none => []
    | some s => (s.log.filter fun x => (x.2 == c) && isDecl x.1 && isValid op x.1).map (·.1)

/-! ### Specification -/

/-- The tokens of a name `A\B\` or `\A\B\` whose last part is still missing. -/
def nameTokens (lead : Bool) (parts : List QString) : List T :=
  (if lead then [.backslash] else []) ++ parts.flatMap fun n => [.string n, .backslash]

/-- The file opens this namespace, with `namespace A\B;` or `namespace A\B { … }`; the latter open `A`, too. -/
inductive Opens (f : List Outer) : NsName → Prop
  | decl (a b : NsName) : .nsDecl (a ++ b) ∈ f → a ≠ [] → Opens f a
  | block (a b : NsName) (c : Code) : .nsBlock (a ++ b) c ∈ f → a ≠ [] → Opens f a

/-- Its name, as names are compared: in lower case. -/
def Called (u : CharClass) (a : NsName) (p : List QString) : Prop := a.map (fun x => lowerStr u x.2) = p

/-- What is declared in the text of a file directly inside of this namespace. -/
def StandsIn (u : CharClass) (f : List Outer) (fs : List Frame) (e : Event) : Prop :=
  (e, fs) ∈ fileSites u false [] f ∧ ((∃ k n, e = .type k n) ∨ (∃ n, e = .function n) ∨ ∃ n, e = .namespace n)

/-- Which declarations are wanted: behind `namespace` only namespaces. -/
def Wanted (op : Op) (e : Event) : Prop := op = .namespaceChoose → ∃ n, e = .namespace n

/-- The world for files with these texts. -/
structure Texts (u : CharClass) (fs : List (List Outer)) (w : World) : Prop where
  own : fs ≠ []
  nodup : ∀ f ∈ fs, (fileKeys f).Nodup ∧ (fileTokens f).Nodup
  built : w.files = fs.map fun f => ((build u false f).map (·.2)).getD start
  perm : ∀ l, (w.order l).Perm l

/-! ### The tokens -/

theorem collect_parts : ∀ (parts : List QString) (rest : List T) (id : QString),
    collect ((parts.flatMap fun n => [T.string n, .backslash]).reverse ++ rest) id =
      collect rest (parts.flatMap (fun n => n ++ q! "::") ++ id)
  | [], rest, id => by simp
  | n :: r, rest, id => by
    rw [List.flatMap_cons, List.reverse_append, List.append_assoc, collect_parts r]
    simp [collect]

/-- No `:` in a name. -/
def Plain (n : QString) : Prop := n ≠ [] ∧ ∀ x ∈ n, x ≠ 58

theorem split_name : ∀ (n : QString) (acc r : QString), (∀ x ∈ n, x ≠ 58) → split (n ++ q! "::" ++ r) acc = (acc ++ n) :: split r []
  | [], acc, r, _ => by simp [split]
  | x :: n, acc, r, h => by
    have hx : x ≠ 58 := h x (by simp)
    have : split (x :: n ++ q! "::" ++ r) acc = split (n ++ q! "::" ++ r) (acc ++ [x]) := by
      show split (x :: (n ++ q! "::" ++ r)) acc = _
      rw [split]
      intro _ hx' _
      exact hx hx'
    rw [this, split_name n _ r fun y hy => h y (by simp [hy])]
    simp

theorem split_parts : ∀ (parts : List QString), (∀ n ∈ parts, Plain n) → split (parts.flatMap fun n => n ++ q! "::") [] = parts
  | [], _ => by simp [split]
  | n :: r, h => by
    rw [List.flatMap_cons, split_name n [] _ (h n (by simp)).2, split_parts r fun m hm => h m (by simp [hm])]
    simp

/-- **C99 (the name).** Behind `A\B\`, `\A\B\`, `namespace A\B\` and alone `\` the namespace that is looked for is the one
written, letter by letter; only namespaces are offered exactly if `namespace` is in front of it. -/
theorem analyse_name (before : List T) (lead : Bool) (parts : List QString) (hp : ∀ n ∈ parts, Plain n)
    (hb : ∀ s, before.getLast? ≠ some (.string s)) (hb' : before.getLast? ≠ some .backslash) :
    analyse (before ++ nameTokens lead parts) =
      (parts, if before.getLast? = some .namespaceKw then .namespaceChoose else .backslashAccess) := by
  have hstop : ∀ id, collect before.reverse id =
      (id, if before.getLast? = some .namespaceKw then .namespaceChoose else .backslashAccess) := by
    intro id
    rw [← List.head?_reverse] at hb hb' ⊢
    cases hr : before.reverse with
    | nil => simp [collect]
    | cons t r =>
      rw [hr] at hb hb'
      cases t with
      | string s => exact absurd rfl (hb s)
      | backslash => exact absurd rfl hb'
      | namespaceKw => simp [collect]
      | other => simp [collect]
  have hq : ∀ id, (∀ n ∈ parts, Plain n) → id = parts.flatMap (fun n => n ++ q! "::") → qualifiedId id = parts := by
    intro id hp hid
    cases parts with
    | nil => rw [hid]; simp [qualifiedId, split]
    | cons n r =>
      have hn := hp n (by simp)
      have : qualifiedId id = split id [] := by
        unfold qualifiedId
        split
        · rename_i r' 
          exfalso
          cases n with
          | nil => exact hn.1 rfl
          | cons y m =>
            have := (List.cons.inj hid).1
            exact hn.2 y (by simp) this.symm
        · rfl
      rw [this, hid, split_parts _ hp]
  unfold analyse nameTokens
  cases lead with
  | false =>
    simp only [Bool.false_eq_true, if_false, List.nil_append, List.reverse_append]
    rw [collect_parts, hstop]
    simp only [List.append_nil]
    rw [hq _ hp rfl]
  | true =>
    simp only [if_true, List.reverse_append]
    rw [List.append_assoc, collect_parts]
    simp only [List.reverse_cons, List.reverse_nil, List.nil_append, List.cons_append, List.append_nil]
    rw [collect, hstop]
    congr 1
    show split (parts.flatMap (fun n => n ++ q! "::")) [] = parts
    exact split_parts _ hp

/-! ### The contexts -/

theorem path_within {cs : List Ctx} {c : Nat} {fs : List Frame} (h : Within cs c fs) :
    ∀ n, c < n → path cs n c = (fs.dropLast.map (·.name)).reverse := by
  induction h with
  | file hx hp =>
    intro n hn
    cases n with
    | zero => omega
    | succ n => simp [path, hx, hp]
  | @inner c q x fs hx hp hlt hw ih =>
    intro n hn
    cases n with
    | zero => omega
    | succ n =>
      simp only [path, hx, hp]
      rw [ih n (by omega)]
      have hne : fs ≠ [] := by intro h; subst h; cases hw
      obtain ⟨a, l, rfl⟩ : ∃ a l, fs = a :: l := by
        cases fs with
        | nil => exact absurd rfl hne
        | cons a l => exact ⟨a, l, rfl⟩
      simp

theorem dropLast_inNamespace (u : CharClass) (a : NsName) :
    ((inNamespace u a).dropLast.map (·.name)).reverse = a.map (fun x => lowerStr u x.2) := by
  unfold inNamespace
  rw [List.dropLast_concat]
  simp [List.map_reverse, Function.comp_def]

theorem inNamespace_snoc (u : CharClass) (a : NsName) (x : Nat × QString) :
    inNamespace u (a ++ [x]) = ⟨some ⟨x.1, .whole⟩, .namespace, lowerStr u x.2⟩ :: inNamespace u a := by
  simp [inNamespace]

theorem nsScopes_mem (u : CharClass) : ∀ (n acc : NsName) (sc : Scope), sc ∈ nsScopes u (inNamespace u acc) n →
    ∃ a b, n = a ++ b ∧ a ≠ [] ∧ sc.frames = inNamespace u (acc ++ a)
  | [], _, _, h => by cases h
  | (id, n) :: ns, acc, sc, h => by
    simp only [nsScopes, List.mem_cons] at h
    rcases h with h | h
    · refine ⟨[(id, n)], ns, rfl, by simp, ?_⟩
      rw [h, inNamespace_snoc]
    · rw [← inNamespace_snoc u acc (id, n)] at h
      obtain ⟨a, b, h1, h2, h3⟩ := nsScopes_mem u ns _ sc h
      exact ⟨(id, n) :: a, b, by rw [h1]; rfl, by simp, by rw [h3]; simp⟩

theorem mem_nsScopes (u : CharClass) : ∀ (a b acc : NsName), a ≠ [] →
    ∃ sc ∈ nsScopes u (inNamespace u acc) (a ++ b), sc.frames = inNamespace u (acc ++ a)
  | [], _, _, h => absurd rfl h
  | (id, n) :: a, b, acc, _ => by
    by_cases ha : a = []
    · subst ha
      refine ⟨_, List.mem_cons_self, ?_⟩
      rw [inNamespace_snoc]
    · obtain ⟨sc, h1, h2⟩ := mem_nsScopes u a b (acc ++ [(id, n)]) ha
      rw [inNamespace_snoc] at h1
      exact ⟨sc, List.mem_cons_of_mem _ h1, by rw [h2]; simp⟩

theorem scopes_not_namespace (u : CharClass) (i : Bool) : ∀ (c : Code) (around : List Frame), ∀ sc ∈ scopes u i around c,
    ∃ fr rest, sc.frames = fr :: rest ∧ fr.kind ≠ .namespace
  | .empty, _, _, h => by cases h
  | .seq a b, around, sc, h => by
    rcases List.mem_append.mp h with h | h
    · exact scopes_not_namespace u i a around sc h
    · exact scopes_not_namespace u i b around sc h
  | .leaf _, _, _, h => by cases h
  | .closure id params hasUses uses body, around, sc, h => by
    simp only [scopes, List.mem_cons, List.mem_append] at h
    rcases h with (h | h) | h | h
    · rw [h]; exact ⟨_, _, rfl, by simp⟩
    · exact scopes_not_namespace u i params _ sc h
    · split at h
      · rcases List.mem_cons.mp h with h | h
        · rw [h]; exact ⟨_, _, rfl, by simp⟩
        · exact scopes_not_namespace u i uses _ sc h
      · cases h
    · split at h
      · cases h
      · rcases List.mem_cons.mp h with h | h
        · rw [h]; exact ⟨_, _, rfl, by simp⟩
        · exact scopes_not_namespace u i body _ sc h
  | .function id name params body, around, sc, h => by
    simp only [scopes, List.mem_cons, List.mem_append] at h
    rcases h with (h | h) | h
    · rw [h]; exact ⟨_, _, rfl, by simp⟩
    · exact scopes_not_namespace u i params _ sc h
    · split at h
      · cases h
      · rcases List.mem_cons.mp h with h | h
        · rw [h]; exact ⟨_, _, rfl, by simp⟩
        · exact scopes_not_namespace u i body _ sc h
  | .type id k name members, around, sc, h => by
    simp only [scopes, List.mem_cons] at h
    rcases h with h | h
    · rw [h]; exact ⟨_, _, rfl, by simp⟩
    · exact scopes_not_namespace u i members _ sc h
  | .method id name params hasBody body, around, sc, h => by
    simp only [scopes, List.mem_cons, List.mem_append] at h
    rcases h with (h | h) | h
    · rw [h]; exact ⟨_, _, rfl, by simp⟩
    · exact scopes_not_namespace u i params _ sc h
    · split at h
      · cases h
      · rcases List.mem_cons.mp h with h | h
        · rw [h]; exact ⟨_, _, rfl, by simp⟩
        · exact scopes_not_namespace u i body _ sc h

theorem Opens.cons {f : List Outer} {a : NsName} (o : Outer) (h : Opens f a) : Opens (o :: f) a := by
  cases h with
  | decl b h1 h2 => exact .decl _ b (List.mem_cons_of_mem _ h1) h2
  | block b c h1 h2 => exact .block _ b c (List.mem_cons_of_mem _ h1) h2

/-- The contexts of namespaces are those of the openings in the text. -/
theorem fileScopes_opens (u : CharClass) (i : Bool) : ∀ (f : List Outer) (ns : NsName) (sc : Scope) (fr : Frame) (rest : List Frame),
    sc ∈ fileScopes u i ns f → sc.frames = fr :: rest → fr.kind = .namespace → ∃ a, Opens f a ∧ sc.frames = inNamespace u a
  | [], _, _, _, _, h, _, _ => by cases h
  | .code c :: f, ns, sc, fr, rest, h, he, hk => by
    rcases List.mem_append.mp h with h | h
    · obtain ⟨_, _, h1, h2⟩ := scopes_not_namespace u i c _ sc h
      rw [he] at h1; cases h1; exact absurd hk h2
    · obtain ⟨a, h1, h2⟩ := fileScopes_opens u i f ns sc fr rest h he hk
      exact ⟨a, h1.cons _, h2⟩
  | .nsDecl n :: f, ns, sc, fr, rest, h, he, hk => by
    rcases List.mem_append.mp h with h | h
    · obtain ⟨a, b, h1, h2, h3⟩ := nsScopes_mem u n [] sc h
      exact ⟨a, .decl a b (by rw [h1]; exact List.mem_cons_self) h2, h3⟩
    · obtain ⟨a, h1, h2⟩ := fileScopes_opens u i f n sc fr rest h he hk
      exact ⟨a, h1.cons _, h2⟩
  | .nsBlock n b :: f, ns, sc, fr, rest, h, he, hk => by
    rcases List.mem_append.mp h with h | h
    · rcases List.mem_append.mp h with h | h
      · obtain ⟨a, b', h1, h2, h3⟩ := nsScopes_mem u n [] sc h
        exact ⟨a, .block a b' b (by rw [h1]; exact List.mem_cons_self) h2, h3⟩
      · obtain ⟨_, _, h1, h2⟩ := scopes_not_namespace u i b _ sc h
        rw [he] at h1; cases h1; exact absurd hk h2
    · obtain ⟨a, h1, h2⟩ := fileScopes_opens u i f [] sc fr rest h he hk
      exact ⟨a, h1.cons _, h2⟩

theorem opens_fileScopes (u : CharClass) (i : Bool) : ∀ (f : List Outer) (ns a : NsName), Opens f a →
    ∃ sc ∈ fileScopes u i ns f, sc.frames = inNamespace u a
  | [], _, _, h => by cases h <;> contradiction
  | o :: f, ns, a, h => by
    have hsub : ∀ {ns'}, (∃ sc ∈ fileScopes u i ns' f, sc.frames = inNamespace u a) → fileScopes u i ns (o :: f) = fileScopes u i ns (o :: f) →
        (∀ sc ∈ fileScopes u i ns' f, sc ∈ fileScopes u i ns (o :: f)) → ∃ sc ∈ fileScopes u i ns (o :: f), sc.frames = inNamespace u a := by
      intro ns' h _ hs
      obtain ⟨sc, h1, h2⟩ := h
      exact ⟨sc, hs sc h1, h2⟩
    have tail : Opens f a → ∃ sc ∈ fileScopes u i ns (o :: f), sc.frames = inNamespace u a := by
      intro h'
      cases o with
      | code c => exact hsub (opens_fileScopes u i f ns a h') rfl fun sc h => List.mem_append_right _ h
      | nsDecl n => exact hsub (opens_fileScopes u i f n a h') rfl fun sc h => List.mem_append_right _ h
      | nsBlock n b => exact hsub (opens_fileScopes u i f [] a h') rfl fun sc h => List.mem_append_right _ h
    cases h with
    | decl b h1 h2 =>
      rcases List.mem_cons.mp h1 with h1 | h1
      · obtain ⟨sc, h3, h4⟩ := mem_nsScopes u a b [] h2
        exact ⟨sc, by rw [← h1]; exact List.mem_append_left _ h3, h4⟩
      · exact tail (.decl a b h1 h2)
    | block b c h1 h2 =>
      rcases List.mem_cons.mp h1 with h1 | h1
      · obtain ⟨sc, h3, h4⟩ := mem_nsScopes u a b [] h2
        exact ⟨sc, by rw [← h1]; exact List.mem_append_left _ (List.mem_append_left _ h3), h4⟩
      · exact tail (.block a b c h1 h2)

theorem isDecl_iff (e : Event) : isDecl e = true ↔ (∃ k n, e = .type k n) ∨ (∃ n, e = .function n) ∨ ∃ n, e = .namespace n := by
  cases e <;> simp [isDecl]

theorem isValid_iff (op : Op) (e : Event) : isValid op e = true ↔ Wanted op e := by
  cases op <;> cases e <;> simp [isValid, Wanted]

/-- What is known about the result of the builders. -/
structure Built (u : CharClass) (f : List Outer) (s : St) : Prop where
  ofFile : Denote.OfFile u false f s.ctxs
  agrees : Agrees s.ctxs s.log (fileSites u false [] f)

theorem built (u : CharClass) (f : List Outer) (hk : (fileKeys f).Nodup) (ht : (fileTokens f).Nodup) :
    Built u f (((build u false f).map (·.2)).getD start) := by
  obtain ⟨s1, s2, hb, _, _, h0, hlen, hmade, ha, hc, hl⟩ := build_good u false f hk ht
  rw [hb]
  exact ⟨⟨by rw [← hc] at h0; exact h0, by rw [← hc] at hlen; exact hlen, by rw [← hc] at hmade; exact hmade, hk⟩, by rw [← hc, ← hl] at ha; exact ha⟩

/-- A context of a namespace is one of the openings in the text. -/
theorem Built.namespace_mem {u : CharClass} {f : List Outer} {s : St} (h : Built u f s) {p : List QString} {c : Nat}
    (hc : c ∈ namespaces s p) : ∃ a, Opens f a ∧ Called u a p ∧ Within s.ctxs c (inNamespace u a) := by
  simp only [namespaces, List.mem_filter, List.mem_range, Bool.and_eq_true, beq_iff_eq] at hc
  obtain ⟨hlt, hk, hp⟩ := hc
  have hc0 : c ≠ 0 := by
    intro h0
    rw [h0, h.ofFile.first] at hk
    cases hk
  obtain ⟨j, rfl⟩ : ∃ j, c = 1 + j := ⟨c - 1, by omega⟩
  have hj : j < (fileScopes u false [] f).length := by have := h.ofFile.len; omega
  have hm := Denote.madeAll_get h.ofFile.made (List.getElem?_eq_getElem hj)
  have hmem := List.getElem_mem hj
  generalize (fileScopes u false [] f)[j] = sc at hm hmem
  obtain ⟨hw, _⟩ := hm
  obtain ⟨fr, rest, he⟩ : ∃ fr rest, sc.frames = fr :: rest := by
    cases hf : sc.frames with
    | nil => rw [hf] at hw; cases hw
    | cons a l => exact ⟨a, l, rfl⟩
  have hkind : fr.kind = .namespace := by
    rw [he] at hw
    obtain ⟨x, hx, _, hx'⟩ := Denote.within_head hw
    rw [hx] at hk
    simp only [Option.map_some, Option.some.injEq] at hk
    rw [← hx', hk]
  obtain ⟨a, h1, h2⟩ := fileScopes_opens u false f [] sc fr rest hmem he hkind
  rw [h2] at hw
  refine ⟨a, h1, ?_, hw⟩
  rw [path_within hw _ hlt, dropLast_inNamespace] at hp
  exact hp

theorem Built.mem_namespace {u : CharClass} {f : List Outer} {s : St} (h : Built u f s) {a : NsName} {p : List QString}
    (ho : Opens f a) (hp : Called u a p) : ∃ c ∈ namespaces s p, Within s.ctxs c (inNamespace u a) := by
  obtain ⟨sc, h1, h2⟩ := opens_fileScopes u false f [] a ho
  obtain ⟨j, hj, rfl⟩ := List.getElem_of_mem h1
  have hm := Denote.madeAll_get h.ofFile.made (List.getElem?_eq_getElem hj)
  obtain ⟨hw, _⟩ := hm
  rw [h2] at hw
  refine ⟨1 + j, ?_, hw⟩
  simp only [namespaces, List.mem_filter, List.mem_range, Bool.and_eq_true, beq_iff_eq]
  have hlt := hw.lt
  refine ⟨hlt, ?_, ?_⟩
  · have hne : a ≠ [] := by cases ho <;> assumption
    obtain ⟨l, x, rfl⟩ : ∃ l x, a = l ++ [x] := ⟨_, _, (List.dropLast_concat_getLast hne).symm⟩
    rw [inNamespace_snoc] at hw
    obtain ⟨y, hy, _, hy'⟩ := Denote.within_head hw
    rw [hy]
    simp [hy']
  · rw [path_within hw _ hlt, dropLast_inNamespace]
    exact hp

theorem Built.file_ctx {u : CharClass} {f : List Outer} {s : St} (h : Built u f s) {c : Nat} (hw : Within s.ctxs c [fileFrame]) : c = 0 := by
  obtain ⟨x, hx, hx1, _⟩ := Denote.within_head hw
  by_cases hc0 : c = 0
  · exact hc0
  obtain ⟨j, rfl⟩ : ∃ j, c = 1 + j := ⟨c - 1, by omega⟩
  have hlt := hw.lt
  have hj : j < (fileScopes u false [] f).length := by have := h.ofFile.len; omega
  have hm := Denote.madeAll_get h.ofFile.made (List.getElem?_eq_getElem hj)
  have hs := Denote.fileScopes_shape u false f [] _ (List.getElem_mem hj)
  generalize (fileScopes u false [] f)[j] = sc at hm hs
  have := Within.unique hm.1 hw
  cases hs <;> cases this

/-- Two contexts in the same opening are the same. -/
theorem Built.same {u : CharClass} {f : List Outer} {s : St} (h : Built u f s) {c c' : Nat} {a : NsName}
    (hw : Within s.ctxs c (inNamespace u a)) (hw' : Within s.ctxs c' (inNamespace u a)) : c = c' := by
  by_cases hne : a = []
  · subst hne
    rw [h.file_ctx hw, h.file_ctx hw']
  · obtain ⟨l, x, rfl⟩ : ∃ l x, a = l ++ [x] := ⟨_, _, (List.dropLast_concat_getLast hne).symm⟩
    rw [inNamespace_snoc] at hw hw'
    obtain ⟨y, hy, hk, _⟩ := Denote.within_head hw
    obtain ⟨y', hy', hk', _⟩ := Denote.within_head hw'
    exact h.ofFile.unique hy hy' hk hk'

theorem Built.listed {u : CharClass} {f : List Outer} {s : St} (h : Built u f s) {c : Nat} {a : NsName}
    (hw : Within s.ctxs c (inNamespace u a)) (op : Op) (e : Event) :
    e ∈ (s.log.filter fun x => (x.2 == c) && isDecl x.1 && isValid op x.1).map (·.1) ↔
      StandsIn u f (inNamespace u a) e ∧ Wanted op e := by
  simp only [List.mem_map, List.mem_filter, Bool.and_eq_true, beq_iff_eq, Prod.exists]
  constructor
  · rintro ⟨e', c', ⟨hm, ⟨rfl, hd⟩, hv⟩, rfl⟩
    obtain ⟨fs, h1, h2⟩ := Denote.agrees_mem' h.agrees hm
    rw [Within.unique h2 hw] at h1
    exact ⟨⟨h1, (isDecl_iff _).mp hd⟩, (isValid_iff _ _).mp hv⟩
  · rintro ⟨⟨h1, hd⟩, hv⟩
    obtain ⟨c', h2, h3⟩ := Scopes.agrees_mem h.agrees h1
    exact ⟨e, c', ⟨h2, ⟨h.same h3 hw, (isDecl_iff _).mpr hd⟩, (isValid_iff _ _).mpr hv⟩, rfl⟩

/-! ### Theorems -/

theorem mem_candidates {w : World} {p : List QString} {i c : Nat} :
    (i, c) ∈ candidates w p ↔ ∃ s, w.files[i]? = some s ∧ c ∈ namespaces s p := by
  simp only [candidates, List.mem_flatMap, List.mem_range]
  constructor
  · rintro ⟨j, hj, h⟩
    rw [List.getElem?_eq_getElem hj] at h
    simp only [List.mem_map, Prod.mk.injEq] at h
    obtain ⟨c', h1, rfl, rfl⟩ := h
    exact ⟨_, List.getElem?_eq_getElem hj, h1⟩
  · rintro ⟨s, hs, hc⟩
    refine ⟨i, (List.getElem?_eq_some_iff.mp hs).1, ?_⟩
    rw [hs]
    simp [hc]

theorem Texts.file {u : CharClass} {fs : List (List Outer)} {w : World} (h : Texts u fs w) {i : Nat} {s : St}
    (hs : w.files[i]? = some s) : ∃ f, fs[i]? = some f ∧ Built u f s := by
  rw [h.built, List.getElem?_map] at hs
  cases hf : fs[i]? with
  | none => rw [hf] at hs; cases hs
  | some f =>
    rw [hf] at hs
    simp only [Option.map_some, Option.some.injEq] at hs
    obtain ⟨h1, h2⟩ := h.nodup f (List.mem_of_getElem? hf)
    exact ⟨f, rfl, hs ▸ NsChoose.built u f h1 h2⟩

theorem Texts.state {u : CharClass} {fs : List (List Outer)} {w : World} (h : Texts u fs w) {i : Nat} {f : List Outer}
    (hf : fs[i]? = some f) : ∃ s, w.files[i]? = some s ∧ Built u f s := by
  obtain ⟨h1, h2⟩ := h.nodup f (List.mem_of_getElem? hf)
  exact ⟨_, by rw [h.built, List.getElem?_map, hf]; rfl, NsChoose.built u f h1 h2⟩

/-- **C99 (a namespace).** If no file opens a namespace with the given name, nothing is offered.  Otherwise the declarations of exactly one of its openings are: all that stand
directly inside of this opening and are wanted, and nothing else. -/
theorem offered_opening {u : CharClass} {fs : List (List Outer)} {w : World} (h : Texts u fs w) (op : Op) {p : List QString} (hp : p ≠ []) :
    ((∀ f ∈ fs, ∀ a, Opens f a → ¬ Called u a p) ∧ offered w op p = []) ∨
    ∃ f ∈ fs, ∃ a, Opens f a ∧ Called u a p ∧ ∀ e, e ∈ offered w op p ↔ StandsIn u f (inNamespace u a) e ∧ Wanted op e := by
  cases hh : (w.order (candidates w p)).head? with
  | none =>
    refine .inl ⟨?_, by simp [offered, chosen, hp, hh]⟩
    intro f hf a ho hc
    obtain ⟨i, hi, rfl⟩ := List.getElem_of_mem hf
    obtain ⟨s, hs, hb⟩ := h.state (List.getElem?_eq_getElem hi)
    obtain ⟨c, hm, _⟩ := hb.mem_namespace ho hc
    have hmem := (h.perm _).mem_iff.mpr (mem_candidates.mpr ⟨s, hs, hm⟩)
    rw [List.head?_eq_none_iff.mp hh] at hmem
    cases hmem
  | some ic =>
    obtain ⟨i, c⟩ := ic
    have hmem := (h.perm _).mem_iff.mp (List.mem_of_head? hh)
    obtain ⟨s, hs, hc⟩ := mem_candidates.mp hmem
    obtain ⟨f, hf, hb⟩ := h.file hs
    obtain ⟨a, ho, hca, hw⟩ := hb.namespace_mem hc
    refine .inr ⟨f, List.mem_of_getElem? hf, a, ho, hca, ?_⟩
    intro e
    rw [← hb.listed hw op e]
    simp [offered, chosen, hp, hh, hs]

/-- **C99 (nothing foreign).** Everything offered is declared directly in the namespace with the given name, in some file that can be seen. -/
theorem offered_sound {u : CharClass} {fs : List (List Outer)} {w : World} (h : Texts u fs w) (op : Op) {p : List QString} (hp : p ≠ []) {e : Event}
    (he : e ∈ offered w op p) : ∃ f ∈ fs, ∃ a, Opens f a ∧ Called u a p ∧ StandsIn u f (inNamespace u a) e ∧ Wanted op e := by
  rcases offered_opening h op hp with ⟨_, h2⟩ | ⟨f, hf, a, ho, hc, hi⟩
  · rw [h2] at he; cases he
  · obtain ⟨h1, h2⟩ := (hi e).mp he
    exact ⟨f, hf, a, ho, hc, h1, h2⟩

/-- **C99 (nothing missing, partial).** If the namespace is opened only once in all the files, everything that is declared in it and wanted is offered. -/
theorem offered_complete_partial {u : CharClass} {fs : List (List Outer)} {w : World} (h : Texts u fs w) (op : Op) {p : List QString} (hp : p ≠ [])
    {f : List Outer} (hf : f ∈ fs) {a : NsName} (ho : Opens f a) (hc : Called u a p)
    (once : ∀ f' ∈ fs, ∀ a', Opens f' a' → Called u a' p → f' = f ∧ a' = a) (e : Event) :
    e ∈ offered w op p ↔ StandsIn u f (inNamespace u a) e ∧ Wanted op e := by
  rcases offered_opening h op hp with ⟨h1, _⟩ | ⟨f', hf', a', ho', hc', hi⟩
  · exact absurd hc (h1 f hf a ho)
  · obtain ⟨rfl, rfl⟩ := once f' hf' a' ho' hc'
    exact hi e

/-- **C99 (behind a backslash alone).** The declarations of the own file outside of all namespaces are offered, and nothing of the other files. -/
theorem offered_global {u : CharClass} {f : List Outer} {fs : List (List Outer)} {w : World} (h : Texts u (f :: fs) w) (op : Op) (e : Event) :
    e ∈ offered w op [] ↔ StandsIn u f [fileFrame] e ∧ Wanted op e := by
  obtain ⟨s, hs, hb⟩ := h.state (i := 0) (f := f) rfl
  have hw : Within s.ctxs 0 (inNamespace u []) := by
    have := Within.file hb.ofFile.first rfl
    exact this
  have := hb.listed hw op e
  simp only [offered, chosen, if_true, hs]
  exact this

/-- **C99 (letter case).** If a part of the name is not written in lower case, nothing is offered, whatever is declared. -/
theorem upper_never {u : CharClass} (hu : u.Lawful) {fs : List (List Outer)} {w : World} (h : Texts u fs w) (op : Op) {p : List QString} {n : QString}
    (hn : n ∈ p) (hl : lowerStr u n ≠ n) : offered w op p = [] := by
  have hp : p ≠ [] := by intro h; subst h; cases hn
  rcases offered_opening h op hp with ⟨_, h2⟩ | ⟨f, _, a, _, hc, _⟩
  · exact h2
  · unfold Called at hc
    rw [← hc] at hn
    obtain ⟨x, _, rfl⟩ := List.mem_map.mp hn
    exact absurd (Redeclared.lowerStr_idem hu _) hl

/-! ### Cases -/

/-- The own file: `namespace My\Ns { class C {} function f() { class D {} } } namespace My { interface I {} } namespace { class G {} }`. -/
def exOwn : List Outer :=
  [.nsBlock [(1, q! "My"), (2, q! "Ns")] (.seq (.type 3 .klass (q! "C") .empty) (.function 4 (q! "f") .empty (.type 5 .klass (q! "D") .empty))),
   .nsBlock [(6, q! "My")] (.type 7 .interface (q! "I") .empty),
   .nsBlock [] (.type 8 .klass (q! "G") .empty)]

/-- An included file: `<?php class H {}`. -/
def exOther : List Outer := [.code (.type 1 .klass (q! "H") .empty)]

/-- The declarations in the order of the text. -/
def exWorld (u : CharClass) : World :=
  ⟨[exOwn, exOther].map fun f => ((build u false f).map (·.2)).getD start, id⟩

theorem ex_texts (u : CharClass) : Texts u [exOwn, exOther] (exWorld u) := by
  refine ⟨by simp, ?_, rfl, fun l => List.Perm.refl _⟩
  intro f hf
  simp only [List.mem_cons, List.not_mem_nil, or_false] at hf
  rcases hf with rfl | rfl <;> exact ⟨by decide, by decide⟩

/-- Behind `my\ns\` the class and the function are offered. -/
theorem ex_found : offered (exWorld asciiClass) .backslashAccess (analyse [.other, .string (q! "my"), .backslash, .string (q! "ns"), .backslash]).1 =
    [.type .klass (q! "c"), .function (q! "f")] := by decide +kernel

/-- Behind `My\Ns\`, as it is written in the file, nothing is offered: names are kept in lower case and the search depends on
the case. -/
theorem upper_case_nothing : offered (exWorld asciiClass) .backslashAccess (analyse [.other, .string (q! "My"), .backslash, .string (q! "Ns"), .backslash]).1 = [] ∧
    StandsIn asciiClass exOwn (inNamespace asciiClass [(1, q! "My"), (2, q! "Ns")]) (.type .klass (q! "c")) :=
  ⟨by decide +kernel, by decide +kernel, .inl ⟨_, _, rfl⟩⟩

/-- Behind `my\` only one of the two openings of the namespace is listed: the interface is missing. -/
theorem one_opening_only : offered (exWorld asciiClass) .backslashAccess (analyse [.string (q! "my"), .backslash]).1 = [.namespace (q! "ns")] ∧
    StandsIn asciiClass exOwn (inNamespace asciiClass [(6, q! "My")]) (.type .interface (q! "i")) :=
  ⟨by decide +kernel, by decide +kernel, .inl ⟨_, _, rfl⟩⟩

/-- Behind `\` alone the class of the included file is missing. -/
theorem included_missing : offered (exWorld asciiClass) .backslashAccess (analyse [.backslash]).1 = [.namespace (q! "my"), .namespace (q! "my"), .type .klass (q! "g")] ∧
    StandsIn asciiClass exOther [fileFrame] (.type .klass (q! "h")) :=
  ⟨by decide +kernel, by decide +kernel, .inl ⟨_, _, rfl⟩⟩

/-- Behind `namespace` only namespaces are offered. -/
theorem ex_namespace : analyse [.namespaceKw, .string (q! "my"), .backslash] = ([q! "my"], .namespaceChoose) ∧
    offered (exWorld asciiClass) .namespaceChoose [] = [.namespace (q! "my"), .namespace (q! "my")] := by decide +kernel

/-- The hypotheses of `offered_complete_partial` are met. -/
theorem ex_once : Opens exOwn [(1, q! "My"), (2, q! "Ns")] ∧ Called asciiClass [(1, q! "My"), (2, q! "Ns")] [q! "my", q! "ns"] ∧
    ∀ f' ∈ [exOwn, exOther], ∀ a', Opens f' a' → Called asciiClass a' [q! "my", q! "ns"] → f' = exOwn ∧ a' = [(1, q! "My"), (2, q! "Ns")] := by
  refine ⟨.block _ [] _ List.mem_cons_self (by simp), (by show _ = _; decide +kernel), ?_⟩
  intro f' hf' a' ho hc
  have hlen : a'.length = 2 := by
    have := congrArg List.length hc
    simpa using this
  simp only [List.mem_cons, List.not_mem_nil, or_false] at hf'
  rcases hf' with rfl | rfl
  · refine ⟨rfl, ?_⟩
    cases ho with
    | decl b h1 _ => simp [exOwn] at h1
    | block b c h1 _ =>
      simp only [exOwn, List.mem_cons, List.not_mem_nil, or_false, Outer.nsBlock.injEq] at h1
      rcases h1 with h1 | h1 | h1
      · exact (List.append_inj (h1.1.trans (List.append_nil _).symm) hlen).1
      · have := congrArg List.length h1.1
        simp [hlen] at this
        omega
      · have := congrArg List.length h1.1
        simp [hlen] at this
  · cases ho with
    | decl b h1 _ => simp [exOther] at h1
    | block b c h1 _ => simp [exOther] at h1

end KPhp.NsChoose
