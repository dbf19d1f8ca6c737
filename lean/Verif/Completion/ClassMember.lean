import Verif.Completion.MethodTokens
import Verif.Duchain.Members
/-!
# Completion inside a class body (C34, C36)

Models the branch `ClassMemberChoose` of `CodeCompletionContext::completionItems`
(completion/context.cpp:1181-1337): the keywords offered and the members of base classes offered for overriding.

Taken from KDevPlatform: `DUContext::allDeclarations` lists (declaration, depth) pairs, the members of the class
itself (depth 0) before those of imported (base class) contexts; `ClassDeclaration::isPublicBaseClass`.
-/
namespace KPhp.Completion
open Members (Access)

/-- The modifiers and filters computed at completion/context.cpp:1185-1260. -/
structure Choice where
  keywords : List QString
  showOverloadable : Bool
  filterStatic : Bool
  filterNonStatic : Bool
  filterPublic : Bool
deriving Repr, DecidableEq

/-- completion/context.cpp:1198-1260; `modifiers` is `getMethodTokens(m_text)`, `isAbstract` whether the class is
declared abstract. -/
def choose (isAbstract : Bool) (modifiers : List QString) : Choice :=
  let has (k : QString) : Bool := modifiers.contains k
  let addKeywords := !has (q! "function")                                             -- :1202
  let kw1 :=
    if isAbstract then
      (if has (q! "abstract") then [] else if addKeywords then [q! "abstract"] else [])  -- :1204-1211
    else (if addKeywords && !has (q! "final") then [q! "final"] else [])              -- :1213-1216
  let show1 := !(isAbstract && has (q! "abstract"))
  let kw2 :=
    if has (q! "private") || has (q! "protected") then []
    else if addKeywords && !has (q! "public") then [q! "public", q! "protected", q! "private"] else []  -- :1219-1229
  let kw3 := if has (q! "static") then [] else if addKeywords then [q! "static"] else []  -- :1231-1239
  let kw4 := if addKeywords then [q! "function"] else []                              -- :1241-1243
  let kw5 := if modifiers.isEmpty then [q! "var", q! "const"] else []                 -- :1245-1249
  { keywords := kw1 ++ kw2 ++ kw3 ++ kw4 ++ kw5
    showOverloadable := show1 && !has (q! "private")                                  -- :1207, :1221
    filterPublic := !has (q! "private") && has (q! "protected")                       -- :1222-1224
    filterNonStatic := has (q! "static")                                              -- :1232
    filterStatic := !has (q! "static") && !addKeywords }                              -- :1237

/-- A class member as seen by the loop: identifier, attributes, whether its class is known and a (transitive)
base class of the current class, and the number of base class steps to it. -/
structure Entry where
  name : Nat
  depth : Nat
  isMember : Bool
  isFunction : Bool
  access : Access
  isStatic : Bool
  isFinal : Bool
  isAbstract : Bool
  hasOwner : Bool
  ownerIsBase : Bool
deriving Repr, DecidableEq

/-- completion/implementationitem.h:33-37 -/
inductive HelperType | OverrideVar | Override | Implement
deriving Repr, DecidableEq

/-- What one entry leads to: completion/context.cpp:1283-1330. -/
inductive Verdict
  | skip
  | mark
  | offer (h : HelperType)
deriving Repr, DecidableEq

/-- completion/context.cpp:1314-1322 -/
def helperType (e : Entry) : HelperType :=
  if !e.isFunction then .OverrideVar else if e.isAbstract then .Implement else .Override

/-- completion/context.cpp:1283-1330: `done` is `alreadyImplemented`. -/
def verdict (c : Choice) (done : List Nat) (e : Entry) : Verdict :=
  if !e.isMember then .skip                                         -- :1276
  else if e.depth == 0 then .mark                                   -- :1277-1281
  else if done.contains e.name then .skip                           -- :1283-1285
  else if c.filterNonStatic && !e.isStatic then .skip               -- :1287-1289
  else if c.filterStatic && e.isStatic then .skip                   -- :1291-1293
  else if e.access == .Private then .skip                           -- :1295-1297
  else if c.filterPublic && e.access == .Public then .mark          -- :1299-1303
  else if e.isFunction && e.isFinal then .mark                      -- :1305-1309
  else if !e.hasOwner then .skip                                    -- :1311-1314
  else if !e.ownerIsBase then .skip                                 -- :1315-1318
  else .offer (helperType e)

/-- completion/context.cpp:1270-1332: the loop over all declarations. -/
def overrideLoop (c : Choice) : List Nat → List Entry → List (Entry × HelperType)
  | _, [] => []
  | done, e :: es =>
    match verdict c done e with
    | .skip => overrideLoop c done es
    | .mark => overrideLoop c (e.name :: done) es
    | .offer h => (e, h) :: overrideLoop c (e.name :: done) es

/-- completion/context.cpp:1263-1333: `hasBases` is `baseClassesSize() != 0`. -/
def overrides (c : Choice) (hasBases : Bool) (all : List Entry) : List (Entry × HelperType) :=
  if c.showOverloadable && hasBases then overrideLoop c [] all else []

/-! ## C36 -/

/-- Two modifiers of which PHP allows only one, or the same modifier twice. -/
def Conflict (a b : QString) : Prop :=
  a = b ∨ (a ∈ [q! "public", q! "protected", q! "private"] ∧ b ∈ [q! "public", q! "protected", q! "private"])

theorem choose_keywords (isAbstract : Bool) (ms : List QString) (k : QString) :
    k ∈ (choose isAbstract ms).keywords ↔
      (q! "function" ∉ ms ∧
        ((isAbstract = true ∧ k = q! "abstract" ∧ q! "abstract" ∉ ms) ∨
         (isAbstract = false ∧ k = q! "final" ∧ q! "final" ∉ ms) ∨
         (k ∈ [q! "public", q! "protected", q! "private"] ∧
            q! "public" ∉ ms ∧ q! "protected" ∉ ms ∧ q! "private" ∉ ms) ∨
         (k = q! "static" ∧ q! "static" ∉ ms) ∨ k = q! "function")) ∨
      (ms = [] ∧ k ∈ [q! "var", q! "const"]) := by
  have hc : ∀ k : QString, (ms.contains k = true) = (k ∈ ms) := fun k => by simp
  have he : (ms.isEmpty = true) = (ms = []) := by simp
  unfold choose
  simp only [List.mem_append]
  by_cases h1 : q! "function" ∈ ms <;> by_cases h2 : q! "private" ∈ ms <;> by_cases h3 : q! "protected" ∈ ms <;>
    by_cases h4 : q! "public" ∈ ms <;> cases isAbstract <;> by_cases h5 : q! "abstract" ∈ ms <;>
    by_cases h6 : q! "final" ∈ ms <;> by_cases h7 : q! "static" ∈ ms <;> by_cases h8 : ms = [] <;>
    first
      | (exfalso; subst h8; simp at *; done)
      | (simp [h1, h2, h3, h4, h5, h6, h7, h8]; try grind)

/-- **C36.** A keyword that is already written is never offered, a second visibility is never offered, and after
`function` nothing is offered. The words `ws` before the cursor are the ones of `AllModifiers`; every text has such a
reading (`every_text_written`). Missing from the full property: `abstract` against `final` or `private`, see
`final_offers_abstract`. -/
theorem keyword_no_conflict_partial {u : CharClass} (hu : u.Lawful) (isAbstract : Bool) (pre : QString) (ws : List Word)
    (h : AllModifiers u pre ws) (k : QString)
    (hk : k ∈ (choose isAbstract (getMethodTokens u (written pre ws))).keywords) :
    (∀ w ∈ ws, ¬ Conflict k w.keyword) ∧ (∀ w ∈ ws, w.keyword ≠ q! "function") ∧
    (k ∈ [q! "var", q! "const"] → ws = []) ∧ (k = q! "abstract" → isAbstract = true) ∧
    (k = q! "final" → isAbstract = false) := by
  rw [method_tokens_written hu pre ws h, choose_keywords] at hk
  have hmem : ∀ x, x ∉ ws.map Word.keyword → ∀ w ∈ ws, w.keyword ≠ x := by
    intro x hx w hw he
    exact hx (he ▸ List.mem_map_of_mem hw)
  rcases hk with ⟨hf, hk⟩ | ⟨he, hk⟩
  · have hf' := hmem _ hf
    refine ⟨?_, hf', ?_, ?_, ?_⟩
    · rintro w hw (rfl | ⟨hc1, hc2⟩)
      · rcases hk with ⟨_, hk, hn⟩ | ⟨_, hk, hn⟩ | ⟨hk, h1, h2, h3⟩ | ⟨hk, hn⟩ | hk
        · exact hmem _ hn w hw hk
        · exact hmem _ hn w hw hk
        · simp only [List.mem_cons, List.not_mem_nil, or_false] at hk
          rcases hk with hk | hk | hk
          · exact hmem _ h1 w hw hk
          · exact hmem _ h2 w hw hk
          · exact hmem _ h3 w hw hk
        · exact hmem _ hn w hw hk
        · exact hf' w hw hk
      · rcases hk with ⟨_, hk, hn⟩ | ⟨_, hk, hn⟩ | ⟨hk, h1, h2, h3⟩ | ⟨hk, hn⟩ | hk
        · rw [hk] at hc1; exact absurd hc1 (by decide)
        · rw [hk] at hc1; exact absurd hc1 (by decide)
        · simp only [List.mem_cons, List.not_mem_nil, or_false] at hc2
          rcases hc2 with hk | hk | hk
          · exact hmem _ h1 w hw hk
          · exact hmem _ h2 w hw hk
          · exact hmem _ h3 w hw hk
        · rw [hk] at hc1; exact absurd hc1 (by decide)
        · rw [hk] at hc1; exact absurd hc1 (by decide)
    · intro hv
      simp only [List.mem_cons, List.not_mem_nil, or_false] at hv hk
      rcases hv with rfl | rfl <;> exact absurd hk (by simp)
    · rintro rfl
      simp at hk; exact hk.1
    · rintro rfl
      simp at hk; exact hk.1
  · have hws : ws = [] := by simpa using he
    subst hws
    refine ⟨by simp, by simp, fun _ => rfl, ?_, ?_⟩
    · rintro rfl; exact absurd hk (by decide)
    · rintro rfl; exact absurd hk (by decide)

/-- In an empty class body everything that can start a member is offered. -/
theorem empty_body_keywords (isAbstract : Bool) :
    (choose isAbstract []).keywords = (if isAbstract then [q! "abstract"] else [q! "final"]) ++
      [q! "public", q! "protected", q! "private", q! "static", q! "function", q! "var", q! "const"] := by
  cases isAbstract <;> decide +kernel

/-- The full C36 does not hold: in an abstract class `abstract` is offered after `final` and after `private`, with
which PHP does not allow it; in another class `final` is offered after `abstract`. -/
theorem final_offers_abstract :
    q! "abstract" ∈ (choose true (getMethodTokens asciiClass (q! "final "))).keywords ∧
    q! "abstract" ∈ (choose true (getMethodTokens asciiClass (q! "private "))).keywords ∧
    q! "final" ∈ (choose false (getMethodTokens asciiClass (q! "abstract "))).keywords := by
  decide +kernel

/-- which filters follow from the words -/
theorem choose_filters (isAbstract : Bool) (ms : List QString) :
    ((choose isAbstract ms).showOverloadable = true ↔
      ¬ (isAbstract = true ∧ q! "abstract" ∈ ms) ∧ q! "private" ∉ ms) ∧
    ((choose isAbstract ms).filterPublic = true ↔ q! "protected" ∈ ms ∧ q! "private" ∉ ms) ∧
    ((choose isAbstract ms).filterNonStatic = true ↔ q! "static" ∈ ms) ∧
    ((choose isAbstract ms).filterStatic = true ↔ q! "static" ∉ ms ∧ q! "function" ∈ ms) := by
  unfold choose
  refine ⟨?_, ?_, ?_, ?_⟩
  · by_cases h1 : q! "abstract" ∈ ms <;> by_cases h2 : q! "private" ∈ ms <;> cases isAbstract <;> simp [h1, h2]
  · by_cases h1 : q! "protected" ∈ ms <;> by_cases h2 : q! "private" ∈ ms <;> simp [h1, h2]
  · by_cases h1 : q! "static" ∈ ms <;> simp [h1]
  · by_cases h1 : q! "static" ∈ ms <;> by_cases h2 : q! "function" ∈ ms <;> simp [h1, h2]

/-! ## C34 -/

/-- The staticness filter lets the member pass. -/
def PassesStatic (c : Choice) (e : Entry) : Prop :=
  (c.filterNonStatic = true → e.isStatic = true) ∧ (c.filterStatic = true → e.isStatic = false)

/-- A member of a base class that may be overridden with what has been typed. -/
structure Overridable (c : Choice) (e : Entry) : Prop where
  member : e.isMember = true
  inherited : e.depth ≠ 0
  notPrivate : e.access ≠ .Private
  notFinal : ¬ (e.isFunction = true ∧ e.isFinal = true)
  notPublic : c.filterPublic = true → e.access ≠ .Public
  static : PassesStatic c e
  owner : e.hasOwner = true
  base : e.ownerIsBase = true

/-- A declaration that takes its name out of the list: a member of the class itself, or an inherited one that passes
the staticness filter and is final, too visible, or offered itself. -/
def Blocks (c : Choice) (e : Entry) : Prop :=
  e.isMember = true ∧ (e.depth = 0 ∨
    (PassesStatic c e ∧ e.access ≠ .Private ∧
      ((c.filterPublic = true ∧ e.access = .Public) ∨ (e.isFunction = true ∧ e.isFinal = true) ∨
        (e.hasOwner = true ∧ e.ownerIsBase = true))))

theorem verdict_offer (c : Choice) (done : List Nat) (e : Entry) (h : HelperType) :
    verdict c done e = .offer h ↔ Overridable c e ∧ e.name ∉ done ∧ h = helperType e := by
  have hd : (done.contains e.name = true) = (e.name ∈ done) := by simp
  constructor
  · intro hv
    unfold verdict at hv
    repeat' split at hv
    all_goals simp only [reduceCtorEq, Verdict.offer.injEq] at hv
    rename_i h1 h2 h3 h4 h5 h6 h7 h8 h9 h10
    refine ⟨⟨by simpa using h1, by simpa using h2, by simpa using h6, ?_, ?_, ⟨?_, ?_⟩, by simpa using h9, by simpa using h10⟩, by simpa using h3, hv.symm⟩
    · simpa using h8
    · simpa using h7
    · simpa using h4
    · simpa using h5
  · rintro ⟨⟨h1, h2, h3, h4, h5, ⟨h6, h7⟩, h8, h9⟩, hn, rfl⟩
    unfold verdict
    have e4 : ¬ ((c.filterNonStatic && !e.isStatic) = true) := by simpa using h6
    have e5 : ¬ ((c.filterStatic && e.isStatic) = true) := by simpa using h7
    have e6 : ¬ ((c.filterPublic && e.access == .Public) = true) := by simpa using h5
    have e7 : ¬ ((e.isFunction && e.isFinal) = true) := by simpa using h4
    simp [h1, h2, h3, e4, e5, e6, e7, h8, h9, hn]

theorem verdict_of_ne_skip (c : Choice) (done : List Nat) (e : Entry) (h : verdict c done e ≠ .skip) :
    verdict c [] e = verdict c done e := by
  unfold verdict at h ⊢
  by_cases hm : e.isMember = true <;> by_cases hd : e.depth = 0 <;> by_cases hn : e.name ∈ done <;>
    simp [hm, hd, hn] at h ⊢

theorem verdict_of_skip (c : Choice) (done : List Nat) (e : Entry) (h : verdict c done e = .skip) :
    e.name ∈ done ∨ verdict c [] e = .skip := by
  by_cases hn : e.name ∈ done
  · exact Or.inl hn
  · right
    unfold verdict at h ⊢
    by_cases hm : e.isMember = true <;> by_cases hd : e.depth = 0 <;> simp [hm, hd, hn] at h ⊢
    exact h

theorem verdict_blocks (c : Choice) (e : Entry) : verdict c [] e ≠ .skip ↔ Blocks c e := by
  unfold verdict Blocks PassesStatic
  cases e with
  | mk n d a b acc s f ab ho ob =>
  cases hc1 : c.filterNonStatic <;> cases hc2 : c.filterStatic <;> cases hc3 : c.filterPublic <;>
    cases a <;> cases b <;> cases acc <;> cases s <;> cases f <;> cases ho <;> cases ob <;>
    by_cases hd : d = 0 <;> simp [hd]

theorem loop_iff (c : Choice) (es : List Entry) (done : List Nat) (x : Entry × HelperType) :
    x ∈ overrideLoop c done es ↔ ∃ pre post, es = pre ++ x.1 :: post ∧ Overridable c x.1 ∧ x.1.name ∉ done ∧
      (∀ y ∈ pre, Blocks c y → y.name ≠ x.1.name) ∧ x.2 = helperType x.1 := by
  induction es generalizing done with
  | nil => simp [overrideLoop]
  | cons e es ih =>
    have key : ∀ done', (∀ n, n ∈ done' ↔ n ∈ done ∨ (Blocks c e ∧ n = e.name)) →
        (x ∈ overrideLoop c done' es ↔ ∃ pre post, e :: es = e :: pre ++ x.1 :: post ∧ Overridable c x.1 ∧
          x.1.name ∉ done ∧ (∀ y ∈ e :: pre, Blocks c y → y.name ≠ x.1.name) ∧ x.2 = helperType x.1) := by
      intro done' hd
      rw [ih]
      constructor
      · rintro ⟨pre, post, h1, h2, h3, h4, h5⟩
        refine ⟨pre, post, by rw [h1]; rfl, h2, fun hc => h3 ((hd _).2 (Or.inl hc)), ?_, h5⟩
        intro y hy hb
        rcases List.mem_cons.1 hy with rfl | hy
        · intro he; exact h3 ((hd _).2 (Or.inr ⟨hb, he.symm⟩))
        · exact h4 y hy hb
      · rintro ⟨pre, post, h1, h2, h3, h4, h5⟩
        refine ⟨pre, post, by simpa using h1, h2, ?_, fun y hy => h4 y (List.mem_cons_of_mem _ hy), h5⟩
        intro hc
        rcases (hd _).1 hc with hc | ⟨hb, he⟩
        · exact h3 hc
        · exact h4 e (by simp) hb he.symm
    have cases' : (∃ pre post, e :: es = pre ++ x.1 :: post ∧ Overridable c x.1 ∧ x.1.name ∉ done ∧
          (∀ y ∈ pre, Blocks c y → y.name ≠ x.1.name) ∧ x.2 = helperType x.1) ↔
        (x.1 = e ∧ Overridable c x.1 ∧ x.1.name ∉ done ∧ x.2 = helperType x.1) ∨
        (∃ pre post, e :: es = e :: pre ++ x.1 :: post ∧ Overridable c x.1 ∧
          x.1.name ∉ done ∧ (∀ y ∈ e :: pre, Blocks c y → y.name ≠ x.1.name) ∧ x.2 = helperType x.1) := by
      constructor
      · rintro ⟨pre, post, h1, h2, h3, h4, h5⟩
        cases pre with
        | nil => simp at h1; exact Or.inl ⟨h1.1.symm, h2, h3, h5⟩
        | cons p pre =>
          have hp : e = p := by simp at h1; exact h1.1
          subst hp
          exact Or.inr ⟨pre, post, h1, h2, h3, h4, h5⟩
      · rintro (⟨rfl, h2, h3, h5⟩ | ⟨pre, post, h1, h2, h3, h4, h5⟩)
        · exact ⟨[], es, rfl, h2, h3, by simp, h5⟩
        · exact ⟨e :: pre, post, h1, h2, h3, h4, h5⟩
    rw [cases']
    have hb : verdict c [] e ≠ .skip ↔ Blocks c e := verdict_blocks c e
    rw [overrideLoop]
    cases hv : verdict c done e with
    | skip =>
      have hno : ¬ (x.1 = e ∧ Overridable c x.1 ∧ x.1.name ∉ done ∧ x.2 = helperType x.1) := by
        rintro ⟨rfl, h2, h3, h5⟩
        have := (verdict_offer c done x.1 x.2).2 ⟨h2, h3, h5⟩
        rw [hv] at this; exact absurd this (by simp)
      have hd : ∀ n, n ∈ done ↔ n ∈ done ∨ (Blocks c e ∧ n = e.name) := by
        intro n
        refine ⟨Or.inl, ?_⟩
        rintro (h | ⟨hbl, rfl⟩)
        · exact h
        · rcases verdict_of_skip c done e hv with h | h
          · exact h
          · exact absurd h (hb.2 hbl)
      simp only
      rw [key done hd]
      constructor
      · exact Or.inr
      · rintro (h | h)
        · exact absurd h hno
        · exact h
    | mark =>
      have hno : ¬ (x.1 = e ∧ Overridable c x.1 ∧ x.1.name ∉ done ∧ x.2 = helperType x.1) := by
        rintro ⟨rfl, h2, h3, h5⟩
        have := (verdict_offer c done x.1 x.2).2 ⟨h2, h3, h5⟩
        rw [hv] at this; exact absurd this (by simp)
      have hbl : Blocks c e := by
        rw [← hb, verdict_of_ne_skip c done e (by rw [hv]; simp), hv]
        simp
      simp only
      rw [key (e.name :: done) (by intro n; simp [hbl, or_comm])]
      constructor
      · exact Or.inr
      · rintro (h | h)
        · exact absurd h hno
        · exact h
    | offer t =>
      have ho := (verdict_offer c done e t).1 hv
      have hbl : Blocks c e := by
        rw [← hb, verdict_of_ne_skip c done e (by rw [hv]; simp), hv]
        simp
      rw [List.mem_cons, key (e.name :: done) (by intro n; simp [hbl, or_comm])]
      constructor
      · rintro (rfl | h)
        · exact Or.inl ⟨rfl, ho⟩
        · exact Or.inr h
      · rintro (⟨he, h2, h3, h5⟩ | h)
        · refine Or.inl ?_
          rw [← he] at ho
          rw [Prod.ext_iff]
          exact ⟨he, by rw [h5, ho.2.2]⟩
        · exact Or.inr h

theorem loop_nodup (c : Choice) (es : List Entry) (done : List Nat) :
    ((overrideLoop c done es).map (fun x => x.1.name)).Nodup ∧
      ∀ x ∈ overrideLoop c done es, x.1.name ∉ done := by
  have h2 : ∀ (es : List Entry) (done : List Nat), ∀ x ∈ overrideLoop c done es, x.1.name ∉ done := by
    intro es done x hx
    obtain ⟨_, _, _, _, h, _⟩ := (loop_iff c es done x).1 hx
    exact h
  refine ⟨?_, h2 es done⟩
  induction es generalizing done with
  | nil => simp [overrideLoop]
  | cons e es ih =>
    rw [overrideLoop]
    cases verdict c done e with
    | skip => exact ih _
    | mark => exact ih _
    | offer t =>
      simp only [List.map_cons, List.nodup_cons]
      refine ⟨?_, ih _⟩
      intro hc
      obtain ⟨x, hx, he⟩ := List.mem_map.1 hc
      exact h2 es (e.name :: done) x hx (by rw [he]; simp)

/-- **C34 (what is offered).** The override list contains exactly the overridable members of base classes whose name
is not taken by an earlier (nearer) declaration; the kind of item is `OverrideVar` for a property, `Implement` for an
abstract method, else `Override`. `all` is the list of all members, nearest first. -/
theorem override_list (c : Choice) (hasBases : Bool) (all : List Entry) (e : Entry) (h : HelperType) :
    (e, h) ∈ overrides c hasBases all ↔ c.showOverloadable = true ∧ hasBases = true ∧
      (∃ nearer farther, all = nearer ++ e :: farther ∧ Overridable c e ∧
        ∀ y ∈ nearer, Blocks c y → y.name ≠ e.name) ∧ h = helperType e := by
  unfold overrides
  by_cases hs : (c.showOverloadable && hasBases) = true
  · rw [if_pos hs, loop_iff]
    rw [Bool.and_eq_true] at hs
    constructor
    · rintro ⟨pre, post, h1, h2, _, h4, h5⟩; exact ⟨hs.1, hs.2, ⟨pre, post, h1, h2, h4⟩, h5⟩
    · rintro ⟨_, _, ⟨pre, post, h1, h2, h4⟩, h5⟩; exact ⟨pre, post, h1, h2, by simp, h4, h5⟩
  · rw [if_neg hs]
    rw [Bool.and_eq_true] at hs
    constructor
    · intro h; exact absurd h (by simp)
    · rintro ⟨h1, h2, _⟩; exact absurd ⟨h1, h2⟩ hs

/-- **C34 (each name once).** -/
theorem override_once (c : Choice) (hasBases : Bool) (all : List Entry) :
    ((overrides c hasBases all).map (fun x => x.1.name)).Nodup := by
  unfold overrides
  split
  · exact (loop_nodup c all []).1
  · simp

/-- **C34.** No private, final or own member is offered, and no name that the class itself declares, provided its own
members are listed first. -/
theorem override_excludes (c : Choice) (hasBases : Bool) (own inherited : List Entry)
    (hown : ∀ y ∈ own, y.depth = 0)
    (x : Entry × HelperType) (hx : x ∈ overrides c hasBases (own ++ inherited)) :
    x.1 ∈ inherited ∧ x.1.access ≠ .Private ∧ ¬ (x.1.isFunction = true ∧ x.1.isFinal = true) ∧
      ∀ y ∈ own, y.isMember = true → y.name ≠ x.1.name := by
  obtain ⟨e, h⟩ := x
  obtain ⟨_, _, ⟨pre, post, h1, h2, h3⟩, _⟩ := (override_list c hasBases _ e h).1 hx
  have hd : e.depth ≠ 0 := h2.inherited
  have hmem : e ∈ own ++ inherited := by rw [h1]; simp
  have hi : e ∈ inherited := by
    rcases List.mem_append.1 hmem with h | h
    · exact absurd (hown e h) hd
    · exact h
  refine ⟨hi, h2.notPrivate, h2.notFinal, ?_⟩
  intro y hy hm
  refine h3 y ?_ ⟨hm, Or.inl (hown y hy)⟩
  -- own members come before `e`
  rcases List.append_eq_append_iff.1 h1 with ⟨a, ha, _⟩ | ⟨b, hb, hb2⟩
  · rw [ha]; exact List.mem_append_left _ hy
  · cases b with
    | nil => rw [List.append_nil] at hb; rw [← hb]; exact hy
    | cons z b =>
      have hz : e = z := by
        rw [List.cons_append] at hb2
        exact (List.cons.inj hb2).1
      exact absurd (hown e (by rw [hb, hz]; simp)) hd

/-- **C34 (nearest declaration wins), partial.** Provided the nearer members of the same name are not private, agree in
staticness and belong to base classes (as PHP requires of overriding methods), an offered member is not redeclared
nearer. Missing: nearer private or differently static members do not hide farther ones, see
`private_redeclaration_ignored`. -/
theorem override_nearest_partial (c : Choice) (hasBases : Bool) (nearer farther : List Entry) (e : Entry) (h : HelperType)
    (hx : (e, h) ∈ overrides c hasBases (nearer ++ e :: farther)) (honce : e ∉ nearer ∧ e ∉ farther)
    (hphp : ∀ y ∈ nearer, y.name = e.name → y.isMember = true ∧ (y.depth = 0 ∨ (y.access ≠ .Private ∧
      y.isStatic = e.isStatic ∧ y.hasOwner = true ∧ y.ownerIsBase = true))) :
    ∀ y ∈ nearer, y.name ≠ e.name := by
  obtain ⟨_, _, ⟨pre, post, h1, h2, h3⟩, _⟩ := (override_list c hasBases _ e h).1 hx
  have hpre : pre = nearer := by
    rcases List.append_eq_append_iff.1 h1 with ⟨a, ha, ha2⟩ | ⟨b, hb, hb2⟩
    · cases a with
      | nil => simpa using ha
      | cons z a =>
        have hz := List.cons.inj ha2
        exact absurd (by rw [hz.2]; simp) honce.2
    · cases b with
      | nil => simpa using hb.symm
      | cons z b =>
        have hz := List.cons.inj hb2
        exact absurd (by rw [hb, hz.1]; simp) honce.1
  subst hpre
  intro y hy hn
  obtain ⟨hm, hrest⟩ := hphp y hy hn
  refine h3 y hy ⟨hm, ?_⟩ hn
  rcases hrest with h0 | ⟨h4, h5, h6, h7⟩
  · exact Or.inl h0
  · refine Or.inr ⟨?_, h4, Or.inr (Or.inr ⟨h6, h7⟩)⟩
    unfold PassesStatic; rw [h5]; exact h2.static

/-- A public method `1` of a base class two steps away … -/
def farPublic : Entry := ⟨1, 2, true, true, .Public, false, false, false, true, true⟩
/-- … redeclared private one step away. -/
def nearPrivate : Entry := ⟨1, 1, true, true, .Private, false, false, false, true, true⟩

/-- The full C34 does not hold: a nearer private redeclaration is ignored and the farther member is offered. -/
theorem private_redeclaration_ignored :
    (farPublic, HelperType.Override) ∈ overrides (choose false []) true [nearPrivate, farPublic] := by
  decide +kernel

/-- an own method hides the inherited one; a final method hides the one it overrides; the rest is offered once -/
example : overrides (choose false [q! "function", q! "protected"]) true
    [⟨1, 0, true, true, .Public, false, false, false, true, true⟩,
     ⟨2, 1, true, true, .Protected, false, true, false, true, true⟩,
     ⟨3, 1, true, true, .Protected, false, false, true, true, true⟩,
     ⟨1, 1, true, true, .Protected, false, false, false, true, true⟩,
     ⟨2, 2, true, true, .Protected, false, false, false, true, true⟩,
     ⟨3, 2, true, true, .Protected, false, false, false, true, true⟩,
     ⟨4, 2, true, true, .Public, false, false, false, true, true⟩] =
    [(⟨3, 1, true, true, .Protected, false, false, true, true, true⟩, .Implement)] := by decide +kernel

end KPhp.Completion
