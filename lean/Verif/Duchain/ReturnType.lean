import Verif.Duchain.Variables
/-!
# Inferred return types (C31)

Models the return-type part of `TypeBuilder::visitStatement` (duchain/builders/typebuilder.cpp:470-525) and its
frame in `visitFunctionDeclarationStatement`, `visitClosure` and the method part of `visitClassStatement`
(typebuilder.cpp:299-321, 417-464): the flag `m_gotReturnTypeFromDocComment` is a member of the builder,
set when a function begins.

Simplified: generators (`visitVarExpression`) are left out; a function body is the list of what happens
in it in visiting order: return statements and nested functions.
-/
namespace KPhp.ReturnType
open KPhp.Variables (alternatives)

/-- typebuilder.cpp:480-482: references are ignored. -/
def stripRef : Ty → Ty
  | .ref b => b
  | t => t

/-- typebuilder.cpp:497: one is `callable`, the other a function. -/
def callableMerge : Ty → Ty → Bool
  | .ext .callable, .func _ => true
  | .func _, .ext .callable => true
  | _, _ => false

/-- typebuilder.cpp:501-520: the merged unsure type. -/
def mergeUnsure : Ty → Ty → Ty
  | .unsure ts, .unsure us => .unsure (addTypes ts us)                    -- :506-510
  | .unsure ts, t => .unsure (addType ts t)                               -- :511-514
  | o, .unsure us => .unsure (addType us o)                               -- :516-517, :522
  | o, t => .unsure (addType (addType [] t) o)                            -- :518-522

/-- typebuilder.cpp:476-529: the return type after a `return` of an expression of type `t` (already stripped
of its reference). -/
def merge (old : Option Ty) (t : Ty) : Ty :=
  match old with
  | none => t                                                             -- :527
  | some o =>
    if o = t then t                                                       -- :484, :527
    else if o = .mixed then t                                             -- :489-493
    else if callableMerge o t then .ext .callable                         -- :494-497
    else mergeUnsure o t                                                  -- :498-525

/-- typebuilder.cpp:472-531: one `return` statement; `t` is the type of the expression, if any;
`declared` is `m_gotReturnTypeFromDocComment`. -/
def onReturn (declared : Bool) (old : Option Ty) (t : Option Ty) : Option Ty :=
  if declared then old
  else match t with
    | none => old
    | some t => some (merge old (stripRef t))

/-- What happens in a function body. -/
inductive Stmt
  /-- `return e;` with the type of `e`, if it is known -/
  | ret (t : Option Ty)
  /-- a nested function or closure with its declared return type (hint or doc comment), if any -/
  | nested (declared : Option Ty) (body : List Stmt)

/-- The state of the builder: the flag and the return type of the current function. -/
structure B where
  flag : Bool
  cur : Option Ty

mutual
/-- typebuilder.cpp:470-531 and 445-464 -/
def visit (b : B) : Stmt → B
  | .ret t => { b with cur := onReturn b.flag b.cur t }
  | .nested d body =>
    -- the nested function has its own type; the flag is overwritten and not restored (:452)
    { flag := (visits ⟨d.isSome, d⟩ body).flag, cur := b.cur }
/-- The statements of a body in order. -/
def visits (b : B) : List Stmt → B
  | [] => b
  | s :: ss => visits (visit b s) ss
end

/-- typebuilder.cpp:417-443: the return type of a function with the given declared return type and body;
`void` when nothing is returned. -/
def returnTypeOf (declared : Option Ty) (body : List Stmt) : Ty :=
  ((visits ⟨declared.isSome, declared⟩ body).cur).getD (.integral .void)

/-! ### Specification -/

/-- Every nested function, at any depth, has a declared return type iff `d`. -/
inductive Nested (d : Bool) : List Stmt → Prop
  | nil : Nested d []
  | ret (t : Option Ty) {ss : List Stmt} : Nested d ss → Nested d (.ret t :: ss)
  | nested (decl : Option Ty) (body : List Stmt) {ss : List Stmt} :
      decl.isSome = d → Nested d body → Nested d ss → Nested d (.nested decl body :: ss)

/-- The known types returned by the function itself (not by nested ones), references ignored. -/
def returned (body : List Stmt) : List Ty :=
  body.filterMap fun | .ret (some (.ref t)) => some t | .ret (some t) => some t | _ => none

/-- The alternatives of a return type. -/
def choices : Ty → List Ty
  | .unsure ts => ts
  | t => [t]

/-- A type returned before which nothing was known is forgotten. -/
def known (ts : List Ty) : List Ty := ts.dropWhile (· == Ty.mixed)

/-- `callable` and functions do not meet. -/
def NoCallableMix (ts : List Ty) : Prop :=
  Ty.ext .callable ∉ ts ∨ ∀ n, Ty.func n ∉ ts

/-! ### Proofs -/

theorem visits_flag {d : Bool} {body : List Stmt} (h : Nested d body) :
    ∀ cur, (visits ⟨d, cur⟩ body).flag = d := by
  induction h with
  | nil => intro cur; rfl
  | ret t _ ih => intro cur; rw [visits, visit]; exact ih _
  | nested decl body hd _ _ ihb ih =>
    intro cur
    rw [visits, visit, hd, ihb]
    exact ih _

/-- **C31.** A declared return type is kept, whatever is returned, in a function whose nested functions (if
any) all have declared return types. -/
theorem declared_kept_partial (d : Ty) (body : List Stmt) (hf : Nested true body) :
    returnTypeOf (some d) body = d := by
  have : ∀ body, Nested true body → visits ⟨true, some d⟩ body = ⟨true, some d⟩ := by
    intro body h
    induction h with
    | nil => rfl
    | ret t _ ih => rw [visits, visit]; exact ih
    | nested decl body hd hb _ _ ih =>
      rw [visits, visit, hd, visits_flag hb]
      exact ih
  unfold returnTypeOf
  simp [this body hf]

/-- **C31, limit.** A nested function without declared return type switches the inference on for the rest of
the enclosing function: its declared return type is changed. -/
theorem declared_lost (d t : Ty) (hne : d ≠ t) (hm : d ≠ .mixed) (hp : KPhp.Variables.Plain d)
    (ht : KPhp.Variables.Plain t) (hc : callableMerge d t = false) :
    returnTypeOf (some d) [.nested none [], .ret (some t)] = .unsure [t, d] := by
  simp only [returnTypeOf, visits, visit, onReturn, Option.isSome, Bool.false_eq_true, if_false]
  have hs : stripRef t = t := by cases t <;> simp [KPhp.Variables.Plain] at ht <;> rfl
  rw [hs]
  simp only [merge, hne, hm, hc, if_false, Bool.false_eq_true, Option.getD_some]
  have : mergeUnsure d t = .unsure (addType (addType [] t) d) := by
    cases d <;> cases t <;> simp [KPhp.Variables.Plain] at hp ht <;> rfl
  rw [this]
  simp [addType, hne]

/-- **C31, limit.** The other way round, a nested function with a declared return type switches the inference
off: a later `return` of the enclosing function is ignored. -/
theorem return_lost (d t : Ty) :
    returnTypeOf none [.nested (some d) [], .ret (some t)] = .integral .void := rfl

/-- The types merged one after the other. -/
def merges (old : Option Ty) (ts : List Ty) : Option Ty := ts.foldl (fun o t => some (merge o t)) old

theorem visits_flat {body : List Stmt} (hf : Nested false body) :
    ∀ old, (visits ⟨false, old⟩ body) = ⟨false, merges old (returned body)⟩ := by
  induction hf with
  | nil => intro old; rfl
  | ret t _ ih =>
    intro old
    rw [visits, visit, ih]
    cases t with
    | none => simp [onReturn, returned]
    | some t => cases t <;> simp [onReturn, returned, merges, stripRef]
  | nested decl body hd hb _ _ ih =>
    intro old
    rw [visits, visit, hd, visits_flag hb, ih]
    simp [returned]

theorem mem_choices_mergeUnsure {o t x : Ty} :
    x ∈ choices (mergeUnsure o t) ↔ x ∈ choices o ∨ x ∈ choices t := by
  cases o <;> cases t <;>
    simp only [mergeUnsure, choices, mem_addTypes, mem_addType, List.mem_singleton, List.not_mem_nil, false_or] <;>
    first | exact Iff.rfl | exact or_comm

theorem merge_choices {o t : Ty} (hm : o ≠ .mixed) (hc : callableMerge o t = false) {x : Ty} :
    x ∈ choices (merge (some o) t) ↔ x ∈ choices o ∨ x ∈ choices t := by
  unfold merge
  by_cases he : o = t
  · subst he; simp
  · simp only [he, hm, hc, if_false, Bool.false_eq_true]
    exact mem_choices_mergeUnsure

theorem mergeUnsure_isUnsure (o t : Ty) : ∃ ts, mergeUnsure o t = .unsure ts := by
  unfold mergeUnsure; split <;> exact ⟨_, rfl⟩

theorem merge_ne_mixed {o t : Ty} (hm : o ≠ .mixed) : merge (some o) t ≠ .mixed := by
  unfold merge
  by_cases he : o = t
  · subst he; simpa using hm
  · simp only [he, hm, if_false]
    split
    · simp
    · obtain ⟨ts, h⟩ := mergeUnsure_isUnsure o t
      rw [h]; simp

theorem callableMerge_false {o t : Ty} {l : List Ty} (h : NoCallableMix l)
    (ho : ∀ x ∈ choices o, x ∈ l) (ht : ∀ x ∈ choices t, x ∈ l) : callableMerge o t = false := by
  unfold callableMerge
  split
  · exfalso
    have h1 := ho (.ext .callable) (by simp [choices])
    have h2 := ht _ (List.mem_singleton.2 rfl)
    rcases h with h | h
    · exact h h1
    · exact h _ h2
  · exfalso
    have h2 := ht (.ext .callable) (by simp [choices])
    have h1 := ho _ (List.mem_singleton.2 rfl)
    rcases h with h | h
    · exact h h2
    · exact h _ h1
  · rfl

theorem merges_choices {o : Ty} (hm : o ≠ .mixed) (ts : List Ty)
    (hc : NoCallableMix (choices o ++ ts.flatMap choices)) :
    ∃ r, merges (some o) ts = some r ∧ r ≠ .mixed ∧ ∀ x, x ∈ choices r ↔ x ∈ choices o ∨ x ∈ ts.flatMap choices := by
  induction ts generalizing o with
  | nil => exact ⟨o, rfl, hm, by simp⟩
  | cons t ts ih =>
    have hcf : callableMerge o t = false :=
      callableMerge_false hc (fun x hx => by simp [hx]) (fun x hx => by simp [hx])
    have hmem := fun x => merge_choices (x := x) hm hcf
    have hc' : NoCallableMix (choices (merge (some o) t) ++ ts.flatMap choices) := by
      rcases hc with h | h
      · left
        intro hh; apply h
        simp only [List.mem_append, hmem, List.flatMap_cons] at hh ⊢
        rcases hh with (hh | hh) | hh <;> simp [hh]
      · right
        intro n hh; apply h n
        simp only [List.mem_append, hmem, List.flatMap_cons] at hh ⊢
        rcases hh with (hh | hh) | hh <;> simp [hh]
    obtain ⟨r, h1, h2, h3⟩ := ih (merge_ne_mixed hm) hc'
    refine ⟨r, h1, h2, ?_⟩
    intro x
    rw [h3, hmem]
    simp only [List.flatMap_cons, List.mem_append, or_assoc]

theorem nodup_mergeUnsure {o t : Ty} (ho : (choices o).Nodup) (ht : (choices t).Nodup) :
    (choices (mergeUnsure o t)).Nodup := by
  unfold mergeUnsure
  split
  · exact nodup_addTypes ho
  · exact nodup_addType ho
  · exact nodup_addType ht
  · exact nodup_addType (nodup_addType List.nodup_nil)

theorem nodup_merge {o : Option Ty} {t : Ty} (ho : ∀ x, o = some x → (choices x).Nodup) (ht : (choices t).Nodup) :
    (choices (merge o t)).Nodup := by
  unfold merge
  split
  · exact ht
  · split
    · exact ht
    · split
      · exact ht
      · split
        · simp [choices]
        · exact nodup_mergeUnsure (ho _ rfl) ht

theorem nodup_merges (ts : List Ty) (hn : ∀ t ∈ ts, (choices t).Nodup) (o : Option Ty)
    (ho : ∀ x, o = some x → (choices x).Nodup) : ∀ r, merges o ts = some r → (choices r).Nodup := by
  induction ts generalizing o with
  | nil => exact ho
  | cons t ts ih =>
    apply ih (fun t h => hn t (by simp [h]))
    intro x hx
    simp only [Option.some.injEq] at hx
    subst hx
    exact nodup_merge ho (hn t (by simp))

theorem merges_mixed (ts : List Ty) : merges (some .mixed) ts = some (match known ts with
    | [] => .mixed
    | k :: ks => (merges (some k) ks).getD .mixed) := by
  induction ts with
  | nil => rfl
  | cons t ts ih =>
    show merges (some (merge (some .mixed) t)) ts = _
    by_cases he : t = .mixed
    · subst he
      have : merge (some .mixed) Ty.mixed = .mixed := by simp [merge]
      rw [this, ih]
      simp [known, List.dropWhile]
    · have hb : (t == Ty.mixed) = false := by simpa using he
      have : merge (some .mixed) t = t := by
        have : Ty.mixed ≠ t := fun h => he h.symm
        simp [merge, this]
      rw [this]
      simp only [known, List.dropWhile, hb]
      have : ∀ ts (o : Ty), ∃ r, merges (some o) ts = some r := by
        intro ts
        induction ts with
        | nil => intro o; exact ⟨o, rfl⟩
        | cons t ts ih => intro o; exact ih _
      obtain ⟨r, hr⟩ := this ts t
      rw [hr]; rfl

theorem merges_none (ts : List Ty) : merges none ts = match ts with
    | [] => none
    | t :: ts => merges (some t) ts := by
  cases ts <;> rfl

/-- **C31.** The inferred return type of a function (whose nested functions have no declared return types)
that returns some proper type:
its alternatives are exactly the alternatives of the types returned after the leading unknown ones, provided
`callable` and real functions are not both returned; none is listed twice. -/
theorem inferred_return_type_partial (body : List Stmt) (hf : Nested false body)
    (hk : known (returned body) ≠ []) (hc : NoCallableMix ((known (returned body)).flatMap choices)) :
    (∀ x, x ∈ choices (returnTypeOf none body) ↔ ∃ t ∈ known (returned body), x ∈ choices t) ∧
    ((∀ t ∈ returned body, (choices t).Nodup) → (choices (returnTypeOf none body)).Nodup) := by
  have hv : returnTypeOf none body = (merges none (returned body)).getD (.integral .void) := by
    unfold returnTypeOf
    rw [show (Option.isSome (none : Option Ty)) = false from rfl, visits_flat hf]
  rw [hv]
  generalize returned body = ts at *
  constructor
  · cases ts with
    | nil => simp [known] at hk
    | cons t ts =>
      rw [merges_none]
      simp only []
      have main : ∀ k ks, known (t :: ts) = k :: ks → merges (some t) ts = merges (some k) ks := by
        intro k ks hkk
        by_cases he : t = .mixed
        · subst he
          rw [merges_mixed]
          have : known (Ty.mixed :: ts) = known ts := by simp [known, List.dropWhile]
          rw [this] at hkk
          rw [hkk]
          have : ∀ ts (o : Ty), ∃ r, merges (some o) ts = some r := by
            intro ts
            induction ts with
            | nil => intro o; exact ⟨o, rfl⟩
            | cons t ts ih => intro o; exact ih _
          obtain ⟨r, hr⟩ := this ks k
          simp [hr]
        · have hb : (t == Ty.mixed) = false := by simpa using he
          simp only [known, List.dropWhile, hb, List.cons.injEq] at hkk
          rw [hkk.1, hkk.2]
      cases hkk : known (t :: ts) with
      | nil => exact absurd hkk hk
      | cons k ks =>
        rw [main k ks hkk]
        rw [hkk] at hc
        have hkm : k ≠ .mixed := by
          have := List.head_dropWhile_not (p := (· == Ty.mixed)) (l := t :: ts) (by
            show known (t :: ts) ≠ []; rw [hkk]; simp)
          have h2 : (known (t :: ts)).head (by rw [hkk]; simp) = k := by simp [hkk]
          unfold known at h2
          rw [h2] at this
          simpa using this
        obtain ⟨r, h1, -, h3⟩ := merges_choices hkm ks (by simpa using hc)
        intro x
        rw [h1]
        simp only [Option.getD_some, h3, List.mem_flatMap]
        constructor
        · rintro (h | ⟨a, h1, h2⟩)
          · exact ⟨k, by simp, h⟩
          · exact ⟨a, by simp [h1], h2⟩
        · rintro ⟨a, h1, h2⟩
          rcases List.mem_cons.1 h1 with h | h
          · subst h; exact .inl h2
          · exact .inr ⟨a, h, h2⟩
  · intro hn
    have := nodup_merges ts hn none (by simp)
    cases hm : merges none ts with
    | none => simp [choices]
    | some r => exact this r hm

/-- **C31.** A function that returns nothing has the return type `void`; one that returns only unknown values
`mixed`; one that always returns the same type that type. -/
theorem uniform_return_type_partial (body : List Stmt) (hf : Nested false body) :
    (returned body = [] → returnTypeOf none body = .integral .void) ∧
    (∀ t, returned body ≠ [] → (∀ x ∈ returned body, x = t) → returnTypeOf none body = t) := by
  have hv : returnTypeOf none body = (merges none (returned body)).getD (.integral .void) := by
    unfold returnTypeOf
    rw [show (Option.isSome (none : Option Ty)) = false from rfl, visits_flat hf]
  rw [hv]
  constructor
  · intro h; rw [h]; rfl
  · intro t hne hall
    generalize returned body = ts at *
    cases ts with
    | nil => exact absurd rfl hne
    | cons a ts =>
      rw [merges_none]
      have ha : a = t := hall a (by simp)
      subst ha
      have : ∀ ts : List Ty, (∀ x ∈ ts, x = a) → merges (some a) ts = some a := by
        intro ts
        induction ts with
        | nil => intro _; rfl
        | cons b ts ih =>
          intro h
          have hb : b = a := h b (by simp)
          subst hb
          show merges (some (merge (some b) b)) ts = _
          have : merge (some b) b = b := by simp [merge]
          rw [this]
          exact ih (fun x hx => h x (by simp [hx]))
      simp only []
      rw [this ts (fun x hx => hall x (by simp [hx]))]
      rfl

/-- **C31.** A function returning `callable` and a real function, in either order, is a `callable`. -/
theorem callable_return_type (n : Nat) :
    returnTypeOf none [.ret (some (.ext .callable)), .ret (some (.func n))] = .ext .callable ∧
    returnTypeOf none [.ret (some (.func n)), .ret (some (.ext .callable))] = .ext .callable := ⟨rfl, rfl⟩

/-! ### Concrete cases -/

-- `return $unknown; return 1; return &$s; return 2;`
example : returnTypeOf none [.ret (some .mixed), .ret (some (.integral .int)), .ret (some (.ref (.integral .string))),
    .ret none, .ret (some (.integral .int))] = .unsure [.integral .string, .integral .int] := rfl
-- the same with a nested function; the hypotheses are met
example : Nested false [.ret (some .mixed), .nested none [.ret (some .null)], .ret (some (.integral .int)),
      .ret (some (.ref (.integral .string)))] ∧
    known (returned [.ret (some .mixed), .nested none [.ret (some .null)], .ret (some (.integral .int)),
      .ret (some (.ref (.integral .string)))]) = [.integral .int, .integral .string] :=
  ⟨.ret _ (.nested _ _ rfl (.ret _ .nil) (.ret _ (.ret _ .nil))), rfl⟩
example : NoCallableMix (([.integral .int, .integral .string] : List Ty).flatMap choices) := by
  left; decide
example : returnTypeOf (some (.integral .int)) [.nested (some .null) [.ret (some .mixed)], .ret (some .null)] =
    .integral .int := declared_kept_partial _ _ (.nested _ _ rfl (.ret _ .nil) (.ret _ .nil))
-- a later `mixed` is listed although the source says "don't add TypeMixed to the list"
example : returnTypeOf none [.ret (some (.integral .int)), .ret (some .mixed)] = .unsure [.mixed, .integral .int] := rfl

end KPhp.ReturnType
