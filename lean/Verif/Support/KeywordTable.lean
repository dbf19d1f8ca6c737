import Verif.Support.Keyword
import Verif.Lexer.Model
/-!
# What the offered keywords insert (C95)

Models the keywords the completion offers outside of member accesses (completion/context.cpp:1596-1650, the macros of lines
215-216) and what choosing one of them inserts (completion/keyworditem.cpp:51-103, with the branch for keywords without a
template, lines 99-102). The expansion of the templates is the model of C43 (`KPhp.Keyword.execute`).
-/
namespace KPhp.Keyword.Table

/-- completion/context.cpp:1601-1649: the keywords with their templates, the empty text for `ADD_KEYWORD` -/
def offered : List (QString × QString) :=
  [
   (q! "abstract class", q! "abstract class %SELECT%NAME%ENDSELECT% {\n%INDENT%\n}\n"),
   (q! "final class", q! "final class %SELECT%NAME%ENDSELECT% {\n%INDENT%\n}\n"),
   (q! "class", q! "class %SELECT%NAME%ENDSELECT% {\n%INDENT%\n}\n"),
   (q! "interface", q! "interface %SELECT%NAME%ENDSELECT% {\n%INDENT%\n}\n"),
   (q! "array", q! "array(\n%INDENT%%CURSOR%\n)"),
   (q! "break", q! "break;\n"),
   (q! "case", q! "case %SELECT%CASE%ENDSELECT%:\n%INDENT%\n%INDENT%break;\n"),
   (q! "throw", q! "throw %CURSOR%;\n"),
   (q! "try", q! "try {\n%INDENT%%CURSOR%\n} catch() {\n$%INDENT%\n}\n"),
   (q! "catch", q! "catch(%CURSOR%) {\n%INDENT%\n}\n"),
   (q! "clone", q! "clone %CURSOR%;\n"),
   (q! "continue", q! "continue;\n"),
   (q! "declare", q! "declare(%CURSOR%);\n"),
   (q! "default", q! "default:\n%INDENT%%CURSOR%\n%INDENT%break;\n"),
   (q! "do", q! "do {\n%INDENT%%CURSOR%\n} while();\n"),
   (q! "echo", q! "echo %CURSOR%;\n"),
   (q! "else", q! "else {\n%INDENT%%CURSOR%\n}\n"),
   (q! "elseif", q! "elseif (%CURSOR%) {\n%INDENT%\n}\n"),
   (q! "endif", q! "endif;"),
   (q! "endforeach", q! "endforeach;"),
   (q! "endswitch", q! "endswitch;"),
   (q! "endwhile", q! "endwhile;"),
   (q! "endfor", q! "endfor;"),
   (q! "enddeclare", q! "enddeclare;"),
   (q! "empty", q! "empty(%CURSOR%)"),
   (q! "eval", q! "eval(%CURSOR%)"),
   (q! "die", q! "die(%CURSOR%);\n"),
   (q! "exit", q! "exit(%CURSOR%);\n"),
   (q! "extends", q! ""),
   (q! "implements", q! ""),
   (q! "for", q! "for(%CURSOR%;;) {\n%INDENT%\n}\n"),
   (q! "foreach", q! "foreach(%CURSOR%) {\n%INDENT%\n}\n"),
   (q! "function", q! "function %SELECT%NAME%ENDSELECT%() {\n%INDENT%\n}\n"),
   (q! "global", q! "global $%CURSOR%;"),
   (q! "if", q! "if (%CURSOR%) {\n%INDENT%\n}\n"),
   (q! "include", q! "include '%CURSOR%';\n"),
   (q! "include_once", q! "include_once '%CURSOR%';\n"),
   (q! "require", q! "require '%CURSOR%';\n"),
   (q! "require_once", q! "require_once '%CURSOR%';\n"),
   (q! "isset", q! "isset(%CURSOR%)"),
   (q! "list", q! "list(%CURSOR%)"),
   (q! "print", q! "print %CURSOR%;\n"),
   (q! "return", q! "return %CURSOR%;\n"),
   (q! "static", q! "static $%CURSOR%%;\n"),
   (q! "unset", q! "unset(%CURSOR%);\n"),
   (q! "while", q! "while (%CURSOR%) {\n%INDENT%\n}\n"),
   (q! "switch", q! "switch (%CURSOR%) {\n%INDENT%\n}\n")]

/-- completion/context.cpp:1596: the keywords are offered if no member is accessed -/
def keywordItems (noMemberAccess : Bool) : List (QString × QString) := if noMemberAccess then offered else []

/-- completion/keyworditem.cpp:51-103: what replaces the word, and where the cursor is put (`none`: it is not moved). A keyword
without template is followed by a blank. -/
def choose (u : CharClass) (item : QString × QString) (line : QString) (width : Option Nat) (start : Cursor) :
    QString × Option Cursor :=
  if item.2 = [] then (item.1 ++ [32], none) else execute u item.2 line width start

/-! ## Specification -/

/-- brackets are closed in the order they are opened -/
inductive Balanced : QString → Prop
  | nil : Balanced []
  | other (c : QChar) (s : QString) (h : c ∉ q! "(){}") : Balanced s → Balanced (c :: s)
  | round (a b : QString) : Balanced a → Balanced b → Balanced ((c! '(') :: (a ++ (c! ')') :: b))
  | curly (a b : QString) : Balanced a → Balanced b → Balanced ((c! '{') :: (a ++ (c! '}') :: b))

/-- every line break is followed by the indentation -/
def BreaksIndented (indentation s : QString) : Prop := ∀ a b, s = a ++ 10 :: b → indentation <+: b

/-- the templates in which the cursor stands in the second line -/
def below : List QString := [q! "array", q! "try", q! "default", q! "do", q! "else"]

/-! ## The templates, taken apart -/

/-- all templates but the one of `static` -/
def templates : List Template :=
  [
   ⟨q! "abstract class ", [(SELECT, q! "NAME"), (ENDSELECT, q! " {\n"), (INDENT, q! "\n}\n")]⟩,
   ⟨q! "final class ", [(SELECT, q! "NAME"), (ENDSELECT, q! " {\n"), (INDENT, q! "\n}\n")]⟩,
   ⟨q! "class ", [(SELECT, q! "NAME"), (ENDSELECT, q! " {\n"), (INDENT, q! "\n}\n")]⟩,
   ⟨q! "interface ", [(SELECT, q! "NAME"), (ENDSELECT, q! " {\n"), (INDENT, q! "\n}\n")]⟩,
   ⟨q! "array(\n", [(INDENT, []), (CURSOR, q! "\n)")]⟩,
   ⟨q! "break;\n", []⟩,
   ⟨q! "case ", [(SELECT, q! "CASE"), (ENDSELECT, q! ":\n"), (INDENT, q! "\n"), (INDENT, q! "break;\n")]⟩,
   ⟨q! "throw ", [(CURSOR, q! ";\n")]⟩,
   ⟨q! "try {\n", [(INDENT, []), (CURSOR, q! "\n} catch() {\n$"), (INDENT, q! "\n}\n")]⟩,
   ⟨q! "catch(", [(CURSOR, q! ") {\n"), (INDENT, q! "\n}\n")]⟩,
   ⟨q! "clone ", [(CURSOR, q! ";\n")]⟩,
   ⟨q! "continue;\n", []⟩,
   ⟨q! "declare(", [(CURSOR, q! ");\n")]⟩,
   ⟨q! "default:\n", [(INDENT, []), (CURSOR, q! "\n"), (INDENT, q! "break;\n")]⟩,
   ⟨q! "do {\n", [(INDENT, []), (CURSOR, q! "\n} while();\n")]⟩,
   ⟨q! "echo ", [(CURSOR, q! ";\n")]⟩,
   ⟨q! "else {\n", [(INDENT, []), (CURSOR, q! "\n}\n")]⟩,
   ⟨q! "elseif (", [(CURSOR, q! ") {\n"), (INDENT, q! "\n}\n")]⟩,
   ⟨q! "endif;", []⟩,
   ⟨q! "endforeach;", []⟩,
   ⟨q! "endswitch;", []⟩,
   ⟨q! "endwhile;", []⟩,
   ⟨q! "endfor;", []⟩,
   ⟨q! "enddeclare;", []⟩,
   ⟨q! "empty(", [(CURSOR, q! ")")]⟩,
   ⟨q! "eval(", [(CURSOR, q! ")")]⟩,
   ⟨q! "die(", [(CURSOR, q! ");\n")]⟩,
   ⟨q! "exit(", [(CURSOR, q! ");\n")]⟩,
   ⟨q! "for(", [(CURSOR, q! ";;) {\n"), (INDENT, q! "\n}\n")]⟩,
   ⟨q! "foreach(", [(CURSOR, q! ") {\n"), (INDENT, q! "\n}\n")]⟩,
   ⟨q! "function ", [(SELECT, q! "NAME"), (ENDSELECT, q! "() {\n"), (INDENT, q! "\n}\n")]⟩,
   ⟨q! "global $", [(CURSOR, q! ";")]⟩,
   ⟨q! "if (", [(CURSOR, q! ") {\n"), (INDENT, q! "\n}\n")]⟩,
   ⟨q! "include '", [(CURSOR, q! "';\n")]⟩,
   ⟨q! "include_once '", [(CURSOR, q! "';\n")]⟩,
   ⟨q! "require '", [(CURSOR, q! "';\n")]⟩,
   ⟨q! "require_once '", [(CURSOR, q! "';\n")]⟩,
   ⟨q! "isset(", [(CURSOR, q! ")")]⟩,
   ⟨q! "list(", [(CURSOR, q! ")")]⟩,
   ⟨q! "print ", [(CURSOR, q! ";\n")]⟩,
   ⟨q! "return ", [(CURSOR, q! ";\n")]⟩,
   ⟨q! "unset(", [(CURSOR, q! ");\n")]⟩,
   ⟨q! "while (", [(CURSOR, q! ") {\n"), (INDENT, q! "\n}\n")]⟩,
   ⟨q! "switch (", [(CURSOR, q! ") {\n"), (INDENT, q! "\n}\n")]⟩]

theorem offered_templates : ∀ x ∈ offered, x.1 ≠ q! "static" → x.2 ≠ [] → ∃ t ∈ templates, x.2 = t.text := by
  decide +kernel

/-- the templates are well-formed, and of one of three shapes -/
def shape (t : Template) : Bool :=
  decide (noPercent t.head) && t.items.all (fun i => decide (noPercent i.2 ∧ i.2 ∉ names ∧ i.1 ∈ names)) &&
  (t.items.all (fun i => decide (i.1 = INDENT)) ||
   (t.items.all (fun i => decide (i.1 = INDENT ∨ i.1 = CURSOR)) && t.items.any (fun i => decide (i.1 = CURSOR))) ||
   (match t.items with
    | (a, n) :: (b, _) :: B => decide (a = SELECT ∧ b = ENDSELECT ∧ n ≠ []) && B.all (fun i => decide (i.1 = INDENT))
    | _ => false))

theorem templates_shape : ∀ t ∈ templates, shape t = true := by decide +kernel

theorem shape_ok {t : Template} (h : shape t = true) : t.Ok := by
  simp only [shape, Bool.and_eq_true, List.all_eq_true, decide_eq_true_eq] at h
  exact ⟨h.1.1, fun i hi => ⟨(h.1.2 i hi).1, (h.1.2 i hi).2.1⟩, fun i hi => (h.1.2 i hi).2.2⟩

/-- a template without markers -/
def flat (width : Option Nat) (t : Template) : QString :=
  t.head ++ t.items.flatMap fun i => (if i.1 = INDENT then oneLevel width else []) ++ i.2

theorem oneLevel_blank (w : Option Nat) : ∀ c ∈ oneLevel w, c = 32 ∨ c = 9 := by
  cases w with
  | none => intro c hc; simp [oneLevel] at hc; exact Or.inr hc
  | some n => intro c hc; simp only [oneLevel] at hc; exact Or.inl (List.eq_of_mem_replicate hc)

theorem replaceChar_flat (ind : QString) (w : Option Nat) (h : QString) (items : List (QString × QString)) :
    replaceChar 10 (10 :: ind) (h ++ items.flatMap fun i => (if i.1 = INDENT then oneLevel w else []) ++ i.2) =
      render ind (fun n => if n = INDENT then oneLevel w else []) h items := by
  unfold render
  rw [replaceChar_append]
  congr 1
  induction items with
  | nil => rfl
  | cons i l ih =>
    rw [List.flatMap_cons, List.flatMap_cons, replaceChar_append, replaceChar_append, ih]
    congr 2
    by_cases hi : i.1 = INDENT
    · simp only [if_pos hi]
      apply replaceChar_id
      intro hm
      rcases oneLevel_blank w 10 hm with h | h <;> omega
    · simp only [if_neg hi]; rfl

theorem render_values (ind : QString) (w : Option Nat) (R : List QString) (h : QString) (items : List (QString × QString))
    (hi : ∀ i ∈ items, i.1 = INDENT ∨ i.1 ∈ R) :
    render ind (values (oneLevel w) R) h items = render ind (fun n => if n = INDENT then oneLevel w else []) h items := by
  unfold render
  congr 1
  induction items with
  | nil => rfl
  | cons i l ih =>
    rw [List.flatMap_cons, List.flatMap_cons, ih fun j hj => hi j (by simp [hj])]
    congr 2
    unfold values
    by_cases hn : i.1 = INDENT
    · simp only [if_pos hn]
    · simp only [if_neg hn, if_pos ((hi i (by simp)).resolve_left hn)]

/-- the shapes as a case distinction -/
inductive Shape (t : Template) : Prop
  | plain (h : ∀ i ∈ t.items, i.1 = INDENT)
  | cursor (A B : List (QString × QString)) (p : QString) (h : t.items = A ++ (CURSOR, p) :: B)
      (hA : ∀ i ∈ A, i.1 = INDENT) (hB : ∀ i ∈ B, i.1 = INDENT ∨ i.1 = CURSOR)
  | select (B : List (QString × QString)) (name rest : QString)
      (h : t.items = (SELECT, name) :: (ENDSELECT, rest) :: B) (hB : ∀ i ∈ B, i.1 = INDENT) (hn : name ≠ [])

theorem first_cursor : ∀ (l : List (QString × QString)), (∀ i ∈ l, i.1 = INDENT ∨ i.1 = CURSOR) → (∃ i ∈ l, i.1 = CURSOR) →
    ∃ A p B, l = A ++ (CURSOR, p) :: B ∧ (∀ i ∈ A, i.1 = INDENT) ∧ (∀ i ∈ B, i.1 = INDENT ∨ i.1 = CURSOR) := by
  intro l
  induction l with
  | nil => intro _ h; obtain ⟨i, hi, _⟩ := h; simp at hi
  | cons i l ih =>
    intro h1 h2
    obtain ⟨a, p⟩ := i
    rcases h1 (a, p) (by simp) with h | h
    · obtain ⟨j, hj, hc⟩ := h2
      rcases List.mem_cons.1 hj with rfl | hj
      · exact absurd (h.symm.trans hc) (by decide)
      · obtain ⟨A, q, B, rfl, hA, hB⟩ := ih (fun k hk => h1 k (by simp [hk])) ⟨j, hj, hc⟩
        refine ⟨(a, p) :: A, q, B, rfl, ?_, hB⟩
        intro k hk
        rcases List.mem_cons.1 hk with rfl | hk
        · exact h
        · exact hA k hk
    · have h : a = CURSOR := h
      subst h
      exact ⟨[], p, l, rfl, by simp, fun k hk => h1 k (by simp [hk])⟩

theorem shape_cases {t : Template} (h : shape t = true) : Shape t := by
  simp only [shape, Bool.and_eq_true, Bool.or_eq_true] at h
  obtain ⟨_, (h | h) | h⟩ := h
  · exact .plain (by simpa using h)
  · obtain ⟨h1, h2⟩ := h
    simp only [List.all_eq_true, List.any_eq_true, decide_eq_true_eq] at h1 h2
    obtain ⟨A, p, B, e, hA, hB⟩ := first_cursor t.items h1 h2
    exact .cursor A B p e hA hB
  · split at h
    · rename_i a n b r B e
      simp only [Bool.and_eq_true, List.all_eq_true, decide_eq_true_eq] at h
      obtain ⟨⟨rfl, rfl, hn⟩, hB⟩ := h
      exact .select B n r e hB hn
    · exact absurd h (by decide)

/-- what a template inserts, and where the cursor is put -/
theorem exec {u : CharClass} (hu : u.Lawful) (line : QString) (width : Option Nat) (hw : width ≠ some 0) (start : Cursor)
    {t : Template} (h : shape t = true) :
    (execute u t.text line width start).1 = replaceChar 10 (10 :: getIndentation u line) (flat width t) ∧
    ((∀ i ∈ t.items, i.1 = INDENT) → (execute u t.text line width start).2 = none) ∧
    (∀ A v p B, t.items = A ++ (v, p) :: B → (v = CURSOR ∨ v = SELECT) → (∀ i ∈ A, i.1 = INDENT) →
      (execute u t.text line width start).2 =
        some (newPos start (replaceChar 10 (10 :: getIndentation u line) (flat width ⟨t.head, A⟩)))) := by
  have hok := shape_ok h
  have hin := indentString_indent width hw
  unfold flat
  simp only [replaceChar_flat]
  have uniq : ∀ {A A' : List (QString × QString)} {v v' p p' : QString} {B B' : List (QString × QString)},
      A ++ (v, p) :: B = A' ++ (v', p') :: B' → v ≠ INDENT → v' ≠ INDENT → (∀ i ∈ A, i.1 = INDENT) →
      (∀ i ∈ A', i.1 = INDENT) → A = A' := by
    intro A
    induction A with
    | nil =>
      intro A' v v' p p' B B' e hv hv' hA hA'
      cases A' with
      | nil => rfl
      | cons x A' =>
        simp at e
        exact absurd (by rw [← hA' x (by simp), ← e.1]) hv
    | cons x A ih =>
      intro A' v v' p p' B B' e hv hv' hA hA'
      cases A' with
      | nil =>
        simp at e
        exact absurd (by rw [← hA x (by simp), e.1]) hv'
      | cons y A' =>
        simp only [List.cons_append, List.cons.injEq] at e
        rw [e.1, ih e.2 hv hv' (fun i hi => hA i (by simp [hi])) (fun i hi => hA' i (by simp [hi]))]
  cases shape_cases h with
  | plain hp =>
    have he := keyword_plain hu line width hw start t hok (fun i hi => by
      rw [hp i hi]; exact ⟨by decide, by decide⟩)
    rw [he]
    refine ⟨render_values _ _ _ _ _ fun i hi => Or.inl (hp i hi), fun _ => rfl, ?_⟩
    intro A v p B e hv _
    have := hp (v, p) (by rw [e]; simp)
    simp only at this
    rcases hv with rfl | rfl <;> exact absurd this (by decide)
  | cursor A B p e hA hB =>
    have hpl := place_cursor hu line _ hin t hok A B p e (fun i hi => by rw [hA i hi]; decide)
    have hall : ∀ i ∈ t.items, i.1 = INDENT ∨ i.1 ∈ [CURSOR] := by
      intro i hi
      rw [e] at hi
      rcases List.mem_append.1 hi with h | h
      · exact Or.inl (hA i h)
      · rcases List.mem_cons.1 h with rfl | h
        · exact Or.inr (by simp)
        · exact (hB i h).imp id (by intro h; simp [h])
    have hrA := render_values (getIndentation u line) width [CURSOR] t.head A fun i hi => Or.inl (hA i hi)
    have hr := render_values (getIndentation u line) width [CURSOR] t.head t.items hall
    rw [indentString_eq] at hpl
    rw [hrA, hr] at hpl
    simp only [execute, indentString_eq, hpl, Option.map_some]
    refine ⟨trivial, ?_, ?_⟩
    · intro hi
      have := hi (CURSOR, p) (by rw [e]; simp)
      exact absurd this (by decide : ¬ CURSOR = INDENT)
    · intro A' v p' B' e' hv hA'
      have : A' = A := by
        refine uniq (e'.symm.trans e) ?_ (by decide) hA' hA
        rcases hv with rfl | rfl <;> decide
      subst this
      congr 2
      rw [e']
      simp only [render, List.flatMap_append]
      rw [← List.append_assoc, List.take_left]
  | select B name rest e hB hn =>
    have hpl := place_select hu line _ hin t hok [] B name rest (by rw [e]; rfl) (by simp) hB hn
    have hall : ∀ i ∈ t.items, i.1 = INDENT ∨ i.1 ∈ [SELECT, ENDSELECT] := by
      intro i hi
      rw [e] at hi
      rcases List.mem_cons.1 hi with rfl | hi
      · exact Or.inr (by simp)
      · rcases List.mem_cons.1 hi with rfl | hi
        · exact Or.inr (by simp)
        · exact Or.inl (hB i hi)
    have hr := render_values (getIndentation u line) width [SELECT, ENDSELECT] t.head t.items hall
    rw [indentString_eq] at hpl
    rw [hr] at hpl
    simp only [execute, indentString_eq, hpl, Option.map_some]
    refine ⟨trivial, ?_, ?_⟩
    · intro hi
      have := hi (SELECT, name) (by rw [e]; simp)
      exact absurd this (by decide : ¬ SELECT = INDENT)
    · intro A' v p' B' e' hv hA'
      have : A' = [] := by
        refine uniq (e'.symm.trans e) (B' := (ENDSELECT, rest) :: B) ?_ (by decide) hA' (by simp)
        rcases hv with rfl | rfl <;> decide
      subst this
      congr 2
      simp only [render, List.flatMap_nil, List.append_nil]
      rw [List.take_left]

/-! ## Brackets -/

/-- the brackets of a text -/
def brackets (s : QString) : QString := s.filter fun c => decide (c ∈ q! "(){}")

/-- the check: the closing brackets that are expected -/
def bal : QString → QString → Bool
  | st, [] => st.isEmpty
  | st, c :: s =>
    if c = c! '(' then bal ((c! ')') :: st) s
    else if c = c! '{' then bal ((c! '}') :: st) s
    else if c = (c! ')') ∨ c = (c! '}') then
      match st with
      | [] => false
      | d :: st => decide (c = d) && bal st s
    else bal st s

theorem bal_brackets (s : QString) : ∀ st, bal st s = bal st (brackets s) := by
  induction s with
  | nil => intro st; rfl
  | cons c s ih =>
    intro st
    by_cases hc : c ∈ q! "(){}"
    · have : brackets (c :: s) = c :: brackets s := by simp only [brackets, List.filter_cons, decide_eq_true hc, if_true]
      rw [this]
      cases st <;> simp only [bal, ih]
    · have : brackets (c :: s) = brackets s := by
        simp only [brackets, List.filter_cons, decide_eq_false hc, Bool.false_eq_true, if_false]
      rw [this, ← ih]
      simp only [List.mem_cons, List.not_mem_nil, or_false, not_or] at hc
      have h3 : ¬ (c = (c! ')') ∨ c = (c! '}')) := fun h => h.elim hc.2.1 hc.2.2.2
      cases st <;> simp only [bal, if_neg hc.1, if_neg hc.2.2.1, if_neg h3]

theorem bal_sound : ∀ n (s : QString), s.length < n →
    (bal [] s = true → Balanced s) ∧
    (∀ c st, bal (c :: st) s = true → ∃ a b, s = a ++ c :: b ∧ Balanced a ∧ bal st b = true) := by
  intro n
  induction n with
  | zero => intro s h; omega
  | succ n ih =>
    intro s hs
    cases s with
    | nil => exact ⟨fun _ => .nil, fun c st h => by simp [bal] at h⟩
    | cons x s =>
      simp only [List.length_cons] at hs
      have IH := ih s (by omega)
      by_cases h1 : x = c! '('
      · subst h1
        constructor
        · intro h
          simp only [bal, if_true] at h
          obtain ⟨a, b, rfl, ha, hb⟩ := IH.2 _ _ h
          exact .round a b ha ((ih b (by simp at hs; omega)).1 hb)
        · intro c st h
          simp only [bal, if_true] at h
          obtain ⟨a, b, rfl, ha, hb⟩ := IH.2 _ _ h
          obtain ⟨a', b', rfl, ha', hb'⟩ := (ih b (by simp at hs; omega)).2 _ _ hb
          exact ⟨(c! '(') :: (a ++ (c! ')') :: a'), b', by simp, .round a a' ha ha', hb'⟩
      by_cases h2 : x = c! '{'
      · subst h2
        have e : ¬ ((c! '{') = c! '(') := by decide
        constructor
        · intro h
          simp only [bal, if_neg e, if_true] at h
          obtain ⟨a, b, rfl, ha, hb⟩ := IH.2 _ _ h
          exact .curly a b ha ((ih b (by simp at hs; omega)).1 hb)
        · intro c st h
          simp only [bal, if_neg e, if_true] at h
          obtain ⟨a, b, rfl, ha, hb⟩ := IH.2 _ _ h
          obtain ⟨a', b', rfl, ha', hb'⟩ := (ih b (by simp at hs; omega)).2 _ _ hb
          exact ⟨(c! '{') :: (a ++ (c! '}') :: a'), b', by simp, .curly a a' ha ha', hb'⟩
      by_cases h3 : x = (c! ')') ∨ x = (c! '}')
      · constructor
        · intro h
          simp only [bal, if_neg h1, if_neg h2, if_pos h3] at h
          exact absurd h (by decide)
        · intro c st h
          simp only [bal, if_neg h1, if_neg h2, if_pos h3, Bool.and_eq_true, decide_eq_true_eq] at h
          exact ⟨[], s, by rw [h.1]; rfl, .nil, h.2⟩
      · have hx : x ∉ q! "(){}" := by
          simp only [List.mem_cons, List.not_mem_nil, or_false, not_or]
          exact ⟨h1, fun h => h3 (Or.inl h), h2, fun h => h3 (Or.inr h)⟩
        constructor
        · intro h
          simp only [bal, if_neg h1, if_neg h2, if_neg h3] at h
          exact .other x s hx (IH.1 h)
        · intro c st h
          simp only [bal, if_neg h1, if_neg h2, if_neg h3] at h
          obtain ⟨a, b, rfl, ha, hb⟩ := IH.2 _ _ h
          exact ⟨x :: a, b, rfl, .other x a hx ha, hb⟩

theorem brackets_append (a b : QString) : brackets (a ++ b) = brackets a ++ brackets b := by simp [brackets]

theorem brackets_nil {s : QString} (h : ∀ c ∈ s, c ∉ q! "(){}") : brackets s = [] := by
  rw [brackets, List.filter_eq_nil_iff]
  intro c hc
  simpa using h c hc

theorem indentation_space {u : CharClass} (hu : u.Lawful) (line : QString) : ∀ c ∈ getIndentation u line,
    c ∉ q! "(){}" ∧ c ≠ 37 := by
  intro c hc
  have h := mem_takeWhile hc
  constructor
  · intro hm
    simp only [List.mem_cons, List.not_mem_nil, or_false] at hm
    rcases hm with rfl | rfl | rfl | rfl <;>
      (rw [hu.space_ascii _ (by decide)] at h; exact absurd h (by decide))
  · rintro rfl
    rw [hu.space_ascii _ (by decide)] at h
    exact absurd h (by decide)

theorem brackets_replace {u : CharClass} (hu : u.Lawful) (line s : QString) :
    brackets (replaceChar 10 (10 :: getIndentation u line) s) = brackets s := by
  induction s with
  | nil => rfl
  | cons c s ih =>
    rw [replaceChar, List.flatMap_cons, brackets_append]
    rw [replaceChar] at ih
    rw [ih, show c :: s = [c] ++ s from rfl, brackets_append]
    congr 1
    split
    · rename_i h
      subst h
      rw [brackets_nil, brackets_nil]
      · intro c hc; simp at hc; subst hc; decide
      · intro c hc
        rcases List.mem_cons.1 hc with rfl | hc
        · decide
        · exact (indentation_space hu line c hc).1
    · rfl

/-- a template without any marker -/
def bare (t : Template) : QString := t.head ++ t.items.flatMap Prod.snd

theorem brackets_flat (w : Option Nat) (t : Template) : brackets (flat w t) = brackets (bare t) := by
  unfold flat bare
  rw [brackets_append, brackets_append]
  congr 1
  generalize t.items = l
  induction l with
  | nil => rfl
  | cons i l ih =>
    rw [List.flatMap_cons, List.flatMap_cons, brackets_append, brackets_append, brackets_append, ih]
    have : brackets (if i.1 = INDENT then oneLevel w else []) = [] := by
      apply brackets_nil
      intro c hc
      split at hc
      · rcases oneLevel_blank w c hc with rfl | rfl <;> decide
      · simp at hc
    rw [this]; rfl

/-! ## Line breaks -/

theorem breaks {ind : QString} (hi : 10 ∉ ind) (s : QString) : BreaksIndented ind (replaceChar 10 (10 :: ind) s) := by
  induction s with
  | nil => intro a b h; simp [replaceChar] at h
  | cons c s ih =>
    intro a b h
    unfold replaceChar at h ih
    rw [List.flatMap_cons] at h
    split at h
    · cases a with
      | nil =>
        simp only [List.cons_append, List.nil_append, List.cons.injEq, true_and] at h
        rw [← h]; exact List.prefix_append _ _
      | cons x a =>
        simp only [List.cons_append, List.cons.injEq] at h
        -- the indentation has no line break
        have : ∀ (p q a b : QString), 10 ∉ p → p ++ q = a ++ 10 :: b → ∃ a', q = a' ++ 10 :: b := by
          intro p
          induction p with
          | nil => intro q a b _ h; exact ⟨a, h⟩
          | cons y p ihp =>
            intro q a b hp h
            cases a with
            | nil => simp at h; exact absurd h.1 (fun e => hp (by simp [e]))
            | cons z a =>
              simp at h
              exact ihp q a b (fun e => hp (by simp [e])) h.2
        obtain ⟨a', h'⟩ := this _ _ _ _ hi h.2
        exact ih a' b h'
    · rename_i hc
      cases a with
      | nil => simp at h; exact absurd h.1 hc
      | cons x a =>
        simp at h
        exact ih a b (by simpa using h.2)

theorem percent_replace {u : CharClass} (hu : u.Lawful) (line s : QString) (hs : 37 ∉ s) :
    37 ∉ replaceChar 10 (10 :: getIndentation u line) s := by
  intro hm
  unfold replaceChar at hm
  obtain ⟨x, hx, hm⟩ := List.mem_flatMap.1 hm
  split at hm
  · rcases List.mem_cons.1 hm with h | h
    · omega
    · exact (indentation_space hu line 37 h).2 rfl
  · simp at hm
    exact hs (by rw [hm]; exact hx)

theorem percent_flat (w : Option Nat) {t : Template} (h : shape t = true) : 37 ∉ flat w t := by
  have hok := shape_ok h
  intro hm
  rcases List.mem_append.1 hm with hm | hm
  · exact hok.head hm
  · obtain ⟨i, hi, hm⟩ := List.mem_flatMap.1 hm
    rcases List.mem_append.1 hm with hm | hm
    · split at hm
      · rcases oneLevel_blank w 37 hm with h | h <;> omega
      · simp at hm
    · exact (hok.plain i hi).1 hm

theorem prefix_replace {k r : QString} (ind s : QString) (hk : 10 ∉ k) (h : k ++ r = s) :
    k <+: replaceChar 10 (10 :: ind) s := by
  subst h
  rw [replaceChar_append, replaceChar_id hk]
  exact List.prefix_append _ _

/-- facts about the single templates -/
theorem table_facts : ∀ x ∈ offered, ∀ t ∈ templates, x.2 = t.text →
    x.1.isPrefixOf t.head = true ∧ 10 ∉ x.1 ∧ bal [] (bare t) = true := by decide +kernel

/-! ## The theorems -/

/-- **C95 (text).** Choosing any of the offered keywords but `static`, in any line and with any style of indentation, inserts a
text that begins with the keyword, has no rest of a marker, in which all brackets are closed and every line break is followed by
the indentation of the line. -/
theorem keyword_text_partial {u : CharClass} (hu : u.Lawful) (line : QString) (hline : 10 ∉ line) (width : Option Nat)
    (hw : width ≠ some 0) (start : Cursor) (x : QString × QString) (hx : x ∈ keywordItems true) (hs : x.1 ≠ q! "static") :
    ∃ text, (choose u x line width start).1 = text ∧ x.1 <+: text ∧ (37 : Nat) ∉ text ∧ Balanced text ∧
      BreaksIndented (line.takeWhile u.isSpace) text := by
  have hx : x ∈ offered := hx
  refine ⟨_, rfl, ?_⟩
  unfold choose
  by_cases he : x.2 = []
  · rw [if_pos he]
    have hk : ∀ x ∈ offered, x.2 = [] → (37 : Nat) ∉ x.1 ++ [32] ∧ (10 : Nat) ∉ x.1 ++ [32] ∧ bal [] (x.1 ++ [32]) = true := by
      decide +kernel
    obtain ⟨h1, h2, h3⟩ := hk x hx he
    refine ⟨List.prefix_append _ _, h1, (bal_sound _ _ (Nat.lt_succ_self _)).1 h3, ?_⟩
    intro a b h
    have h : x.1 ++ [32] = a ++ 10 :: b := h
    exact absurd (show 10 ∈ x.1 ++ [32] by rw [h]; simp) h2
  · rw [if_neg he]
    obtain ⟨t, ht, hxt⟩ := offered_templates x hx hs he
    have hsh := templates_shape t ht
    obtain ⟨h1, h2, h3⟩ := table_facts x hx t ht hxt
    have hi : (10 : Nat) ∉ getIndentation u line := fun h => hline ((List.takeWhile_prefix _).subset h)
    rw [hxt, (exec hu line width hw start hsh).1]
    refine ⟨?_, percent_replace hu line _ (percent_flat width hsh), ?_, breaks hi _⟩
    · obtain ⟨r, hr⟩ := List.isPrefixOf_iff_prefix.1 h1
      refine prefix_replace (r := r ++ t.items.flatMap fun i => (if i.1 = INDENT then oneLevel width else []) ++ i.2) _ _ h2 ?_
      rw [← List.append_assoc, hr]; rfl
    · apply (bal_sound _ _ (Nat.lt_succ_self _)).1
      rw [bal_brackets, brackets_replace hu, brackets_flat, ← bal_brackets]
      exact h3

theorem table_cursor : ∀ t ∈ templates, (t.items.head?.map Prod.fst = some CURSOR ∨ t.items.head?.map Prod.fst = some SELECT) →
    (10 : Nat) ∉ t.head := by decide +kernel

/-- a template begins in only one way with plain text and a marker -/
theorem text_split {t : Template} (hok : t.Ok) {before v rest : QString} (hb : (37 : Nat) ∉ before) (hv : (37 : Nat) ∉ v)
    (h : t.text = before ++ mark v ++ rest) : t.head = before ∧ ∃ p B, t.items = (v, p) :: B := by
  unfold Template.text at h
  cases hi : t.items with
  | nil =>
    rw [hi] at h
    simp at h
    exact absurd (show 37 ∈ t.head by rw [h]; simp [mark]) hok.head
  | cons i l =>
    rw [hi] at h
    obtain ⟨a, p⟩ := i
    simp only [List.flatMap_cons, mark, List.cons_append, List.append_assoc, List.nil_append] at h
    obtain ⟨h1, h2⟩ := split_percent hok.head hb h
    have ha := (names_plain a (hok.known (a, p) (by rw [hi]; simp))).1
    obtain ⟨h3, _⟩ := split_percent ha hv h2
    exact ⟨h1, p, l, by rw [h3]⟩

theorem newPos_line (start : Cursor) {s : QString} (h : 10 ∉ s) : newPos start s = ⟨start.line, start.column + s.length⟩ := by
  rw [newPos_eq]
  have h1 : s.count 10 = 0 := List.count_eq_zero.2 h
  have h2 : lastLine s = s.length := by
    unfold lastLine
    have := takeWhile_append_all (p := (· != 10)) (a := s.reverse) (b := []) (by
      intro c hc
      have : c ∈ s := by simpa using hc
      simp
      rintro rfl
      exact h this)
    rw [List.append_nil] at this
    rw [this]; simp
  rw [h1, h2]; rfl

/-- **C95 (cursor).** If the template of an offered keyword has the marker of the cursor or of a selection in its first line,
the cursor is put into the line of the word, behind the text before the marker. -/
theorem keyword_cursor {u : CharClass} (hu : u.Lawful) (line : QString) (width : Option Nat) (hw : width ≠ some 0)
    (start : Cursor) (x : QString × QString) (hx : x ∈ keywordItems true) (hs : x.1 ≠ q! "static") (before rest : QString)
    (hb : x.2 = before ++ q! "%CURSOR%" ++ rest ∨ x.2 = before ++ q! "%SELECT%" ++ rest)
    (hp : (37 : Nat) ∉ before) :
    (choose u x line width start).2 = some ⟨start.line, start.column + before.length⟩ := by
  have hx : x ∈ offered := hx
  have he : x.2 ≠ [] := by
    rintro he
    rcases hb with h | h <;> (rw [he] at h; exact absurd (congrArg List.length h) (by simp))
  obtain ⟨t, ht, hxt⟩ := offered_templates x hx hs he
  have hsh := templates_shape t ht
  have hok := shape_ok hsh
  have key : ∀ v, (v = CURSOR ∨ v = SELECT) → x.2 = before ++ mark v ++ rest →
      (choose u x line width start).2 = some ⟨start.line, start.column + before.length⟩ := by
    intro v hv e
    obtain ⟨h1, p, B, h2⟩ := text_split hok hp (by rcases hv with rfl | rfl <;> decide) (hxt.symm.trans e)
    have h10 : (10 : Nat) ∉ t.head := by
      apply table_cursor t ht
      rw [h2]
      rcases hv with rfl | rfl
      · exact Or.inl rfl
      · exact Or.inr rfl
    unfold choose
    rw [if_neg he, hxt, (exec hu line width hw start hsh).2.2 [] v p B (by rw [h2]; rfl) hv (by simp)]
    simp only [flat, List.flatMap_nil, List.append_nil]
    rw [replaceChar_id h10, newPos_line start h10, h1]
  rcases hb with h | h
  · exact key CURSOR (Or.inl rfl) h
  · exact key SELECT (Or.inr rfl) h

/-- **C95 (cursor not moved).** Without a marker the cursor is not moved (it is left behind the inserted text by the editor). -/
theorem keyword_no_cursor {u : CharClass} (hu : u.Lawful) (line : QString) (width : Option Nat) (hw : width ≠ some 0)
    (start : Cursor) (x : QString × QString) (hx : x ∈ keywordItems true) (hp : (37 : Nat) ∉ x.2) :
    (choose u x line width start).2 = none := by
  have hx : x ∈ offered := hx
  unfold choose
  by_cases he : x.2 = []
  · rw [if_pos he]
  · rw [if_neg he]
    have hs : x.1 ≠ q! "static" := by
      intro h
      exact (by decide +kernel : ∀ x ∈ offered, x.1 = q! "static" → (37 : Nat) ∈ x.2) x hx h |> hp
    obtain ⟨t, ht, hxt⟩ := offered_templates x hx hs he
    rw [hxt]
    refine (exec hu line width hw start (templates_shape t ht)).2.1 ?_
    intro i hi
    exfalso
    apply hp
    rw [hxt]
    exact List.mem_append_right _ (List.mem_flatMap.2 ⟨i, hi, by simp [mark]⟩)

theorem table_below : ∀ x ∈ offered, x.1 ∈ below → ∃ t ∈ templates, x.2 = t.text ∧
    t.items.take 1 = [(INDENT, [])] ∧ ((t.items.drop 1).take 1).map Prod.fst = [CURSOR] ∧
    t.head = t.head.takeWhile (· != 10) ++ [10] := by decide +kernel

/-- **Limit of C95 (cursor).** For `array`, `try`, `default`, `do` and `else` the marker is in the second line of the template,
behind the indentation: the cursor is put too far to the right by the column of the word. -/
theorem keyword_cursor_below {u : CharClass} (hu : u.Lawful) (line : QString) (hline : 10 ∉ line) (width : Option Nat)
    (hw : width ≠ some 0) (start : Cursor) (x : QString × QString) (hx : x ∈ keywordItems true) (hb : x.1 ∈ below) :
    (∃ first template rest, x.2 = first ++ q! "\n%INDENT%%CURSOR%" ++ template ∧
      (choose u x line width start).1 = first ++ 10 :: (line.takeWhile u.isSpace ++ oneLevel width) ++ rest ∧
      advance start (first ++ 10 :: (line.takeWhile u.isSpace ++ oneLevel width)) =
        ⟨start.line + 1, (line.takeWhile u.isSpace).length + (oneLevel width).length⟩) ∧
    (choose u x line width start).2 =
      some ⟨start.line + 1, start.column + ((line.takeWhile u.isSpace).length + (oneLevel width).length)⟩ := by
  have hx : x ∈ offered := hx
  obtain ⟨t, ht, hxt, h1, h2, h3⟩ := table_below x hx hb
  have hsh := templates_shape t ht
  obtain ⟨p, B, hit⟩ : ∃ p B, t.items = [(INDENT, [])] ++ (CURSOR, p) :: B := by
    cases hi : t.items with
    | nil => rw [hi] at h1; simp at h1
    | cons a l =>
      cases hl : l with
      | nil => rw [hi, hl] at h2; simp at h2
      | cons b l' =>
        rw [hi] at h1 h2
        rw [hl] at h2
        simp at h1 h2
        obtain ⟨b1, b2⟩ := b
        simp at h2
        exact ⟨b2, l', by rw [h1, h2]; rfl⟩
  have he : x.2 ≠ [] := by
    rw [hxt]
    unfold Template.text
    rw [hit]; simp [mark]
  have hex := exec hu line width hw start hsh
  have hcur := hex.2.2 [(INDENT, [])] CURSOR p B hit (Or.inl rfl) (by simp)
  unfold choose
  rw [if_neg he, hxt, hex.1, hcur]
  have hi : (10 : Nat) ∉ getIndentation u line := fun h => hline ((List.takeWhile_prefix _).subset h)
  generalize hind : getIndentation u line = ind at *
  have hind' : line.takeWhile u.isSpace = ind := hind
  rw [hind']
  generalize hh : t.head.takeWhile (· != 10) = h at h3
  have h10 : 10 ∉ h := by
    rw [← hh]
    intro hm
    have := mem_takeWhile hm
    simp at this
  have hl10 : 10 ∉ oneLevel width := by
    intro hm
    rcases oneLevel_blank width 10 hm with h | h <;> omega
  have hbf : replaceChar 10 (10 :: ind) (flat width ⟨t.head, [(INDENT, [])]⟩) = h ++ 10 :: (ind ++ oneLevel width) := by
    simp only [flat, List.flatMap_cons, List.flatMap_nil, List.append_nil, if_pos]
    rw [replaceChar_append, replaceChar_id hl10, h3, replaceChar_append, replaceChar_id h10]
    simp [replaceChar]
  have hn : 10 ∉ ind ++ oneLevel width := by simp [hi, hl10]
  have hadv : advance start (h ++ 10 :: (ind ++ oneLevel width)) = ⟨start.line + 1, ind.length + (oneLevel width).length⟩ := by
    have e1 := advance_line (h ++ 10 :: (ind ++ oneLevel width)) start
    have e2 := advance_column (h ++ 10 :: (ind ++ oneLevel width)) start
    have c1 : (h ++ 10 :: (ind ++ oneLevel width)).count 10 = 1 := by
      rw [List.count_append, List.count_cons, List.count_eq_zero.2 h10, List.count_eq_zero.2 hn]; rfl
    have c2 : lastLine (h ++ 10 :: (ind ++ oneLevel width)) = (ind ++ oneLevel width).length := by
      unfold lastLine
      rw [List.reverse_append, List.reverse_cons, List.append_assoc, takeWhile_append_all]
      · simp [Nat.add_comm]
      · intro c hc
        have : c ∈ ind ++ oneLevel width := List.mem_reverse.1 hc
        simp
        rintro rfl
        exact hn this
    have : advance start (h ++ 10 :: (ind ++ oneLevel width)) = ⟨(advance start (h ++ 10 :: (ind ++ oneLevel width))).line,
        (advance start (h ++ 10 :: (ind ++ oneLevel width))).column⟩ := rfl
    rw [this, e1, e2, c1, c2]
    simp
  have hsh2 := keyword_cursor_shifted start (h ++ 10 :: (ind ++ oneLevel width)) (by simp)
  rw [hadv] at hsh2
  have hfl : flat width t = flat width ⟨t.head, [(INDENT, [])]⟩ ++
      ((CURSOR, p) :: B).flatMap fun i => (if i.1 = INDENT then oneLevel width else []) ++ i.2 := by
    unfold flat
    rw [hit, List.flatMap_append, List.append_assoc]
  refine ⟨⟨h, p ++ B.flatMap (fun i => mark i.1 ++ i.2), _, ?_, by rw [hfl, replaceChar_append, hbf], hadv⟩, ?_⟩
  · unfold Template.text
    rw [hit, h3]
    simp [mark, INDENT, CURSOR]
  · rw [hbf]
    congr 1
    have : newPos start (h ++ 10 :: (ind ++ oneLevel width)) = ⟨(newPos start (h ++ 10 :: (ind ++ oneLevel width))).line,
        (newPos start (h ++ 10 :: (ind ++ oneLevel width))).column⟩ := rfl
    rw [this, hsh2.1, hsh2.2]
    congr 1
    simp only
    omega

/-- **C95 (cursor, which keywords).** Every offered keyword is of one of these kinds. -/
theorem keyword_kinds : ∀ x ∈ keywordItems true, x.1 ∈ below ∨ (37 : Nat) ∉ x.2 ∨
    ∃ v ∈ [q! "%CURSOR%", q! "%SELECT%"], x.2 = x.2.takeWhile (· != 37) ++ v ++ (x.2.dropWhile (· != 37)).drop v.length := by
  decide +kernel

/-- **Finding.** `static` inserts a `%` behind the cursor: `static $%;`. -/
theorem keyword_static (u : CharClass) (line : QString) (width : Option Nat) (start : Cursor) :
    (q! "static", q! "static $%CURSOR%%;\n") ∈ keywordItems true ∧
    (37 : Nat) ∈ (choose u (q! "static", q! "static $%CURSOR%%;\n") line width start).1 := by
  refine ⟨by decide, ?_⟩
  have e : (choose u (q! "static", q! "static $%CURSOR%%;\n") line width start).1 =
      q! "static $%;\n" ++ replaceAll (mark CURSOR) [] (replaceAll (mark INDENT) (indentString width) (getIndentation u line)) := by
    simp [choose, execute, expand, replaceChar, place, replaceAll, indexOf, mark, INDENT, CURSOR, List.isPrefixOf]
  rw [e]; simp

/-- **Finding.** `try` inserts a `$` in the body of its `catch`. -/
theorem keyword_try : execute asciiClass (q! "try {\n%INDENT%%CURSOR%\n} catch() {\n$%INDENT%\n}\n") (q! "t") (some 2) ⟨0, 0⟩ =
    (q! "try {\n  \n} catch() {\n$  \n}\n", some ⟨1, 2⟩) := by decide +kernel

/-- the words of a text -/
def words (s : QString) : List QString := [s.takeWhile (· != 32), (s.dropWhile (· != 32)).drop 1]

/-- **C95 (keywords).** Every offered keyword but `static` (which the lexer treats apart) consists of words the lexer knows, and
no keyword is offered twice. Nothing is offered behind a member access. -/
theorem keyword_known : (∀ x ∈ keywordItems true, ∀ w ∈ words x.1, w = [] ∨ w = q! "static" ∨ w ∈ keywordTable.map Prod.fst) ∧
    ((keywordItems true).map Prod.fst).Nodup ∧ keywordItems false = [] := by
  refine ⟨by decide +kernel, by decide +kernel, rfl⟩

/-- `foreach` in a line indented by a tab -/
example : choose asciiClass (q! "foreach", q! "foreach(%CURSOR%) {\n%INDENT%\n}\n") (q! "\tfor") none ⟨3, 1⟩ =
    (q! "foreach() {\n\t\t\n\t}\n\t", some ⟨3, 9⟩) := by decide +kernel

example : (q! "foreach", q! "foreach(%CURSOR%) {\n%INDENT%\n}\n") ∈ keywordItems true := by decide +kernel

end KPhp.Keyword.Table
