import Verif.Parser.PlacesFile
/-!
# The place of every declaration: theorems (C101)
-/
namespace KPhp.Outline
set_option linter.unusedVariables false
open KPhp (Tok)
open KPhp.Stmt
open KPhp.Scopes (TypeKind Event visitFile start)

theorem first_places {v : CharClass} {nm : Nat → QString} {ts : List Tok} {s : S} (h : parseFile ts = some s) :
    ∃ s1 s2, Scopes.build v false (fileCode ts.length false nm 0 s) = some (s1, s2) ∧
      (declarationsOf s1).Sublist ((places ts).map (named v nm)) ∧ (hides ts = false → declarationsOf s1 = (places ts).map (named v nm)) := by
  obtain ⟨hf, rfl⟩ := parsed_fits h
  have hn := nodes_distinct (again := false) (nm := nm) (f := fileCode s.toks.length false nm 0 s) (by rw [codeOf, h]; rfl)
  obtain ⟨s1, s2, h1, _, _, _, _, _, h4, _, _⟩ := Scopes.build_good v false _ hn.1 hn.2
  obtain ⟨K, L, k1, k5, _, k2, k3, k4⟩ := file_places v nm s hf [] [] 0 rfl (Nat.le_refl _)
  have e : declarationsOf s1 = K.map (named v nm) := (agrees_decl h4).trans k1
  have eL : places s.toks = L := k3
  refine ⟨s1, s2, h1, ?_, fun hh => ?_⟩
  · rw [e, eL]; exact k2.map _
  · rw [e, eL, k4.resolve_left (by rw [hh]; simp)]

/-- **C101 (no more than the text says).** In a file without syntax error the first walk declares only classes, interfaces, traits, functions, methods and namespaces whose name stands in the text
behind the word that says so, each once, in the order of the text, and each in a context whose classes and namespaces are those whose braces, or whose `namespace …;`, are around it in the text. -/
theorem places_sound (v : CharClass) (nm : Nat → QString) {ts : List Tok} (h : (parseFile ts).isSome = true) :
    ∃ f s1, codeOf false nm ts = some f ∧ visitFile v ⟨true, false⟩ f start = some s1 ∧ (declarationsOf s1).Sublist ((places ts).map (named v nm)) := by
  obtain ⟨s, hs⟩ := Option.isSome_iff_exists.1 h
  obtain ⟨s1, s2, h1, h3, _⟩ := first_places (v := v) (nm := nm) hs
  obtain ⟨t, ht, h4⟩ := Option.bind_eq_some_iff.1 h1
  obtain ⟨t2, _, h5⟩ := Option.map_eq_some_iff.1 h4
  cases h5
  exact ⟨_, s1, by simp [codeOf, hs], ht, h3⟩

theorem declarationsOf_congr {s1 s2 : Scopes.St} (h1 : s2.ctxs = s1.ctxs) (h2 : s2.log = s1.log) : declarationsOf s2 = declarationsOf s1 := by
  simp only [declarationsOf, h1, h2]

/-- **C101 (partial).** In a file without syntax error that has no `if (…): … endif`, no `declare`, no index behind an index and none behind a string, both walks run to the end, and each of them
declares exactly the classes, interfaces, traits, functions, methods and namespaces that the text says, in the classes and namespaces that the text says.  Missing: the other files, for which it is false. -/
theorem places_declared_partial (v : CharClass) (nm : Nat → QString) {ts : List Tok} (h : (parseFile ts).isSome = true) (hh : hides ts = false) :
    ∃ s1 s2, declared v nm ts = some (s1, s2) ∧ declarationsOf s1 = (places ts).map (named v nm) ∧ declarationsOf s2 = (places ts).map (named v nm) := by
  obtain ⟨s1, s2, h1, h2, h3, h4, h5, _⟩ := classes_declared_partial v nm h hh
  obtain ⟨s, hs⟩ := Option.isSome_iff_exists.1 h
  obtain ⟨t1, t2, e1, _, e2⟩ := first_places (v := v) (nm := nm) hs
  have e : t1 = s1 := by
    have hd := h1
    simp only [declared, codeOf, hs, Option.map_some, Option.bind_some] at hd
    obtain ⟨a, ha, hb⟩ := Option.bind_eq_some_iff.1 hd
    obtain ⟨_, _, hc⟩ := Option.map_eq_some_iff.1 hb
    obtain ⟨a', ha', hb'⟩ := Option.bind_eq_some_iff.1 e1
    obtain ⟨_, _, hc'⟩ := Option.map_eq_some_iff.1 hb'
    cases hc; cases hc'
    exact Option.some.inj (ha'.symm.trans ha)
  subst e
  exact ⟨t1, s2, h1, e2 hh, (declarationsOf_congr h4 h5).trans (e2 hh)⟩

/-- the tokens of the stream are those of the text -/
theorem stream_kinds {v : CharClass} (hv : v.Lawful) {c : QString} {php : Bool} {n : Nat} {stream : List PTok} (ht : tokenize v c php n = some (.done stream)) :
    ∀ i, i < (kindsOf stream).length → (stream[i]?).bind PTok.kind = (kindsOf stream)[i]? := by
  obtain ⟨_, pre, x, rfl, hx, hpre⟩ := stream_no_trivia hv ht
  have e : kindsOf (pre ++ [x]) = kindsOf pre := by simp [kindsOf, hx]
  rw [e]
  have key : ∀ l : List PTok, (∀ t ∈ l, t.kind ≠ none) → (kindsOf l).length = l.length ∧ ∀ i : Nat, (l[i]?).bind PTok.kind = (kindsOf l)[i]? := by
    intro l
    induction l with
    | nil => exact fun _ => ⟨rfl, fun i => by simp [kindsOf]⟩
    | cons t l ih =>
      intro hl
      obtain ⟨k, hk⟩ := Option.ne_none_iff_exists'.1 (hl t (by simp))
      have ih := ih fun y hy => hl y (List.mem_cons_of_mem _ hy)
      have e : kindsOf (t :: l) = k :: kindsOf l := by simp [kindsOf, hk]
      rw [e]
      refine ⟨by simp [ih.1], fun i => ?_⟩
      cases i with
      | zero => simp [hk]
      | succ i => simpa using ih.2 i
  have hk := key pre hpre
  intro i hi
  rw [List.getElem?_append_left (by omega)]
  exact hk.2 i

/-- **C101 (partial), from the text of a file.** Whatever the source is: if it is read to its end without syntax error and hides nothing, both walks declare exactly what the text says where the text
says it; and the `i`-th token of the text is the `i`-th token of the stream, so that its name is the piece of the source that it covers. -/
theorem source_places_partial (v : CharClass) (hv : v.Lawful) {c : QString} {php : Bool} {n : Nat} {stream : List PTok} (ht : tokenize v c php n = some (.done stream))
    (hp : (parseFile (kindsOf stream)).isSome = true) (hh : hides (kindsOf stream) = false) :
    (∀ i, i < (kindsOf stream).length → (stream[i]?).bind PTok.kind = (kindsOf stream)[i]?) ∧
    ∃ s1 s2, declared v (nameIn c stream) (kindsOf stream) = some (s1, s2) ∧ declarationsOf s1 = (places (kindsOf stream)).map (named v (nameIn c stream)) ∧
      declarationsOf s2 = (places (kindsOf stream)).map (named v (nameIn c stream)) :=
  ⟨stream_kinds hv ht, places_declared_partial v _ hp hh⟩

/-! ### Files -/

/-- what the first walk declares, and where -/
def firstDecls (ts : List Tok) : Option (List (What × QString × List QString)) :=
  ((codeOf false number ts).bind fun f => visitFile asciiClass ⟨true, false⟩ f start).map declarationsOf

/-- `namespace A\B; interface I { const FUNCTION = 1; abstract function class (); } function & f () { function () { class C { use T { T::x as public function; } function & g () { D::class; } } }; }
namespace E; trait F { } $x->{ function () { function h () { } } };` -/
def placesFile : List Tok := [.NAMESPACE, .STRING, .BACKSLASH, .STRING, .SEMICOLON,
  .INTERFACE, .STRING, .LBRACE, .CONST, .FUNCTION, .ASSIGN, .LPAREN, .LNUMBER, .RPAREN, .SEMICOLON, .ABSTRACT, .FUNCTION, .CLASS, .LPAREN, .RPAREN, .SEMICOLON, .RBRACE,
  .FUNCTION, .BIT_AND, .STRING, .LPAREN, .RPAREN, .LBRACE, .FUNCTION, .LPAREN, .RPAREN, .LBRACE,
  .CLASS, .STRING, .LBRACE, .USE, .STRING, .LBRACE, .STRING, .PAAMAYIM_NEKUDOTAYIM, .STRING, .AS, .PUBLIC, .FUNCTION, .SEMICOLON, .RBRACE,
  .FUNCTION, .BIT_AND, .STRING, .LPAREN, .RPAREN, .LBRACE, .STRING, .PAAMAYIM_NEKUDOTAYIM, .CLASS, .SEMICOLON, .RBRACE, .RBRACE, .RBRACE, .SEMICOLON, .RBRACE,
  .NAMESPACE, .STRING, .SEMICOLON, .TRAIT, .STRING, .LBRACE, .RBRACE,
  .VARIABLE, .OBJECT_OPERATOR, .LBRACE, .FUNCTION, .LPAREN, .RPAREN, .LBRACE, .FUNCTION, .STRING, .LPAREN, .RPAREN, .LBRACE, .RBRACE, .RBRACE, .RBRACE, .SEMICOLON]
/-- A file that meets the hypotheses.  The `i`-th token is called `i`, which lower case changes for 65 and 76. -/
example : (parseFile placesFile).isSome = true ∧ hides placesFile = false ∧ places placesFile = [(.namespace, 1, []), (.namespace, 3, [1]), (.type .interface, 6, [3, 1]), (.method, 17, [6, 3, 1]), (.function, 24, [3, 1]),
    (.type .klass, 33, [3, 1]), (.method, 48, [33, 3, 1]), (.namespace, 62, []), (.type .trait, 65, [62]), (.function, 76, [62])] ∧
    firstDecls placesFile = some [(.namespace, [1], []), (.namespace, [3], [[1]]), (.type .interface, [6], [[3], [1]]), (.method, [17], [[6], [3], [1]]), (.function, [24], [[3], [1]]),
    (.type .klass, [33], [[3], [1]]), (.method, [48], [[33], [3], [1]]), (.namespace, [62], []), (.type .trait, [65 + 32], [[62]]), (.function, [76 + 32], [[62]])] := by decide +kernel

/-- `namespace A { function f () { } } namespace { class B { function g () { } } }` -/
def blocksFile : List Tok := [.NAMESPACE, .STRING, .LBRACE, .FUNCTION, .STRING, .LPAREN, .RPAREN, .LBRACE, .RBRACE, .RBRACE,
  .NAMESPACE, .LBRACE, .CLASS, .STRING, .LBRACE, .FUNCTION, .STRING, .LPAREN, .RPAREN, .LBRACE, .RBRACE, .RBRACE, .RBRACE]
example : (parseFile blocksFile).isSome = true ∧ hides blocksFile = false ∧ places blocksFile = [(.namespace, 1, []), (.function, 4, [1]), (.type .klass, 13, []), (.method, 16, [13])] ∧
    firstDecls blocksFile = some [(.namespace, [1], []), (.function, [4], [[1]]), (.type .klass, [13], []), (.method, [16], [[13]])] := by decide +kernel

/-- `if ($a): else: function f () { } endif;` -/
def elseFunction : List Tok := [.IF, .LPAREN, .VARIABLE, .RPAREN, .COLON, .ELSE, .COLON, .FUNCTION, .STRING, .LPAREN, .RPAREN, .LBRACE, .RBRACE, .ENDIF, .SEMICOLON]
/-- **C101 (counterexample).** A function behind `else:` is never declared. -/
theorem function_not_declared :
    (parseFile elseFunction).isSome = true ∧ places elseFunction = [(.function, 8, [])] ∧ firstDecls elseFunction = some [] := by decide +kernel

/-- `<?php namespace N; class A { function f () { } }` -/
def placesSource : QString := q! "<?php namespace N; class A { function f () { } }"
/-- what the text says, by names -/
def placesIn (c : QString) : Option (Bool × Bool × List (What × QString × List QString)) :=
  (tokenize asciiClass c false 60).bind fun f => match f with
    | .done stream => some ((parseFile (kindsOf stream)).isSome, hides (kindsOf stream), (places (kindsOf stream)).map (named asciiClass (nameIn c stream)))
    | .running => none
example : (placesIn placesSource).map (fun r => r.1 && !r.2.1) = some true ∧
    (placesIn placesSource).map (fun r => r.2.2) = some [(.namespace, q! "n", []), (.type .klass, q! "a", [q! "n"]), (.method, q! "f", [q! "a", q! "n"])] := by decide +kernel

end KPhp.Outline
