import Verif.Duchain.VariableScopes
/-!
# Variables of functions, in terms of the text (C63)

Joins the contexts of a file (C61) with the lookup of variables (`VariableScopes.lean`).
-/
namespace KPhp.Denote
open Scopes

/-! ### The contexts of a file, by their nodes -/

/-- The node of the innermost construct. -/
def headKey (sc : Scope) : Option Key := sc.frames.head?.bind (·.key)

/-- What is known about a context the text asks for from its node. -/
inductive Shape : Scope → Prop
  | whole (id : Nat) (kind : Kind) (name : QString) (rest : List Frame) (h : kind = .klass ∨ kind = .namespace) :
      Shape ⟨⟨some ⟨id, .whole⟩, kind, name⟩ :: rest, []⟩
  | params (id : Nat) (name : QString) (rest : List Frame) : Shape ⟨⟨some ⟨id, .params⟩, .function, name⟩ :: rest, []⟩
  | uses (id : Nat) (name : QString) (rest : List Frame) : Shape ⟨⟨some ⟨id, .uses⟩, .other, name⟩ :: rest, []⟩
  | body (id : Nat) (name : QString) (rest : List Frame) : Shape ⟨⟨some ⟨id, .body⟩, .other, name⟩ :: rest, [⟨id, .params⟩]⟩
  | closureBody (id : Nat) (name : QString) (rest : List Frame) :
      Shape ⟨⟨some ⟨id, .body⟩, .other, name⟩ :: rest, [⟨id, .params⟩, ⟨id, .uses⟩]⟩

theorem scopes_shape (u : CharClass) (i : Bool) : ∀ (c : Code) (around : List Frame), ∀ sc ∈ scopes u i around c, Shape sc
  | .empty, _, _, h => by cases h
  | .seq a b, around, sc, h => by
    rcases List.mem_append.mp h with h | h
    · exact scopes_shape u i a around sc h
    · exact scopes_shape u i b around sc h
  | .leaf _, _, _, h => by cases h
  | .closure id params hasUses uses body, around, sc, h => by
    simp only [scopes, List.mem_cons, List.mem_append] at h
    rcases h with (h | h) | h | h
    · rw [h]; exact .params _ _ _
    · exact scopes_shape u i params _ sc h
    · split at h
      · rcases List.mem_cons.mp h with h | h
        · rw [h]; exact .uses _ _ _
        · exact scopes_shape u i uses _ sc h
      · cases h
    · split at h
      · cases h
      · rcases List.mem_cons.mp h with h | h
        · rw [h]
          cases hasUses
          · exact .body _ _ _
          · exact .closureBody _ _ _
        · exact scopes_shape u i body _ sc h
  | .function id name params body, around, sc, h => by
    simp only [scopes, List.mem_cons, List.mem_append] at h
    rcases h with (h | h) | h
    · rw [h]; exact .params _ _ _
    · exact scopes_shape u i params _ sc h
    · split at h
      · cases h
      · rcases List.mem_cons.mp h with h | h
        · rw [h]; exact .body _ _ _
        · exact scopes_shape u i body _ sc h
  | .type id k name members, around, sc, h => by
    simp only [scopes, List.mem_cons] at h
    rcases h with h | h
    · rw [h]; exact .whole _ _ _ _ (.inl rfl)
    · exact scopes_shape u i members _ sc h
  | .method id name params hasBody body, around, sc, h => by
    simp only [scopes, List.mem_cons, List.mem_append] at h
    rcases h with (h | h) | h
    · rw [h]; exact .params _ _ _
    · exact scopes_shape u i params _ sc h
    · split at h
      · cases h
      · rcases List.mem_cons.mp h with h | h
        · rw [h]; exact .body _ _ _
        · exact scopes_shape u i body _ sc h

theorem nsScopes_shape (u : CharClass) : ∀ (n : NsName) (around : List Frame), ∀ sc ∈ nsScopes u around n, Shape sc
  | [], _, _, h => by cases h
  | (id, n) :: ns, around, sc, h => by
    rcases List.mem_cons.mp h with h | h
    · rw [h]; exact .whole _ _ _ _ (.inr rfl)
    · exact nsScopes_shape u ns _ sc h

theorem fileScopes_shape (u : CharClass) (i : Bool) : ∀ (f : List Outer) (ns : NsName), ∀ sc ∈ fileScopes u i ns f, Shape sc
  | [], _, _, h => by cases h
  | .code c :: f, ns, sc, h => by
    rcases List.mem_append.mp h with h | h
    · exact scopes_shape u i c _ sc h
    · exact fileScopes_shape u i f _ sc h
  | .nsDecl n :: f, ns, sc, h => by
    rcases List.mem_append.mp h with h | h
    · exact nsScopes_shape u n _ sc h
    · exact fileScopes_shape u i f _ sc h
  | .nsBlock n b :: f, ns, sc, h => by
    rcases List.mem_append.mp h with h | h
    · rcases List.mem_append.mp h with h | h
      · exact nsScopes_shape u n _ sc h
      · exact scopes_shape u i b _ sc h
    · exact fileScopes_shape u i f _ sc h

theorem scopes_keys (u : CharClass) (i : Bool) : ∀ (c : Code) (around : List Frame),
    ((scopes u i around c).map headKey).Sublist ((keys c).map some)
  | .empty, _ => by simp [scopes, keys]
  | .seq a b, around => by
    simp only [scopes, keys, List.map_append]
    exact (scopes_keys u i a around).append (scopes_keys u i b around)
  | .leaf _, _ => by simp [scopes, keys]
  | .closure id params hasUses uses body, around => by
    simp only [scopes, keys, List.map_append, List.map_cons]
    refine (List.Sublist.cons_cons _ (scopes_keys u i params _)).append (List.Sublist.append ?_ ?_)
    · split
      · exact List.Sublist.cons_cons _ (scopes_keys u i uses _)
      · exact List.nil_sublist _
    · split
      · exact List.nil_sublist _
      · exact List.Sublist.cons_cons _ (scopes_keys u i body _)
  | .function id name params body, around => by
    simp only [scopes, keys, List.map_append, List.map_cons]
    refine (List.Sublist.cons_cons _ (scopes_keys u i params _)).append ?_
    split
    · exact List.nil_sublist _
    · exact List.Sublist.cons_cons _ (scopes_keys u i body _)
  | .type id k name members, around => by
    simp only [scopes, keys, List.map_cons]
    exact List.Sublist.cons_cons _ (scopes_keys u i members _)
  | .method id name params hasBody body, around => by
    simp only [scopes, keys, List.map_append, List.map_cons]
    refine (List.Sublist.cons_cons _ (scopes_keys u i params _)).append ?_
    split
    · exact List.nil_sublist _
    · exact List.Sublist.cons_cons _ (scopes_keys u i body _)

theorem nsScopes_keys (u : CharClass) : ∀ (n : NsName) (around : List Frame),
    (nsScopes u around n).map headKey = (n.map fun x => (⟨x.1, .whole⟩ : Key)).map some
  | [], _ => rfl
  | (id, n) :: ns, around => by
    simp only [nsScopes, List.map_cons, nsScopes_keys u ns]
    rfl

theorem fileScopes_keys (u : CharClass) (i : Bool) : ∀ (f : List Outer) (ns : NsName),
    ((fileScopes u i ns f).map headKey).Sublist ((fileKeys f).map some)
  | [], _ => by simp [fileScopes, fileKeys]
  | .code c :: f, ns => by
    simp only [fileScopes, fileKeys, List.map_append]
    exact (scopes_keys u i c _).append (fileScopes_keys u i f _)
  | .nsDecl n :: f, ns => by
    simp only [fileScopes, fileKeys, List.map_append, nsScopes_keys]
    exact (List.Sublist.refl _).append (fileScopes_keys u i f _)
  | .nsBlock n b :: f, ns => by
    simp only [fileScopes, fileKeys, List.map_append, nsScopes_keys, List.append_assoc]
    exact (List.Sublist.refl _).append ((scopes_keys u i b _).append (fileScopes_keys u i f _))

theorem madeAll_get {cs : List Ctx} : ∀ {n : Nat} {l : List Scope} {j : Nat} {sc : Scope}, MadeAll cs n l → l[j]? = some sc → Made cs (n + j) sc
  | _, [], _, _, _, h => by simp at h
  | n, _ :: _, 0, sc, ⟨h1, _⟩, h => by
    simp only [List.getElem?_cons_zero, Option.some.injEq] at h
    exact h ▸ h1
  | n, _ :: _, j + 1, sc, ⟨_, h2⟩, h => by
    rw [List.getElem?_cons_succ] at h
    have := madeAll_get h2 h
    rwa [show n + 1 + j = n + (j + 1) by omega] at this

/-- The contexts of a file in the form in which `build_good` gives them. -/
structure OfFile (u : CharClass) (i : Bool) (f : List Outer) (cs : List Ctx) : Prop where
  first : cs[0]? = some ⟨none, .global, [], none, []⟩
  len : cs.length = 1 + (fileScopes u i [] f).length
  made : MadeAll cs 1 (fileScopes u i [] f)
  nodup : (fileKeys f).Nodup

/-- A context that belongs to a node is one the text asks for. -/
theorem OfFile.scope {u : CharClass} {i : Bool} {f : List Outer} {cs : List Ctx} (h : OfFile u i f cs) {c : Nat} {x : Ctx} {k : Key} (hc : cs[c]? = some x)
    (hk : x.key = some k) : ∃ j sc, c = 1 + j ∧ (fileScopes u i [] f)[j]? = some sc ∧ headKey sc = some k ∧ Shape sc ∧ Made cs c sc := by
  have hlt := (List.getElem?_eq_some_iff.mp hc).1
  have h0 : c ≠ 0 := by
    intro h0
    rw [h0, h.first] at hc
    cases hc; cases hk
  obtain ⟨j, rfl⟩ : ∃ j, c = 1 + j := ⟨c - 1, by omega⟩
  have hj : j < (fileScopes u i [] f).length := by rw [h.len] at hlt; omega
  obtain ⟨sc, hsc⟩ : ∃ sc, (fileScopes u i [] f)[j]? = some sc := ⟨_, List.getElem?_eq_getElem hj⟩
  have hm := madeAll_get h.made hsc
  have hs := fileScopes_shape u i f [] sc (List.mem_of_getElem? hsc)
  refine ⟨j, sc, rfl, hsc, ?_, hs, hm⟩
  obtain ⟨hw, _⟩ := hm
  unfold headKey
  generalize sc.frames = fs at hw
  cases hw with
  | file hx _ => simp_all
  | inner hx _ _ _ => simp_all

/-- A node has only one context. -/
theorem OfFile.unique {u : CharClass} {i : Bool} {f : List Outer} {cs : List Ctx} (h : OfFile u i f cs) {c c' : Nat} {x x' : Ctx} {k : Key}
    (hc : cs[c]? = some x) (hc' : cs[c']? = some x') (hk : x.key = some k) (hk' : x'.key = some k) : c = c' := by
  obtain ⟨j, sc, rfl, h1, h2, _⟩ := h.scope hc hk
  obtain ⟨j', sc', rfl, h1', h2', _⟩ := h.scope hc' hk'
  have hn : ((fileScopes u i [] f).map headKey).Nodup := by
    refine List.Nodup.sublist (fileScopes_keys u i f []) ?_
    exact List.Pairwise.map some (fun a b hab h' => hab (Option.some.inj h')) h.nodup
  have e1 : ((fileScopes u i [] f).map headKey)[j]? = some (some k) := by simp [h1, h2]
  have e2 : ((fileScopes u i [] f).map headKey)[j']? = some (some k) := by simp [h1', h2']
  have hj := (List.getElem?_eq_some_iff.mp e1).1
  have := (List.getElem?_inj hj hn).mp (e1.trans e2.symm)
  omega

theorem within_head {cs : List Ctx} {c : Nat} {fr : Frame} {rest : List Frame} (h : Within cs c (fr :: rest)) :
    ∃ x, cs[c]? = some x ∧ x.key = fr.key ∧ x.kind = fr.kind := by
  cases h with
  | file hx _ => exact ⟨_, hx, rfl, rfl⟩
  | inner hx _ _ _ => exact ⟨_, hx, rfl, rfl⟩

/-! ### Specification -/

/-- Something stands directly in a part of the function (method, closure) `id`. -/
def In (id : Nat) (part : Part) (fs : List Frame) : Prop := ∃ fr rest, fs = fr :: rest ∧ fr.key = some ⟨id, part⟩

/-- Only statements stand directly in the bodies of functions. -/
def BodiesPlain (u : CharClass) (i : Bool) (f : List Outer) : Prop :=
  ∀ l fs id, (.leaf l, fs) ∈ fileSites u i [] f → In id .body fs → InBody l

/-! ### Proofs -/

/-- The contexts of a function, from that of its body. -/
theorem func_of {u : CharClass} {i : Bool} {f : List Outer} {cs : List Ctx} (h : OfFile u i f cs) {b : Nat} {fs : List Frame} {id : Nat}
    (hw : Within cs b fs) (hin : In id .body fs) :
    ∃ p us, Func cs b p us ∧ (∃ x, cs[p]? = some x ∧ x.key = some ⟨id, .params⟩) ∧ ∀ v ∈ us, ∃ x, cs[v]? = some x ∧ x.key = some ⟨id, .uses⟩ := by
  obtain ⟨fr, rest, rfl, hkey⟩ := hin
  obtain ⟨x, hx, hxk, _⟩ := within_head hw
  obtain ⟨j, sc, rfl, hj, hhead, hshape, hmade⟩ := h.scope hx (hxk.trans hkey)
  obtain ⟨hwm, x', hx', hbes⟩ := hmade
  rw [hx] at hx'; cases hx'
  have leaf : ∀ (v : Nat) (y : Ctx) (part : Part), cs[v]? = some y → y.key = some ⟨id, part⟩ → (part = .params ∨ part = .uses) →
      v ≠ 0 ∧ y.kind = (if part = .params then .function else .other) ∧ y.imports = [] := by
    intro v y part hv hyk hp
    obtain ⟨j', sc', rfl, _, hhead', hshape', hmade'⟩ := h.scope hv hyk
    obtain ⟨hw', y', hy', hb'⟩ := hmade'
    rw [hv] at hy'; cases hy'
    refine ⟨by omega, ?_⟩
    have himp : sc'.imports = [] → y.imports = [] := by
      intro he
      rw [he] at hb'
      cases hyi : y.imports with
      | nil => rfl
      | cons a l => rw [hyi] at hb'; exact hb'.elim
    cases hshape' with
    | whole id' kind name rest hk =>
      simp only [headKey, List.head?_cons, Option.bind_some, Option.some.injEq, Key.mk.injEq] at hhead'
      rcases hp with rfl | rfl <;> exact absurd hhead'.2 (by simp)
    | params id' name rest =>
      simp only [headKey, List.head?_cons, Option.bind_some, Option.some.injEq, Key.mk.injEq] at hhead'
      obtain ⟨y'', h1, _, h3⟩ := within_head hw'
      rw [hv] at h1; cases h1
      exact ⟨by rw [h3, ← hhead'.2]; rfl, himp rfl⟩
    | uses id' name rest =>
      simp only [headKey, List.head?_cons, Option.bind_some, Option.some.injEq, Key.mk.injEq] at hhead'
      obtain ⟨y'', h1, _, h3⟩ := within_head hw'
      rw [hv] at h1; cases h1
      exact ⟨by rw [h3, ← hhead'.2]; rfl, himp rfl⟩
    | body id' name rest =>
      simp only [headKey, List.head?_cons, Option.bind_some, Option.some.injEq, Key.mk.injEq] at hhead'
      rcases hp with rfl | rfl <;> exact absurd hhead'.2 (by simp)
    | closureBody id' name rest =>
      simp only [headKey, List.head?_cons, Option.bind_some, Option.some.injEq, Key.mk.injEq] at hhead'
      rcases hp with rfl | rfl <;> exact absurd hhead'.2 (by simp)
  cases hshape with
  | whole id' kind name rest hk =>
    simp only [headKey, List.head?_cons, Option.bind_some, Option.some.injEq, Key.mk.injEq, reduceCtorEq, and_false] at hhead
  | params id' name rest =>
    simp only [headKey, List.head?_cons, Option.bind_some, Option.some.injEq, Key.mk.injEq, reduceCtorEq, and_false] at hhead
  | uses id' name rest =>
    simp only [headKey, List.head?_cons, Option.bind_some, Option.some.injEq, Key.mk.injEq, reduceCtorEq, and_false] at hhead
  | body id' name rest =>
    simp only [headKey, List.head?_cons, Option.bind_some, Option.some.injEq, Key.mk.injEq, and_true] at hhead
    subst hhead
    obtain ⟨y, hy, _, hyk⟩ := within_head hwm
    rw [hx] at hy; cases hy
    cases hi : x.imports with
    | nil => rw [hi] at hbes; exact hbes.elim
    | cons p l =>
      rw [hi] at hbes
      obtain ⟨⟨yp, hp1, hp2, _⟩, hbes⟩ := hbes
      cases l with
      | cons _ _ => exact hbes.elim
      | nil =>
        obtain ⟨n1, n2, n3⟩ := leaf p yp .params hp1 hp2 (.inl rfl)
        exact ⟨p, [], ⟨⟨x, hx, hyk, hi⟩, ⟨yp, hp1, by simpa using n2, n3⟩, by simp, by omega, n1, by simp⟩, ⟨yp, hp1, hp2⟩, by simp⟩
  | closureBody id' name rest =>
    simp only [headKey, List.head?_cons, Option.bind_some, Option.some.injEq, Key.mk.injEq, and_true] at hhead
    subst hhead
    obtain ⟨y, hy, _, hyk⟩ := within_head hwm
    rw [hx] at hy; cases hy
    cases hi : x.imports with
    | nil => rw [hi] at hbes; exact hbes.elim
    | cons p l =>
      rw [hi] at hbes
      obtain ⟨⟨yp, hp1, hp2, _⟩, hbes⟩ := hbes
      cases l with
      | nil => exact hbes.elim
      | cons v l =>
        obtain ⟨⟨yv, hv1, hv2, _⟩, hbes⟩ := hbes
        cases l with
        | cons _ _ => exact hbes.elim
        | nil =>
          obtain ⟨n1, n2, n3⟩ := leaf p yp .params hp1 hp2 (.inl rfl)
          obtain ⟨m1, m2, m3⟩ := leaf v yv .uses hv1 hv2 (.inr rfl)
          refine ⟨p, [v], ⟨⟨x, hx, hyk, hi⟩, ⟨yp, hp1, by simpa using n2, n3⟩, ?_, by omega, n1, by simpa using fun h => m1 h.symm⟩, ⟨yp, hp1, hp2⟩, ?_⟩
          · intro v' hv'
            rw [List.mem_singleton.mp hv']
            exact ⟨yv, hv1, by simpa using m2, m3⟩
          · intro v' hv'
            rw [List.mem_singleton.mp hv']
            exact ⟨yv, hv1, hv2⟩

theorem agrees_mem' {cs : List Ctx} : ∀ {l l'} {e : Event} {c : Nat}, Agrees cs l l' → (e, c) ∈ l →
    ∃ fs, (e, fs) ∈ l' ∧ Within cs c fs
  | [], [], _, _, _, h => by cases h
  | (_, _) :: _, (_, fs) :: _, _, _, ⟨h1, h2, h3⟩, h => by
    rcases List.mem_cons.mp h with h | h
    · cases h; exact ⟨fs, by simp [h1], h2⟩
    · obtain ⟨fs', h4, h5⟩ := agrees_mem' h3 h
      exact ⟨fs', List.mem_cons_of_mem _ h4, h5⟩

/-- Within contexts of the same node. -/
theorem same_ctx {u : CharClass} {i : Bool} {f : List Outer} {cs : List Ctx} (h : OfFile u i f cs) {c c' : Nat} {fs : List Frame} {id : Nat} {part : Part} {x' : Ctx}
    (hw : Within cs c fs) (hin : In id part fs) (hx' : cs[c']? = some x') (hk : x'.key = some ⟨id, part⟩) : c = c' := by
  obtain ⟨fr, rest, rfl, hkey⟩ := hin
  obtain ⟨x, hx, hxk, _⟩ := within_head hw
  exact h.unique hx hx' (hxk.trans hkey) hk

theorem in_of_key {cs : List Ctx} {c : Nat} {fs : List Frame} {id : Nat} {part : Part} {x : Ctx} (hw : Within cs c fs) (hx : cs[c]? = some x)
    (hk : x.key = some ⟨id, part⟩) : In id part fs := by
  cases hw with
  | file hx' _ => rw [hx] at hx'; cases hx'; exact ⟨_, _, rfl, hk⟩
  | inner hx' _ _ _ => rw [hx] at hx'; cases hx'; exact ⟨_, _, rfl, hk⟩

/-- **C63.** A variable never leaks out of a function: if a variable read in the body of a function (method, closure) of a file denotes
something, then it is a superglobal, or the variable is introduced in the text of this very function – in its parameter list, its list of lexical
variables or directly in its body. -/
theorem variable_in_function (u : CharClass) (i : Bool) (f : List Outer) (hk : (fileKeys f).Nodup) (ht : (fileTokens f).Nodup) :
    ∃ s1 s2, build u i f = some (s1, s2) ∧
      ∀ (w : World) (x : QString) (q c : Nat) (fs : List Frame) (id : Nat) (t : Target), (.leaf (.read x q), c) ∈ s2.log → Within s2.ctxs c fs →
        In id .body fs → x ≠ q! "this" → resolve w s2.ctxs (declared w s2.ctxs s2.log) c x q = some t →
        (∃ l fs' part, (.leaf l, fs') ∈ fileSites u i [] f ∧ Introduces x l ∧ In id part fs') ∨ ∃ g ∈ w x, g.superglobal = true ∧ t = .foreign g.id := by
  obtain ⟨s1, s2, hb, _, _, h0, hlen, hmade, ha, hc, hl⟩ := build_good u i f hk ht
  refine ⟨s1, s2, hb, ?_⟩
  rw [hc, hl]
  have hof : OfFile u i f s1.ctxs := ⟨h0, hlen, hmade, hk⟩
  intro w x q c fs id t _ hw hin hx hr
  obtain ⟨p, us, hf, ⟨xp, hp1, hp2⟩, hus⟩ := func_of hof hw hin
  rcases resolve_own hf hx hr with ⟨l, c', hmem, hi, hcc⟩ | h
  · left
    obtain ⟨fs', hm', hw'⟩ := agrees_mem' ha hmem
    rcases hcc with rfl | rfl | hcc
    · exact ⟨l, fs', .body, hm', hi, by rw [Within.unique hw' hw]; exact hin⟩
    · exact ⟨l, fs', .params, hm', hi, in_of_key hw' hp1 hp2⟩
    · obtain ⟨xv, hv1, hv2⟩ := hus c' hcc
      exact ⟨l, fs', .uses, hm', hi, in_of_key hw' hv1 hv2⟩
  · exact .inr h

/-- **C63.** A variable that is assigned in the body of a function (by `=`, `catch` or `static`), or is one of its parameters, is found wherever it
is read behind this place in the same body: it denotes a variable that is introduced in the text of this function. -/
theorem assigned_in_function (u : CharClass) (i : Bool) (f : List Outer) (hk : (fileKeys f).Nodup) (ht : (fileTokens f).Nodup)
    (hplain : BodiesPlain u i f) :
    ∃ s1 s2, build u i f = some (s1, s2) ∧
      ∀ (w : World) (x : QString) (p q c : Nat) (fs fs' : List Frame) (id : Nat), (.leaf (.read x q), c) ∈ s2.log → Within s2.ctxs c fs →
        In id .body fs → x ≠ q! "this" → p ≤ q →
        ((.leaf (.assign x p), fs') ∈ fileSites u i [] f ∧ In id .body fs' ∨ (.leaf (.fresh x p), fs') ∈ fileSites u i [] f ∧ In id .body fs' ∨
          (.leaf (.param x p), fs') ∈ fileSites u i [] f ∧ In id .params fs') →
        ∃ (t : Target) (j : Nat) (v : Var) (fsv : List Frame) (part : Part), resolve w s2.ctxs (declared w s2.ctxs s2.log) c x q = some t ∧ (declared w s2.ctxs s2.log)[j]? = some v ∧ v.name = x ∧
          t = v.alias.getD (.own j) ∧ Within s2.ctxs v.ctx fsv ∧ In id part fsv := by
  obtain ⟨s1, s2, hb, _, _, h0, hlen, hmade, ha, hc, hl⟩ := build_good u i f hk ht
  refine ⟨s1, s2, hb, ?_⟩
  rw [hc, hl]
  have hof : OfFile u i f s1.ctxs := ⟨h0, hlen, hmade, hk⟩
  intro w x p q c fs fs' id _ hw hin hx hpq hcase
  obtain ⟨pc, us, hf, ⟨xp, hp1, hp2⟩, hus⟩ := func_of hof hw hin
  have hbody : ∀ l, (.leaf l, c) ∈ s1.log → InBody l := by
    intro l hm
    obtain ⟨fs'', hm', hw'⟩ := agrees_mem' ha hm
    exact hplain l fs'' id hm' (by rw [Within.unique hw' hw]; exact hin)
  obtain ⟨xc, hxc, hxck⟩ : ∃ xc, s1.ctxs[c]? = some xc ∧ xc.key = some ⟨id, .body⟩ := by
    obtain ⟨fr, rest, rfl, hkey⟩ := hin
    obtain ⟨xc, h1, h2, _⟩ := within_head hw
    exact ⟨xc, h1, h2.trans hkey⟩
  have hev : (.leaf (.assign x p), c) ∈ s1.log ∨ (.leaf (.fresh x p), c) ∈ s1.log ∨ (.leaf (.param x p), pc) ∈ s1.log := by
    rcases hcase with ⟨hm, hi⟩ | ⟨hm, hi⟩ | ⟨hm, hi⟩
    · obtain ⟨c', h1, h2⟩ := agrees_mem ha hm
      exact .inl (same_ctx hof h2 hi hxc hxck ▸ h1)
    · obtain ⟨c', h1, h2⟩ := agrees_mem ha hm
      exact .inr (.inl (same_ctx hof h2 hi hxc hxck ▸ h1))
    · obtain ⟨c', h1, h2⟩ := agrees_mem ha hm
      exact .inr (.inr (same_ctx hof h2 hi hp1 hp2 ▸ h1))
  obtain ⟨t, hr, j, v, hv1, hv2, hv3, hv4⟩ := assigned_found hf hbody hx hpq hev
  have hwv : ∃ fsv part, Within s1.ctxs v.ctx fsv ∧ In id part fsv := by
    have key : ∀ (c' : Nat) (y : Ctx) (part : Part), s1.ctxs[c']? = some y → y.key = some ⟨id, part⟩ →
        ∃ fsv part, Within s1.ctxs c' fsv ∧ In id part fsv := by
      intro c' y part hy hyk
      obtain ⟨_, sc, _, _, _, _, hw', _⟩ := hof.scope hy hyk
      exact ⟨sc.frames, part, hw', in_of_key hw' hy hyk⟩
    rcases hv3 with h | h | h
    · rw [h]; exact ⟨fs, .body, hw, hin⟩
    · rw [h]; exact key pc xp .params hp1 hp2
    · obtain ⟨y, hy, hyk⟩ := hus v.ctx h
      exact key v.ctx y .uses hy hyk
  obtain ⟨fsv, part, h1, h2⟩ := hwv
  exact ⟨t, j, v, fsv, part, hr, hv1, hv2, hv4, h1, h2⟩

end KPhp.Denote
